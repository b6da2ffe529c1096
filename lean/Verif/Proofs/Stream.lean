import Verif.Model.Stream
import Verif.Proofs.Coder
import Verif.Props.Train

/-! # The stream model -/

namespace VGram

open Spec

variable {F : Type}

/-! ## Codes arrive in order -/

theorem encode_arrive : ∀ (seq hist : List Int),
    Arrive (seen hist).length (seq.map fun x => ((seen (hist ++ seq)).idxOf x : Int)) (seen (hist ++ seq)).length := by
  intro seq
  induction seq with
  | nil => intro hist; simpa using Arrive.nil
  | cons x xs ih =>
    intro hist
    have h := ih (hist ++ [x])
    rw [show hist ++ [x] ++ xs = hist ++ x :: xs by simp] at h
    have hp : seen (hist ++ [x]) <+: seen (hist ++ x :: xs) := by
      have := seen_append_prefix (hist ++ [x]) xs
      simpa using this
    have hx : x ∈ seen (hist ++ [x]) := by rw [seen_mem]; simp
    rw [List.map_cons, idxOf_prefix hp hx]
    rw [seen_snoc] at h hx ⊢
    unfold snocSeen at h hx ⊢
    split at hx
    · next hm =>
      rw [if_pos hm] at h ⊢
      refine Arrive.known (by omega) ?_ h
      have := List.idxOf_lt_length_iff.2 hm
      omega
    · next hm =>
      rw [if_neg hm] at h ⊢
      rw [List.idxOf_append, if_neg hm]
      simp only [List.idxOf_cons_self, Nat.zero_add, List.length_append, List.length_singleton] at h ⊢
      exact Arrive.fresh h

/-! ## Spelling after decoding -/

theorem Spec.Spells.map {words : List IntSeq} {ids : List Int} {seq : IntSeq} (h : Spells words ids seq) (f : Int → Int) :
    Spells (words.map (List.map f)) ids (seq.map f) := by
  obtain ⟨ws, h1, rfl⟩ := h
  refine ⟨ws.map (List.map f), ?_, by rw [List.map_flatten]⟩
  induction h1 with
  | nil => exact .nil
  | cons a _ ih =>
    refine .cons ⟨a.1, ?_⟩ ih
    rw [List.getElem?_map, a.2]
    rfl

theorem decodeAll_ok {c : SeqCoder} {vals : List Int} (h : CInv c vals) : ∀ {words : List IntSeq},
    (∀ w ∈ words, ∀ x ∈ w, 0 ≤ x ∧ x < (vals.length : Int)) →
    Stream.decodeAll c words = .ok (words.map (List.map fun k => vals[k.toNat]?.getD 0)) := by
  intro words
  induction words with
  | nil => intro _; rfl
  | cons w ws ih =>
    intro hw
    simp only [Stream.decodeAll]
    rw [h.decode, if_pos (hw w (by simp)), ih fun v hv => hw v (by simp [hv])]
    rfl

/-! ## Invariant -/

/-- Words of a dictionary over the codes `0 … n-1`. -/
structure DOk (n : Nat) (d : IntDict) : Prop where
  wf : WF d
  symbols : ∀ w ∈ d.seqs, ∀ x ∈ w, 0 ≤ x ∧ x < (n : Int)
  closed : Closed d.seqs
  sorted : d.seqs.Pairwise (· < ·) → Sorted d

theorem DOk.mono {n m : Nat} {d : IntDict} (h : DOk n d) (hm : n ≤ m) : DOk m d :=
  ⟨h.wf, fun w hw x hx => by have := h.symbols w hw x hx; omega, h.closed, h.sorted⟩

/-- Invariant of a stream model that has seen the symbols `hist`. -/
structure StreamInv (m : Stream F) (hist : List Int) : Prop where
  coder : CInv m.coder (seen hist)
  tinv : TInv m.builder (seen hist).length
  own : DOk (seen hist).length m.own
  ptr : ∀ i, m.dict = .stat i → i < m.builder.stats.length
  freqs : ∀ f ∈ m.freqs, 0 ≤ f
  total : 0 ≤ m.totalFreqs
  prob : m.dict ≠ .null → ∃ mp, m.minProb = some mp

theorem seen_length_le (hist seq : List Int) : (seen hist).length ≤ (seen (hist ++ seq)).length :=
  (seen_append_prefix hist seq).length_le

/-- What `accept` does. -/
structure Accepted (E : Env F) (m m' : Stream F) (seq : IntSeq) : Prop where
  call : Props.act E m.builder (.accept (m.coder.encode seq).2) = .ok m'.builder
  dict : m'.dict = m.dict
  own : m'.own = m.own
  freqs : m'.freqs = m.freqs
  total : m'.totalFreqs = m.totalFreqs
  minProb : m'.minProb = m.minProb
  size : m'.size = m.size
  coder : m'.coder = (m.coder.encode seq).1
  bsize : m'.builder.size = m.builder.size

theorem StreamInv.accept {E : Env F} (L : EnvLaws E) (SL : ScoreLaws E.ops) {m : Stream F} {hist : List Int} (h : StreamInv m hist)
    (seq : IntSeq) (hcap : ((seen (hist ++ seq)).length : Int) ≤ m.builder.size + 1) :
    ∃ m', m.accept E seq = .ok m' ∧ StreamInv m' (hist ++ seq) ∧ Accepted E m m' seq := by
  obtain ⟨c1, c2⟩ := h.coder.encode seq
  have ha := encode_arrive seq hist
  rw [← c2] at ha
  obtain ⟨b', b1, b2, b3⟩ := accept_tinv L SL h.tinv ha hcap
  obtain ⟨_, _, k⟩ := Props.act_heap (E := E) (b := m.builder) (a := .accept (m.coder.encode seq).2) b1
  refine ⟨{ m with coder := (m.coder.encode seq).1, builder := b' }, by simp only [Stream.accept, b1, ok_bind, pure_M],
    ⟨c1, b2, h.own.mono (seen_length_le _ _), fun i hi => ?_, h.freqs, h.total, h.prob⟩, ⟨b1, rfl, rfl, rfl, rfl, rfl, rfl, rfl, b3⟩⟩
  have := h.ptr i hi
  simp only at k ⊢
  omega

theorem getMin_ok (O : FloatOps F) {b : Builder F} {n : Nat} (h : TInv b n) : ∃ mp, b.getMinProbability O = .ok mp := by
  unfold Builder.getMinProbability
  cases hr : b.result with
  | none => exact ⟨_, rfl⟩
  | some i =>
    simp only
    rw [rd_of_lt (h.res i hr)]
    exact ⟨_, rfl⟩

theorem StreamInv.updateDict {O : FloatOps F} {m : Stream F} {hist : List Int} (h : StreamInv m hist) :
    ∃ m', m.updateDict O = .ok m' ∧ StreamInv m' hist ∧ m'.dict = .stat m.builder.resultIdx ∧
      m'.builder.size = m.builder.size ∧ m'.builder.current = m.builder.current ∧ m'.builder.result = m.builder.result ∧ m'.coder = m.coder ∧ m'.size = m.size ∧
      (m.dict = .stat m.builder.resultIdx → m' = m) ∧
      (m.dict ≠ .stat m.builder.resultIdx → ∃ s, m.builder.stats[m.builder.resultIdx]? = some s ∧
        m'.freqs = m.freqs ++ StatDict.padTo s.symbolFreqs s.size ∧ m'.totalFreqs = sumI m'.freqs ∧
        (∃ mp, m'.minProb = some mp) ∧
        m'.builder.stats = m.builder.stats.set m.builder.resultIdx { s with symbolFreqs := StatDict.padTo s.symbolFreqs s.size }) := by
  unfold Stream.updateDict
  by_cases he : m.dict = .stat m.builder.resultIdx
  · rw [if_pos he]
    exact ⟨m, rfl, h, he, rfl, rfl, rfl, rfl, rfl, fun _ => rfl, fun hn => absurd he hn⟩
  · rw [if_neg he]
    obtain ⟨s, s1, s2, s3⟩ := resultFreqs_tinv h.tinv m.freqs
    have hs := h.tinv.heap s (List.mem_of_getElem? s1)
    have hlt := h.tinv.resultIdx_lt
    have hf : ∀ f ∈ m.freqs ++ StatDict.padTo s.symbolFreqs s.size, 0 ≤ f := by
      intro f hf
      rcases List.mem_append.1 hf with hf | hf
      · exact h.freqs f hf
      · exact padTo_nonneg hs.freqs _ f hf
    obtain ⟨mp, hmp⟩ := getMin_ok O s3
    generalize hb : ({ m.builder with stats := m.builder.stats.set m.builder.resultIdx { s with symbolFreqs := StatDict.padTo s.symbolFreqs s.size } } : Builder F) = b
    rw [hb] at s2 s3 hmp
    refine ⟨{ m with
      dict := .stat m.builder.resultIdx
      builder := b
      freqs := m.freqs ++ StatDict.padTo s.symbolFreqs s.size
      totalFreqs := sumI (m.freqs ++ StatDict.padTo s.symbolFreqs s.size)
      minProb := some mp }, by simp only [s2, ok_bind, hmp, pure_M], ⟨h.coder, s3, h.own, ?_, hf, sumI_nonneg hf, fun _ => ⟨mp, rfl⟩⟩, rfl, by rw [← hb],
      by rw [← hb], by rw [← hb], rfl, rfl, fun hn => absurd hn he, fun _ => ⟨s, s1, rfl, rfl, ⟨_, rfl⟩, by rw [← hb]⟩⟩
    intro i hi
    simp only [DictPtr.stat.injEq] at hi
    rw [← hb]
    simp only [List.length_set]
    omega

theorem StreamInv.getDict {m : Stream F} {hist : List Int} (h : StreamInv m hist) (hd : m.dict ≠ .null) :
    ∃ d, m.getDict = .ok d ∧ DOk (seen hist).length d := by
  unfold Stream.getDict
  cases hp : m.dict with
  | null => exact absurd hp hd
  | own => exact ⟨m.own, rfl, h.own⟩
  | stat i =>
    have hi := h.ptr i hp
    have hs := h.tinv.heap _ (List.getElem_mem hi)
    exact ⟨_, by simp only [rd_of_lt hi, ok_bind, pure_M], hs.wf, hs.symbols, hs.closed, hs.sorted⟩

/-- A parse of known symbols does not change a sorted dictionary. -/
theorem parse_known {O : FloatOps F} (SL : ScoreLaws O) {d : IntDict} (hd : Sorted d) {seq : IntSeq} (hk : Knows d.seqs seq)
    {freqs : List Int} {total : Int} (hf : ∀ f ∈ freqs, 0 ≤ f) (ht : 0 ≤ total) (out : List Int) :
    ∃ ids, d.parse O seq freqs total out = .ok (d, out ++ ids, ((out ++ ids).length : Int)) ∧ Spells d.seqs ids seq := by
  have hfit : Fits d.seqs seq d.seqs := by
    revert hk
    generalize d.seqs = words
    intro hk
    induction seq with
    | nil => exact .nil
    | cons x xs ih => exact .known (hk x (by simp)) (ih fun y hy => hk y (by simp [hy]))
  obtain ⟨d', ids, p1, p2, p3, p4⟩ := parse_spec SL hd.wf seq out hf ht
  have hdd : d' = d := by
    have p := p1
    simp only [IntDict.parse, IntDict.weightedParse] at p
    obtain ⟨⟨d2, o2, n2⟩, h2, h1⟩ := bind_ok.1 p
    obtain ⟨⟨d3, t3⟩, h3, h2⟩ := bind_ok.1 h2
    obtain ⟨o, _, h2⟩ := bind_ok.1 h2
    obtain ⟨sc, _, h2⟩ := bind_ok.1 h2
    cases h2
    simp only [pure_M, Except.ok.injEq, Prod.mk.injEq] at h1
    rw [h1.1] at h3
    have h4 := (forward_fits hfit hd rfl h3).2
    obtain ⟨syms, g1, g2, _⟩ := p3
    have : syms = [] := by
      rw [g1] at h4
      have := congrArg List.length h4
      rw [List.length_append, List.length_map] at this
      exact List.eq_nil_of_length_eq_zero (by omega)
    subst this
    obtain ⟨a, b⟩ := d
    obtain ⟨a', b'⟩ := d'
    simp_all
  subst hdd
  exact ⟨ids, p1, p4⟩

theorem Stream.setDict_self {m : Stream F} {d : IntDict} (h : m.getDict = .ok d) : m.setDict d = m := by
  obtain ⟨size, b, dict, own, coder, freqs, total, mp⟩ := m
  cases dict with
  | null => rfl
  | own => cases h; rfl
  | stat i =>
    simp only [Stream.getDict] at h
    obtain ⟨s, hs, h⟩ := bind_ok.1 h
    cases h
    have hs := rd_nat_ok.1 hs
    have : (b.stats.modify i fun t => { t with dict := s.dict }) = b.stats := by
      apply List.ext_getElem?
      intro j
      rw [List.getElem?_modify]
      by_cases hj : i = j
      · subst hj
        simp [hs]
      · simp [hj]
    simp only [Stream.setDict, this]

/-- Setting and getting. -/
theorem Stream.getDict_setDict {m : Stream F} {d : IntDict} (h : m.getDict = .ok d) (d' : IntDict) :
    (m.setDict d').getDict = .ok d' := by
  obtain ⟨size, b, dict, own, coder, freqs, total, mp⟩ := m
  cases dict with
  | null => cases h
  | own => rfl
  | stat i =>
    simp only [Stream.getDict] at h
    obtain ⟨s, hs, h⟩ := bind_ok.1 h
    have hs := rd_nat_ok.1 hs
    have : (b.stats.modify i fun t => { t with dict := d' })[i]? = some { s with dict := d' } := by
      rw [List.getElem?_modify]
      simp [hs]
    simp only [Stream.getDict, Stream.setDict, rd_nat_ok.2 this, ok_bind, pure_M]

/-- Setting the dictionary keeps the rest. -/
theorem Stream.setDict_frame (m : Stream F) (d : IntDict) : (m.setDict d).dict = m.dict ∧ (m.setDict d).coder = m.coder ∧
    (m.setDict d).freqs = m.freqs ∧ (m.setDict d).totalFreqs = m.totalFreqs ∧ (m.setDict d).minProb = m.minProb ∧
    (m.setDict d).size = m.size ∧ (m.setDict d).builder.size = m.builder.size ∧ (m.setDict d).builder.current = m.builder.current ∧
    (m.setDict d).builder.result = m.builder.result ∧ (m.setDict d).builder.stats.length = m.builder.stats.length := by
  obtain ⟨size, b, dict, own, coder, freqs, total, mp⟩ := m
  cases dict <;> simp [Stream.setDict]

theorem StreamInv.setDict {m : Stream F} {hist : List Int} (h : StreamInv m hist) {d : IntDict} (hd : DOk (seen hist).length d)
    (hg : ∀ d0, m.getDict = .ok d0 → d0.seqs.length ≤ d.seqs.length)
    (hc : m.dict = .stat m.builder.current → m.getDict = .ok d) : StreamInv (m.setDict d) hist := by
  by_cases hcc : m.dict = .stat m.builder.current
  · rw [Stream.setDict_self (hc hcc)]
    exact h
  · unfold Stream.setDict
    cases hp : m.dict with
    | null => exact h
    | own => exact ⟨h.coder, h.tinv, hd, by simp, h.freqs, h.total, fun _ => h.prob (by simp [hp])⟩
    | stat i =>
      have hi := h.ptr i hp
      have hne : i ≠ m.builder.current := fun e => hcc (e ▸ hp)
      have hset : (m.builder.stats.modify i fun s => { s with dict := d }) =
          m.builder.stats.set i { m.builder.stats[i] with dict := d } := by
        apply List.ext_getElem?
        intro j
        rw [List.getElem?_modify, List.getElem?_set]
        by_cases hj : i = j
        · subst hj; simp [hi]
        · simp [hj]
      have hs := h.tinv.heap _ (List.getElem_mem hi)
      have hlen := hg m.builder.stats[i].dict (by simp only [Stream.getDict, hp, rd_of_lt hi, ok_bind, pure_M])
      refine ⟨h.coder, ?_, h.own, ?_, h.freqs, h.total, fun _ => h.prob (by simp [hp])⟩
      · simp only [hset]
        exact h.tinv.setLoose ⟨hd.wf, hd.symbols, hs.freqs, le_trans hs.short hlen, hd.closed, hd.sorted⟩ fun e => absurd e hne
      · intro j hj
        simp only [DictPtr.stat.injEq] at hj
        simp only [List.length_modify]
        omega

theorem alpha_ok {b : Builder F} {n : Nat} (h : TInv b n) : ∃ d, b.alpha = .ok d := by
  obtain ⟨d, hd, _⟩ := init_spec (b.stats[b.resultIdx]'h.resultIdx_lt).dict.seqs
  exact ⟨_, by simp only [Builder.alpha, rd_of_lt h.resultIdx_lt, ok_bind]; exact hd⟩

theorem imm_range {c : SeqCoder} {vals : List Int} (h : CInv c vals) (seq : IntSeq) :
    ∀ x ∈ c.encodeImm seq, 0 ≤ x ∧ x < (vals.length : Int) := by
  rw [h.imm]
  intro x hx
  obtain ⟨y, hy, rfl⟩ := List.mem_map.1 hx
  have := List.idxOf_lt_length_iff.2 (of_decide_eq_true (List.mem_filter.1 hy).2)
  omega

theorem imm_decode {c : SeqCoder} {vals : List Int} (h : CInv c vals) (seq : IntSeq) :
    (c.encodeImm seq).map (fun k => vals[k.toNat]?.getD 0) = seq.filter fun x => decide (x ∈ vals) := by
  rw [h.imm, List.map_map]
  conv_rhs => rw [← List.map_id (seq.filter _)]
  apply List.map_congr_left
  intro x hx
  exact getD_idxOf (of_decide_eq_true (List.mem_filter.1 hx).2)

/-- Codes of a dictionary decoded. -/
def decodeWords (hist : List Int) (words : List IntSeq) : List IntSeq :=
  words.map (List.map fun k => (seen hist)[k.toNat]?.getD 0)

theorem StreamInv.alphabet {m : Stream F} {hist : List Int} (h : StreamInv m hist) {d : IntDict} (hd : m.getDict = .ok d) 
    (ok : DOk (seen hist).length d) : m.alphabet = .ok (decodeWords hist d.seqs) := by
  simp only [Stream.alphabet, hd, ok_bind]
  exact decodeAll_ok h.coder ok.symbols

/-- `parse` after a dictionary was published. -/
theorem StreamInv.parse {O : FloatOps F} (SL : ScoreLaws O) {m : Stream F} {hist : List Int} (h : StreamInv m hist) (hd : m.dict ≠ .null)
    (seq : IntSeq) : ∃ d d' ids, m.getDict = .ok d ∧ m.parse O seq = .ok (m.setDict d', ids) ∧ DOk (seen hist).length d ∧ DOk (seen hist).length d' ∧
      StreamInv (m.setDict d') hist ∧ Grow d d' (m.coder.encodeImm seq) ∧ Spells d'.seqs ids (m.coder.encodeImm seq) ∧
      Spells (decodeWords hist d'.seqs) ids (seq.filter fun x => decide (x ∈ hist)) ∧
      (Sorted d → Knows d.seqs (m.coder.encodeImm seq) → d' = d) := by
  obtain ⟨d, hg, hok⟩ := h.getDict hd
  obtain ⟨d', ids, p1, p2, p3, p4⟩ := parse_spec SL hok.wf (m.coder.encodeImm seq) [] h.freqs h.total
  obtain ⟨da, hda⟩ := alpha_ok h.tinv
  have hok' : DOk (seen hist).length d' := by
    have hgs := p3
    obtain ⟨syms, g1, _, g3⟩ := p3
    refine ⟨p2, ?_, ?_, fun hs => Grow.sorted hgs (hok.sorted (by rw [g1] at hs; exact (List.pairwise_append.1 hs).1)) hs⟩
    · rw [g1]
      intro w hw x hx
      rcases List.mem_append.1 hw with hw | hw
      · exact hok.symbols w hw x hx
      · obtain ⟨y, hy, rfl⟩ := List.mem_map.1 hw
        rw [List.mem_singleton] at hx
        subst hx
        exact imm_range h.coder seq x (g3 x hy)
    · rw [g1]
      intro w hw x hx
      rcases List.mem_append.1 hw with hw | hw
      · exact List.mem_append_left _ (hok.closed w hw x hx)
      · obtain ⟨y, hy, rfl⟩ := List.mem_map.1 hw
        rw [List.mem_singleton] at hx
        subst hx
        exact List.mem_append_right _ hw
  have hkn : Sorted d → Knows d.seqs (m.coder.encodeImm seq) → d' = d := by
    intro hs hk
    obtain ⟨ids', q, _⟩ := parse_known SL hs hk h.freqs h.total []
    rw [p1] at q
    simp only [Except.ok.injEq, Prod.mk.injEq] at q
    exact q.1
  have hsp : Spells (decodeWords hist d'.seqs) ids (seq.filter fun x => decide (x ∈ hist)) := by
    have := p4.map (fun k => (seen hist)[k.toNat]?.getD 0)
    rw [imm_decode h.coder] at this
    simp only [seen_mem] at this
    exact this
  refine ⟨d, d', ids, hg, ?_, hok, hok', h.setDict hok' (fun d0 h0 => ?_) fun hc => ?_, p3, p4, hsp, hkn⟩
  · simp only [Stream.parse, hda, ok_bind, hg, p1, pure_M]
    rfl
  · rw [hg] at h0
    cases h0
    exact p3.length
  · obtain ⟨s, s1, s2, s3⟩ := h.tinv.cur
    have hgd : m.getDict = .ok s.dict := by
      simp only [Stream.getDict, hc, rd_nat_ok.2 s1, ok_bind, pure_M]
    rw [hg] at hgd
    cases hgd
    rw [hkn s2.sorted fun x hx => (s3 x).2 (imm_range h.coder seq x hx)]
    exact hg

/-! ## Histories that keep all dictionaries sorted -/

/-- All dictionary objects are sorted. -/
def AllSorted (m : Stream F) : Prop := Sorted m.own ∧ ∀ s ∈ m.builder.stats, Sorted s.dict

theorem AllSorted.getDict {m : Stream F} (h : AllSorted m) {d : IntDict} (hd : m.getDict = .ok d) : Sorted d := by
  unfold Stream.getDict at hd
  cases hp : m.dict with
  | null => rw [hp] at hd; cases hd
  | own => rw [hp] at hd; cases hd; exact h.1
  | stat i =>
    rw [hp] at hd
    simp only at hd
    obtain ⟨s, hs, hd⟩ := bind_ok.1 hd
    cases hd
    exact h.2 s (List.mem_of_getElem? (rd_nat_ok.1 hs))

theorem update_sorted {E : Env F} {b b' : Builder F} {n : Nat} (h : b.update E = .ok b') (ht : TInv b' n)
    (hs : ∀ s ∈ b.stats, Sorted s.dict) : ∀ s ∈ b'.stats, Sorted s.dict := by
  rcases update_cases h with ⟨rfl, _⟩ | ⟨s, s', words, freqs, mp, _, u⟩
  · exact hs
  · obtain ⟨t, t1, t2, _⟩ := ht.cur
    rw [u.stats, u.current] at t1
    simp at t1
    subst t1
    intro r hr
    rw [u.stats] at hr
    rcases List.mem_append.1 hr with hr | hr
    · exact hs r hr
    · rw [List.mem_singleton] at hr
      exact hr ▸ t2.sorted

theorem accept_sorted {E : Env F} (SL : ScoreLaws E.ops) {b b' : Builder F} {n k : Nat} {seq : IntSeq} (h : b.accept E seq = .ok b') (ht : TInv b n)
    (ha : Arrive n seq k) (ht' : TInv b' k) (hs : ∀ s ∈ b.stats, Sorted s.dict) : ∀ s ∈ b'.stats, Sorted s.dict := by
  obtain ⟨s, s', ids, p1, p2, p3, _⟩ := accept_parse SL ht ha
  have hs' : ∀ t ∈ b.stats.set b.current s', Sorted t.dict := by
    obtain ⟨t, t1, t2, _⟩ := p3.cur
    have hlt := (List.getElem?_eq_some_iff.1 p1).1
    simp only [List.getElem?_set_self hlt, Option.some.injEq] at t1
    subst t1
    intro t ht
    rcases List.mem_or_eq_of_mem_set ht with ht | rfl
    · exact hs t ht
    · exact t2.sorted
  simp only [Builder.accept, cur_eq p1, ok_bind, p2] at h
  split at h
  · exact update_sorted h ht' hs'
  · cases h
    exact hs'

theorem AllSorted.accept {E : Env F} (SL : ScoreLaws E.ops) {m m' : Stream F} {hist : List Int} {seq : IntSeq} (h : StreamInv m hist)
    (h' : StreamInv m' (hist ++ seq)) (a : Accepted E m m' seq) (hs : AllSorted m) : AllSorted m' := by
  have ha := encode_arrive seq hist
  rw [← (h.coder.encode seq).2] at ha
  exact ⟨a.own ▸ hs.1, accept_sorted SL a.call h.tinv ha h'.tinv hs.2⟩

theorem AllSorted.updateDict {O : FloatOps F} {m m' : Stream F} (h : m.updateDict O = .ok m') (hs : AllSorted m) : AllSorted m' := by
  unfold Stream.updateDict at h
  split at h
  · cases h; exact hs
  · obtain ⟨⟨b, fr⟩, h1, h⟩ := bind_ok.1 h
    obtain ⟨mp, _, h⟩ := bind_ok.1 h
    cases h
    simp only [Builder.resultFreqs] at h1
    obtain ⟨s, h2, h1⟩ := bind_ok.1 h1
    cases h1
    refine ⟨hs.1, fun t ht => ?_⟩
    rcases List.mem_or_eq_of_mem_set ht with ht | rfl
    · exact hs.2 t ht
    · exact hs.2 s (List.mem_of_getElem? (rd_nat_ok.1 h2))

end VGram
