import Verif.Proofs.Bounds
import Verif.Props.StreamBest
import Verif.Props.Patience

/-!
# Counters never exceed the amount of text read (C74), and dictionaries stay bounded (C75)
-/

namespace VGram.Props

open VGram Spec

variable {F : Type}

/-! ## C74 -/

/-- The counters of a builder after reading `N` symbols. -/
structure Tallied (n0 : Int) (N : Nat) (b : Builder F) : Prop where
  all : ∀ s ∈ b.stats, Small n0 N s
  total : (b.stats.map (·.totalChars)).sum = (N : Int)
  last : b.current + 1 = b.stats.length
  res : ∀ i, b.result = some i → i < b.stats.length

theorem Tallied.resultIdx {n0 : Int} {N : Nat} {b : Builder F} (h : Tallied n0 N b) : b.resultIdx < b.stats.length := by
  unfold Builder.resultIdx
  have := h.last
  split
  · next i hi => exact h.res i hi
  · omega

theorem sum_take_le : ∀ {l : List Int}, (∀ x ∈ l, 0 ≤ x) → ∀ k, (l.take k).sum ≤ l.sum := by
  intro l
  induction l with
  | nil => intro _ k; simp
  | cons x l ih =>
    intro h k
    cases k with
    | zero =>
      simp only [List.take_zero, List.sum_nil]
      exact List.sum_nonneg h
    | succ k =>
      have := ih (fun y hy => h y (by simp [hy])) k
      simp only [List.take_succ_cons, List.sum_cons]
      omega

theorem sum_set : ∀ {l : List Int} {i : Nat} {x : Int}, l[i]? = some x → ∀ y, (l.set i y).sum = l.sum + (y - x) := by
  intro l
  induction l with
  | nil => intro i x h; simp at h
  | cons z l ih =>
    intro i x h y
    cases i with
    | zero =>
      simp at h
      simp only [List.set_cons_zero, List.sum_cons, h]
      omega
    | succ i =>
      simp only [List.getElem?_cons_succ] at h
      simp only [List.set_cons_succ, List.sum_cons, ih h y]
      omega

theorem update_tallied {E : Env F} (L : EnvLaws E) (SL : ScoreLaws E.ops) {n0 : Int} {N : Nat} {b b' : Builder F} {n : Nat} (t : TInv b n)
    (h0 : 0 ≤ n0) (k : Tallied n0 N b) (h : b.update E = .ok b') : Tallied n0 N b' ∧ b.resultIdx ≤ b'.resultIdx ∧
      ∃ tl, b'.stats = b.stats ++ tl := by
  rcases update_cases h with ⟨rfl, _⟩ | ⟨s, s', words, freqs, mp, _, u⟩
  · exact ⟨k, le_refl _, [], by simp⟩
  · obtain ⟨s2, c1, hh, _⟩ := t.cur
    rw [u.cur] at c1
    cases c1
    have hs := k.all s (List.mem_of_getElem? u.cur)
    obtain ⟨q1, q2⟩ := Small.ofSeqs (n0 := n0) (N := N) (fun l hl f hf => by
      cases hl
      have := rebuild_small L SL hs hh u.work f hf
      have := hs.power
      have := hs.chars
      omega) (by omega) h0 u.made
    refine ⟨⟨fun t ht => ?_, by rw [u.stats]; simp [k.total, q2], by rw [u.stats, u.current]; simp, fun i hi => ?_⟩, ?_, [s'], u.stats⟩
    · rw [u.stats] at ht
      rcases List.mem_append.1 ht with ht | ht
      · exact k.all t ht
      · rw [List.mem_singleton.1 ht]
        exact q1
    · rw [u.stats]
      simp only [List.length_append, List.length_singleton]
      rw [u.result] at hi
      split at hi
      · have := k.res i hi
        omega
      · cases hi
        omega
    · have hr := k.resultIdx
      rw [Builder.resultIdx.eq_def b', u.result, u.current]
      split
      · next i hi =>
        split at hi
        · rw [Builder.resultIdx, hi]
        · cases hi
          omega
      · omega

theorem accept_tallied {E : Env F} (L : EnvLaws E) (SL : ScoreLaws E.ops) {n0 : Int} {N : Nat} {b b' : Builder F} {n m : Nat} (t : TInv b n)
    (h0 : 0 ≤ n0) (k : Tallied n0 N b) {seq : IntSeq} (ha : Arrive n seq m) (h : b.accept E seq = .ok b') :
    Tallied n0 (N + seq.length) b' ∧ b.resultIdx ≤ b'.resultIdx ∧
      ∃ s s' tl, b.stats[b.current]? = some s ∧ s.totalChars ≤ s'.totalChars ∧ b'.stats = b.stats.set b.current s' ++ tl := by
  obtain ⟨s, s', ids, e1, e2, e3, _⟩ := accept_parse SL t ha
  obtain ⟨s2, c1, hh, _⟩ := t.cur
  rw [e1] at c1
  cases c1
  have hlt := (List.getElem?_eq_some_iff.1 e1).1
  obtain ⟨q1, q2⟩ := (k.all s (List.mem_of_getElem? e1)).parse SL hh.inv hh.pnodup e2
  have k1 : Tallied n0 (N + seq.length) { b with stats := b.stats.set b.current s' } := by
    refine ⟨fun t ht => ?_, ?_, by simpa using k.last, fun i hi => by simpa using k.res i hi⟩
    · rcases List.mem_or_eq_of_mem_set ht with ht | rfl
      · exact (k.all t ht).mono (by push_cast; omega)
      · push_cast
        exact q1
    · have hm : (b.stats.map (·.totalChars))[b.current]? = some s.totalChars := by simp [e1]
      simp only [List.map_set]
      rw [sum_set hm, k.total, q2]
      push_cast
      omega
  have hq : s.totalChars ≤ s'.totalChars := by omega
  rcases ready_update e1 e2 h with rfl | hu
  · exact ⟨k1, le_refl _, s, s', [], e1, hq, by simp⟩
  · obtain ⟨r1, r2, tl, r3⟩ := update_tallied L SL e3 h0 k1 hu
    exact ⟨r1, r2, s, s', tl, e1, hq, r3⟩

/-- The counters of a stream model after reading `N` symbols; `n0` is the sum of the frequencies it started with. -/
structure STallied (n0 : Int) (N : Nat) (m : Stream F) : Prop where
  builder : Tallied n0 N m.builder
  ptr : ∀ i, m.dict = .stat i → i ≤ m.builder.resultIdx
  freqs : sumI m.freqs ≤ n0 + ((m.builder.stats.map (·.totalChars)).take (match m.dict with | .stat i => i + 1 | _ => 0)).sum

theorem _root_.VGram.Small.nonneg {n0 N : Int} {s : StatDict F} (h : Small n0 N s) : 0 ≤ s.totalChars := by
  have := h.freqs 0
  have := h.le 0
  have := h.power
  omega

theorem sumI_pad (l : List Int) (n : Nat) : sumI (StatDict.padTo l n) = sumI l := by
  simp [StatDict.padTo, sumI_eq]

theorem _root_.VGram.Small.pad {n0 N : Int} {s : StatDict F} (h : Small n0 N s) (n : Nat) : Small n0 N { s with symbolFreqs := StatDict.padTo s.symbolFreqs n } :=
  ⟨fun i => by simp only [fq_padTo]; exact h.freqs i, (sumI_pad _ _).trans h.sum, fun i => by simp only [fq_padTo]; exact h.le i,
    fun i j hij => by simp only [fq_padTo]; exact h.two i j hij, h.power, h.chars, h.pairs, h.pfreqs, fun i => by simp only [fq_padTo]; exact h.pinit i⟩

theorem _root_.VGram.Small.dict {n0 N : Int} {s : StatDict F} (h : Small n0 N s) (d : IntDict) : Small n0 N { s with dict := d } :=
  ⟨h.freqs, h.sum, h.le, h.two, h.power, h.chars, h.pairs, h.pfreqs, h.pinit⟩

theorem take_set_le {l : List Int} {i : Nat} {x y : Int} (h : l[i]? = some x) (hxy : x ≤ y) (k : Nat) : (l.take k).sum ≤ ((l.set i y).take k).sum := by
  rw [List.take_set]
  by_cases hk : i < k
  · rw [sum_set (x := x) (by rw [List.getElem?_take_of_lt hk]; exact h)]
    omega
  · rw [List.set_eq_of_length_le (by simp; omega)]

theorem STallied.accept {E : Env F} (L : EnvLaws E) (SL : ScoreLaws E.ops) {n0 : Int} {N : Nat} {m m' : Stream F} {hist : List Int} (h0 : 0 ≤ n0)
    (hi : StreamInv m hist) (h : STallied n0 N m) {seq : IntSeq} (ha : m.accept E seq = .ok m') : STallied n0 (N + seq.length) m' := by
  simp only [Stream.accept] at ha
  obtain ⟨b', hb, ha⟩ := bind_ok.1 ha
  cases ha
  obtain ⟨c1, c2⟩ := hi.coder.encode seq
  have harr := encode_arrive seq hist
  rw [← c2] at harr
  obtain ⟨k1, k2, s, s', tl, k3, k4, k5⟩ := accept_tallied L SL hi.tinv h0 h.builder harr hb
  have hlen : (m.coder.encode seq).2.length = seq.length := by rw [c2]; simp
  rw [hlen] at k1
  refine ⟨k1, fun i hi => (h.ptr i hi).trans k2, ?_⟩
  have hf := h.freqs
  have hm : (m.builder.stats.map (·.totalChars))[m.builder.current]? = some s.totalChars := by simp [k3]
  have hp : (match m.dict with | .stat i => i + 1 | _ => 0) ≤ m.builder.stats.length := by
    split
    · next i hi' => have := h.ptr i hi'; have := h.builder.resultIdx; omega
    · omega
  simp only [k5, List.map_append, List.map_set]
  rw [List.take_append_of_le_length (by simpa using hp)]
  have := take_set_le hm k4 (match m.dict with | .stat i => i + 1 | _ => 0)
  omega

theorem STallied.setDict {n0 : Int} {N : Nat} {m : Stream F} (h : STallied n0 N m) (d : IntDict) : STallied n0 N (m.setDict d) := by
  obtain ⟨f1, _, f3, _, _, _, _, f8, f9, f10⟩ := m.setDict_frame d
  have hidx : (m.setDict d).builder.resultIdx = m.builder.resultIdx := by rw [Builder.resultIdx, f8, f9]; rfl
  have hch : (m.setDict d).builder.stats.map (·.totalChars) = m.builder.stats.map (·.totalChars) := by
    unfold Stream.setDict
    split
    · rfl
    · rfl
    · apply List.ext_getElem?
      intro j
      simp only [List.getElem?_map, List.getElem?_modify]
      cases m.builder.stats[j]? with
      | none => rfl
      | some s =>
        simp only [Option.map_eq_map, Option.map_some]
        split <;> rfl
  refine ⟨⟨fun s hs => ?_, by rw [hch]; exact h.builder.total, by rw [f8, f10]; exact h.builder.last, fun i hi => by rw [f10]; rw [f9] at hi; exact h.builder.res i hi⟩,
    fun i hi => by rw [hidx]; rw [f1] at hi; exact h.ptr i hi, by rw [f3, f1, hch]; exact h.freqs⟩
  unfold Stream.setDict at hs
  split at hs
  · exact h.builder.all s hs
  · exact h.builder.all s hs
  · simp only at hs
    obtain ⟨i, hi, rfl⟩ := List.getElem_of_mem hs
    rw [List.getElem_modify]
    split
    · exact (h.builder.all _ (List.getElem_mem _)).dict d
    · exact h.builder.all _ (List.getElem_mem _)

theorem STallied.update {O : FloatOps F} {n0 : Int} {N : Nat} {m m' : Stream F} (h : STallied n0 N m) (hu : m.updateDict O = .ok m') :
    STallied n0 N m' := by
  simp only [Stream.updateDict] at hu
  split at hu
  · cases hu
    exact h
  · next hne =>
    obtain ⟨⟨b, fr⟩, hb, hu⟩ := bind_ok.1 hu
    obtain ⟨mp, _, hu⟩ := bind_ok.1 hu
    cases hu
    simp only [Builder.resultFreqs] at hb
    obtain ⟨s, hs, hb⟩ := bind_ok.1 hb
    cases hb
    have hs' := rd_nat_ok.1 hs
    have hsm := h.builder.all s (List.mem_of_getElem? hs')
    have hlt := h.builder.resultIdx
    have hch : (m.builder.stats.set m.builder.resultIdx { s with symbolFreqs := StatDict.padTo s.symbolFreqs s.size }).map (·.totalChars) =
        m.builder.stats.map (·.totalChars) := by
      rw [List.map_set]
      apply List.ext_getElem?
      intro j
      by_cases hj : m.builder.resultIdx = j
      · subst hj
        rw [List.getElem?_set_self (by simpa using hlt), List.getElem?_map, hs']
        rfl
      · rw [List.getElem?_set_ne hj]
    refine ⟨⟨fun t ht => ?_, by rw [hch]; exact h.builder.total, by simpa using h.builder.last, fun i hi => by simpa using h.builder.res i hi⟩,
      fun i hi => by cases hi; exact le_refl _, ?_⟩
    · rcases List.mem_or_eq_of_mem_set ht with ht | rfl
      · exact h.builder.all t ht
      · exact hsm.pad _
    · simp only
      rw [hch, sumI_eq, List.sum_append, ← sumI_eq, ← sumI_eq, sumI_pad, hsm.sum]
      have hget : (m.builder.stats.map (·.totalChars))[m.builder.resultIdx]? = some s.totalChars := by simp [hs']
      rw [List.take_add_one, hget]
      simp only [Option.toList_some, List.sum_append, List.sum_singleton]
      have hp : (match m.dict with | .stat i => i + 1 | _ => 0) ≤ m.builder.resultIdx := by
        split
        · next i hi =>
          have := h.ptr i hi
          have : i ≠ m.builder.resultIdx := fun e => hne (by rw [hi, e])
          omega
        · omega
      have hle := sum_take_le (l := (m.builder.stats.map (·.totalChars)).take m.builder.resultIdx) (fun x hx => by
        obtain ⟨t, ht, rfl⟩ := List.mem_map.1 (List.mem_of_mem_take hx)
        exact (h.builder.all t ht).nonneg) (match m.dict with | .stat i => i + 1 | _ => 0)
      rw [List.take_take, min_eq_left hp] at hle
      have := h.freqs
      have := hsm.power
      omega

theorem run_tallied {E : Env F} (L : EnvLaws E) (SL : ScoreLaws E.ops) {n0 : Int} (h0 : 0 ≤ n0) {calls : List Call} {r r' : Bool} (h : Legal r calls r') :
    ∀ {m m' : Stream F} {hist : List Int} {N : Nat}, StreamInv m hist → (r = true → m.dict ≠ .null) →
      ((seen (hist ++ accepted calls)).length : Int) ≤ m.builder.size + 1 → STallied n0 N m → run E m calls = .ok m' →
      STallied n0 (N + (accepted calls).length) m' := by
  induction h with
  | nil =>
    intro m m' hist N _ _ _ h hr
    cases hr
    exact h
  | @accept r r' seq cs hl ih =>
    intro m m' hist N hi hd hcap h hr
    simp only [accepted] at hcap ⊢
    rw [← List.append_assoc] at hcap
    obtain ⟨m1, a1, a2, a3⟩ := hi.accept L SL seq (by
      have := seen_length_le (hist ++ seq) (accepted cs)
      omega)
    simp only [run, call, a1, ok_bind] at hr
    have := ih a2 (by rw [a3.dict]; exact hd) (by rw [a3.bsize]; exact hcap) (h.accept L SL h0 hi a1) hr
    rwa [List.length_append, ← Nat.add_assoc]
  | @parse r' seq cs hl ih =>
    intro m m' hist N hi hd hcap h hr
    obtain ⟨d, d', ids, p1, p2, _, _, p3, _⟩ := hi.parse SL (hd rfl) seq
    obtain ⟨f1, _, _, _, _, _, f7, _⟩ := m.setDict_frame d'
    simp only [run, call, p2, ok_bind, pure_M] at hr
    exact ih p3 (by rw [f1]; exact hd) (by rw [f7]; exact hcap) (h.setDict d') hr
  | @update r r' cs hl ih =>
    intro m m' hist N hi hd hcap h hr
    obtain ⟨m1, u1, u2, u3, u4, _⟩ := hi.updateDict (O := E.ops)
    simp only [run, call, u1, ok_bind] at hr
    exact ih u2 (by simp [u3]) (by rw [u4]; exact hcap) (h.update u1) hr

theorem SStart.tallied {O : FloatOps F} {m : Stream F} {vals : List Int} {r : Bool} {cap : Int} (h : SStart O m vals r cap) :
    0 ≤ sumI m.freqs ∧ STallied (sumI m.freqs) 0 m := by
  cases h with
  | fresh h =>
    refine ⟨by simp [Stream.new, sumI], ⟨fun s hs => ?_, rfl, rfl, by simp [Stream.new, Builder.new]⟩, by simp [Stream.new], by simp [Stream.new]⟩
    simp only [Stream.new, Builder.new, List.mem_singleton] at hs
    subst hs
    exact ⟨by simp [StatDict.new, fq], rfl, by simp [StatDict.new, fq], by simp [StatDict.new, fq], by simp [StatDict.new], by simp [StatDict.new],
      by simp [StatDict.new], by simp [StatDict.new, fq], by simp [StatDict.new, fq, Stream.new, sumI]⟩
  | loaded h1 h2 h3 h4 =>
    simp only [Stream.ofSaved] at h4
    obtain ⟨d, _, h4⟩ := bind_ok.1 h4
    obtain ⟨b, hb, h4⟩ := bind_ok.1 h4
    cases h4
    simp only [Builder.ofSaved] at hb
    obtain ⟨s, hs, hb⟩ := bind_ok.1 hb
    cases hb
    have h0 := sumI_nonneg h3
    obtain ⟨q1, q2⟩ := Small.ofSeqs (n0 := sumI _) (N := 0) (fun l hl f hf => by
      cases hl
      obtain ⟨i, hi, rfl⟩ := List.getElem_of_mem hf
      have := fq_le_sum h3 i
      rw [fq, List.getElem?_eq_getElem hi] at this
      simp only [Option.getD_some] at this
      exact ⟨h3 _ hf, by simpa using this⟩) (le_refl _) h0 hs
    refine ⟨h0, ⟨fun t ht => ?_, by simp [q2], rfl, by simp⟩, by simp, by simp⟩
    rw [List.mem_singleton.1 ht]
    exact q1

/-- C74: no counter of a model ever exceeds the number of symbols read, plus the frequencies it was loaded with - so none of the
32-bit counters of the code overflows while that number fits.  The counters are those of every statistics dictionary (words,
weights, pairs, and the sum of two word counts that `stat_items` forms) and the reported frequencies with their total,
although `update_dict` adds up those of all dictionaries it was shown. -/
theorem C74_counters (E : Env F) (L : EnvLaws E) (SL : ScoreLaws E.ops) (m0 : Stream F) (vals : List Int) (calls : List Call) (r : Bool)
    (h : Admissible E.ops m0 vals calls r) :
    ∃ m, run E m0 calls = .ok m ∧
      (∀ s ∈ m.builder.stats,
        (∀ f ∈ s.symbolFreqs, 0 ≤ f ∧ f ≤ ((accepted calls).length : Int)) ∧
        (∀ f ∈ s.parseFreqs, 0 ≤ f ∧ f ≤ m0.freqs.sum + ((accepted calls).length : Int)) ∧
        (∀ e ∈ s.pairs, 0 < e.2 ∧ e.2 ≤ ((accepted calls).length : Int)) ∧
        (∀ i j : Nat, i ≠ j → s.freq (i : Int) + s.freq (j : Int) ≤ ((accepted calls).length : Int))) ∧
      (m.builder.stats.map (·.totalChars)).sum = ((accepted calls).length : Int) ∧
      (∀ f ∈ m.freqs, 0 ≤ f ∧ f ≤ m0.freqs.sum + ((accepted calls).length : Int)) ∧
      0 ≤ m.totalFreqs ∧ m.totalFreqs ≤ m0.freqs.sum + ((accepted calls).length : Int) := by
  obtain ⟨m, r1, inv, _⟩ := h.inv L SL
  obtain ⟨r0, cap, s1, s2, s3⟩ := h.start
  obtain ⟨i1, i2, i3⟩ := s1.inv
  obtain ⟨t0, t1⟩ := s1.tallied
  have ht := run_tallied L SL t0 s2 i1 i2 (by rw [i3]; exact s3) t1 r1
  rw [Nat.zero_add, sumI_eq] at ht
  rw [sumI_eq] at t0
  have mem : ∀ {l : List Int} {f : Int}, f ∈ l → ∃ i, fq l i = f := by
    intro l f hf
    obtain ⟨i, hi, rfl⟩ := List.getElem_of_mem hf
    exact ⟨i, by rw [fq, List.getElem?_eq_getElem hi]; rfl⟩
  have htot : m.totalFreqs = m.freqs.sum := run_freqsTotal calls s1.freqsTotal r1
  have hsum : m.freqs.sum ≤ m0.freqs.sum + ((accepted calls).length : Int) := by
    have h1 := ht.freqs
    have h2 := sum_take_le (l := m.builder.stats.map (·.totalChars)) (fun x hx => by
      obtain ⟨t, ht', rfl⟩ := List.mem_map.1 hx
      exact (ht.builder.all t ht').nonneg) (match m.dict with | .stat i => i + 1 | _ => 0)
    rw [ht.builder.total] at h2
    rw [sumI_eq] at h1
    omega
  refine ⟨m, r1, fun s hs => ⟨fun f hf => ?_, fun f hf => ?_, fun e he => ?_, fun i j hij => ?_⟩, ht.builder.total, fun f hf => ⟨inv.freqs f hf, ?_⟩, inv.total, by rw [htot]; exact hsum⟩
  all_goals try have a := ht.builder.all s hs
  all_goals try have a1 := a.power
  all_goals try have a2 := a.chars
  · obtain ⟨i, rfl⟩ := mem hf
    have := a.freqs i
    have := a.le i
    omega
  · obtain ⟨i, rfl⟩ := mem hf
    exact ⟨a.pfreqs i, a.parse_le i⟩
  · have := a.pairs e he
    omega
  · rw [freq_nat, freq_nat]
    have := a.two i j hij
    omega
  · obtain ⟨i, rfl⟩ := mem hf
    have := fq_le_sum inv.freqs i
    rw [sumI_eq] at this
    omega

/-- A model of size 4 that has read 20 symbols: three times the frequencies of a published dictionary were collected, and the total is 5. -/
example : (do
    let m ← run quickEnv (Stream.new quickEnv.ops 4) [.accept [5, 6, 7], .accept [5, 6, 5, 7], .accept [5, 6, 7, 6], .update,
      .accept [6, 5, 6, 5], .accept [5, 6, 7], .update, .accept [5, 6], .update]
    pure (m.freqs, m.totalFreqs, m.builder.stats.map fun s => (s.symbolFreqs, s.totalChars)) :
      M (List Int × Int × List (List Int × Int))) =
    .ok ([0, 1, 1, 1, 0, 1, 0, 1, 0, 0, 0, 0], 5, [([1, 1, 1], 3), ([1, 1, 0, 0, 1], 4), ([0, 1, 1, 1], 4), ([1, 1, 0, 1, 0], 4),
      ([0, 1, 0, 1], 3), ([0, 1, 0, 0, 0], 2), ([0, 0, 0, 0], 0)]) := by decide +kernel

/-! ## C75 -/

section

variable {srt : List (StatItem (Ext ℝ)) → List (StatItem (Ext ℝ))} {ord : PairMap → PairMap} {gam : List (Ext ℝ) → Nat → ℝ}

/-- Sizes of the working and the published dictionary when `n` symbols have been seen. -/
structure Roomy (b : Builder F) (n : Nat) : Prop where
  low : b.populate = true → ∀ s, b.stats[b.current]? = some s → (s.dict.seqs.length : Int) ≤ b.size + n
  high : ∀ s, b.stats[b.current]? = some s → 10 * (s.dict.seqs.length : Int) ≤ 23 * (b.size + n)
  pub : ∀ i s, b.result = some i → b.stats[i]? = some s → (s.dict.seqs.length : Int) ≤ b.size + n

theorem update_roomy (L : RealLaws srt ord gam) {b b' : Builder (Ext ℝ)} {n : Nat} (t : TInv b n) (hn : (n : Int) ≤ b.size + 1) (k : Roomy b n)
    (h : b.update (exactEnv srt ord gam) = .ok b') : Roomy b' n := by
  obtain ⟨b2, u1, u2, u3, u4⟩ := update_tinv L.env (Ext.scoreLaws Real.log) t hn
  rw [h] at u1
  cases u1
  rcases update_cases h with ⟨rfl, _⟩ | ⟨s, s', words, freqs, mp, _, u⟩
  · exact k
  · have hal := t.alpha
    have hcur : b'.stats[b'.current]? = some s' := by rw [u.stats, u.current]; simp
    have hb : b' ≠ b := fun e => by
      have := congrArg (fun b => b.stats.length) e
      simp only [u.stats, List.length_append, List.length_singleton] at this
      omega
    have old : ∀ i x, i < b.stats.length → b'.stats[i]? = some x → b.stats[i]? = some x := fun i x hi hx => by
      rwa [u.stats, List.getElem?_append_left hi] at hx
    rcases hp : b.populate with _ | _
    · obtain ⟨_, u5⟩ := u4.resolve_left hb
      obtain ⟨s2, v1, v2, v3⟩ := u5 hp
      rw [u.current, v1] at hcur
      cases hcur
      have hx : ∀ x, b'.stats[b'.current]? = some x → x = s' := fun x hx => by
        rw [u.current, v1] at hx
        cases hx
        rfl
      refine ⟨fun _ x hx' => ?_, fun x hx' => ?_, fun i x hi hx' => ?_⟩
      · rw [hx x hx', u.size]
        omega
      · rw [hx x hx', u.size]
        omega
      · rw [v2] at hi
        cases hi
        rw [v1] at hx'
        cases hx'
        rw [u.size]
        omega
    · have hx : ∀ x, b'.stats[b'.current]? = some x → x = s' := fun x hx => by
        rw [hcur] at hx
        cases hx
        rfl
      have hlow := k.low hp s u.cur
      obtain ⟨s2, c1, hh, _⟩ := t.cur
      rw [u.cur] at c1
      cases c1
      have hw := u.work
      rw [Builder.rebuild, if_pos hp, show (exactEnv srt ord gam).ops = Ext.ops ℝ Real.log from rfl, expandSlots_exact Real.log] at hw
      obtain ⟨words', freqs', mp', f1, _, _, _, _, f6, _⟩ :=
        expand_spec L.env hh.expOk (places b.size b.symbAlphabet.length s.dict.seqs.length)
      rw [f1] at hw
      cases hw
      have hlen := (ofSeqs_words u.made).length_eq
      refine ⟨fun hc => (by rw [u.populate, hp] at hc; cases hc), fun x hx' => ?_, fun i x hi hx' => ?_⟩
      · rw [hx x hx', u.size, hlen]
        unfold places at f6
        split at f6 <;> omega
      · rw [u.result, if_pos hp] at hi
        rw [u.size]
        exact k.pub i x hi (old i x (t.res i hi) hx')

theorem act_roomy (L : RealLaws srt ord gam) {b b' : Builder (Ext ℝ)} {n m : Nat} (t : TInv b n) {a : Act} (ha : ActsArrive n [a] m)
    (hm : (m : Int) ≤ b.size + 1) (k : Roomy b n) (h : act (exactEnv srt ord gam) b a = .ok b') : Roomy b' m := by
  cases ha with
  | @accept _ _ _ seq _ h1 h2 =>
    cases h2
    obtain ⟨s, s', ids, e1, e2, e3, _, e5⟩ := accept_parse (E := exactEnv srt ord gam) (Ext.scoreLaws Real.log) t h1
    have hnm := actsArrive_le (.accept h1 .nil)
    have hlt := (List.getElem?_eq_some_iff.1 e1).1
    have k1 : Roomy ({ b with stats := b.stats.set b.current s' }) m := by
      refine ⟨fun hp x hx => ?_, fun x hx => ?_, fun i x hi hx => ?_⟩
      · have := k.low hp s e1
        simp only [List.getElem?_set_self hlt, Option.some.injEq] at hx
        subst hx
        dsimp only
        omega
      · have := k.high s e1
        simp only [List.getElem?_set_self hlt, Option.some.injEq] at hx
        subst hx
        dsimp only
        omega
      · by_cases he : b.current = i
        · subst he
          have := k.pub _ s hi e1
          simp only [List.getElem?_set_self hlt, Option.some.injEq] at hx
          subst hx
          dsimp only
          omega
        · simp only [List.getElem?_set_ne he] at hx
          have := k.pub i x hi hx
          dsimp only
          omega
    rcases ready_update e1 e2 h with rfl | hu
    · exact k1
    · exact update_roomy L e3 hm k1 hu
  | update h2 =>
    cases h2
    exact update_roomy L t hm k h
  | freqs h2 =>
    cases h2
    obtain ⟨s, hs, a1, a2⟩ := resultFreqs_tinv t []
    simp only [act, a1, ok_bind, pure_M] at h
    cases h
    have back : ∀ (i : Nat) x, (b.stats.set b.resultIdx { s with symbolFreqs := StatDict.padTo s.symbolFreqs s.size })[i]? = some x →
        ∃ y, b.stats[i]? = some y ∧ x.dict = y.dict := by
      intro i x hx
      by_cases he : b.resultIdx = i
      · subst he
        rw [List.getElem?_set_self (List.getElem?_eq_some_iff.1 hs).1] at hx
        cases hx
        exact ⟨s, hs, rfl⟩
      · rw [List.getElem?_set_ne he] at hx
        exact ⟨x, hx, rfl⟩
    refine ⟨fun hp x hx => ?_, fun x hx => ?_, fun i x hi hx => ?_⟩
    · obtain ⟨y, y1, y2⟩ := back _ x hx
      rw [y2]
      exact k.low hp y y1
    · obtain ⟨y, y1, y2⟩ := back _ x hx
      rw [y2]
      exact k.high y y1
    · obtain ⟨y, y1, y2⟩ := back _ x hx
      rw [y2]
      exact k.pub i y hi y1

theorem train_roomy (L : RealLaws srt ord gam) : ∀ (acts : List Act) {b b' : Builder (Ext ℝ)} {n m : Nat}, TInv b n → ActsArrive n acts m →
    (m : Int) ≤ b.size + 1 → Roomy b n → train (exactEnv srt ord gam) b acts = .ok b' → Roomy b' m := by
  intro acts
  induction acts with
  | nil =>
    intro b b' n m _ ha _ k h
    cases ha
    cases h
    exact k
  | cons a acts ih =>
    intro b b' n m t ha hm k h
    have : ∃ j, ActsArrive n [a] j ∧ ActsArrive j acts m := by
      cases ha with
      | accept g1 h2 => exact ⟨_, .accept g1 .nil, h2⟩
      | update h2 => exact ⟨_, .update .nil, h2⟩
      | freqs h2 => exact ⟨_, .freqs .nil, h2⟩
    obtain ⟨j, j1, j2⟩ := this
    have := actsArrive_le j2
    simp only [train] at h
    obtain ⟨b1, h1, h⟩ := bind_ok.1 h
    obtain ⟨t1, s1, _⟩ := act_effect L.env (Ext.scoreLaws Real.log) t j1 (by omega) h1
    exact ih t1 j2 (by rw [s1]; exact hm) (act_roomy L t j1 (by omega) k h1) h

/-- C75: training needs bounded room, however long it goes on.  At every point of a run over `m` symbols the working dictionary
has at most 2.3 times `size + m` words and the published one at most `size + m`. -/
theorem C75_bounded (L : RealLaws srt ord gam) (b0 : Builder (Ext ℝ)) (n m : Nat) (h0 : Start realOps b0 n) (acts : List Act)
    (ha : ActsArrive n acts m) (hsize : (m : Int) ≤ b0.size + 1) :
    ∃ b s, train (exactEnv srt ord gam) b0 acts = .ok b ∧ b.cur = .ok s ∧ 10 * (s.dict.seqs.length : Int) ≤ 23 * (b0.size + m) ∧
      ∀ ws, published b = some ws → (ws.length : Int) ≤ b0.size + m := by
  obtain ⟨b, t1, t2, t3⟩ := train_tinv L.env (Ext.scoreLaws Real.log) ha h0.tinv hsize
  have one : ∀ {b : Builder (Ext ℝ)} {s : StatDict (Ext ℝ)} {k : Nat}, b.stats = [s] → b.current = 0 → (s.dict.seqs.length : Int) ≤ b.size → Roomy b k := by
    intro b s k h1 h2 h3
    have hx : ∀ (i : Nat) x, b.stats[i]? = some x → x = s := fun i x hx => by
      rw [h1] at hx
      exact List.mem_singleton.1 (List.mem_of_getElem? hx)
    refine ⟨fun _ x h => ?_, fun x h => ?_, fun i x _ h => ?_⟩ <;> rw [hx _ _ h] <;> omega
  have k0 : Roomy b0 n := by
    cases h0 with
    | fresh h => exact one rfl rfl (by simpa [StatDict.new, IntDict.empty, Builder.new] using h)
    | alphabet h1 h2 h3 h4 =>
      obtain ⟨s', e1, rfl⟩ := ofAlphabet_one h4
      refine one rfl rfl ?_
      rw [(ofSeqs_words e1).length_eq, init_seqs h1 h2, sortSeqs_length]
      exact h3
    | saved h1 h2 h3 h4 h5 =>
      obtain ⟨s', e1, h5⟩ := bind_ok.1 h5
      cases h5
      refine one rfl rfl ?_
      rw [(ofSeqs_words e1).length_eq]
      simp [IntDict.size]
  have k := train_roomy L acts h0.tinv ha hsize k0 t1
  obtain ⟨s, hs, _⟩ := t2.cur
  refine ⟨b, s, t1, cur_eq hs, by rw [← t3]; exact k.high s hs, fun ws hws => ?_⟩
  unfold published at hws
  cases hr : b.result with
  | none => rw [hr] at hws; cases hws
  | some i =>
    rw [hr] at hws
    obtain ⟨j, hj, hws⟩ := Option.bind_eq_some_iff.1 hws
    cases hj
    obtain ⟨x, hx, hws⟩ := Option.bind_eq_some_iff.1 hws
    cases hws
    rw [← t3]
    exact k.pub i x hr hx

end

/-- The conditions of `C75_bounded` are met by a fresh builder ... -/
example : Start realOps (Builder.new realOps 3) 0 ∧ ActsArrive 0 [.accept [0, 1, 2], .update, .accept [0, 1, 0, 2]] 3 :=
  ⟨.fresh (by decide), .accept (.fresh (.fresh (.fresh .nil))) (.update (.accept (.known (by decide) (by decide)
    (.known (by decide) (by decide) (.known (by decide) (by decide) (.known (by decide) (by decide) .nil)))) .nil))⟩

/-- ... and both kinds of dictionaries above the requested size do occur: with `size` 3 the working one has five words and the
published one four. -/
example : (do
    let b ← train quickEnv (Builder.new quickEnv.ops 3) [.accept [0, 1, 2], .accept [0, 1, 0, 2], .accept [0, 1, 2, 1]]
    let s ← b.cur
    pure (s.dict.seqs, published b) : M (List IntSeq × Option (List IntSeq))) =
    .ok ([[0], [0, 1], [0, 1, 2], [1], [2]], some [[0], [0, 1], [1], [2]]) := by decide +kernel

/-! ## C76 -/

theorem search_size {d d' : IntDict} {seq : IntSeq} {ex : Option (List Int)} {i : Int} (h : d.search seq ex = .ok (d', i)) :
    d'.size ≤ d.size + 1 := by
  unfold IntDict.search at h
  obtain ⟨r, _, h⟩ := bind_ok.1 h
  split at h
  · cases h
    omega
  · obtain ⟨o, _, h⟩ := bind_ok.1 h
    cases o with
    | some j => cases h; omega
    | none =>
      cases ex with
      | some e => cases h; omega
      | none =>
        cases seq with
        | nil => cases h
        | cons x xs => cases h; simp [IntDict.size]

theorem forward_size {O : FloatOps F} {freqs : List Int} {total : Int} {ex : Option (List Int)} : ∀ (seq : IntSeq) {pos : Nat} {d d' : IntDict} {t t' : DP F},
    IntDict.forward O freqs total ex pos seq d t = .ok (d', t') → d'.size ≤ d.size + seq.length := by
  intro seq
  induction seq with
  | nil =>
    intro pos d d' t t' h
    cases h
    simp
  | cons x xs ih =>
    intro pos d d' t t' h
    simp only [IntDict.forward] at h
    obtain ⟨⟨d1, sym⟩, h1, h⟩ := bind_ok.1 h
    have := search_size h1
    dsimp only at h
    simp only [List.length_cons]
    split at h
    · have := ih h
      omega
    · obtain ⟨t1, _, h⟩ := bind_ok.1 h
      have := ih h
      omega

theorem parse_size {O : FloatOps F} {d d' : IntDict} {seq : IntSeq} {freqs : List Int} {total : Int} {out out' : List Int} {c : Int}
    (h : d.parse O seq freqs total out = .ok (d', out', c)) : d'.size ≤ d.size + seq.length := by
  unfold IntDict.parse IntDict.weightedParse at h
  obtain ⟨⟨d1, o1, s1⟩, h1, h⟩ := bind_ok.1 h
  obtain ⟨⟨d2, t⟩, h2, h1⟩ := bind_ok.1 h1
  obtain ⟨o2, _, h1⟩ := bind_ok.1 h1
  obtain ⟨sc, _, h1⟩ := bind_ok.1 h1
  cases h1
  cases h
  exact forward_size seq h2

/-- Looking up a symbol that is missing from the sorted part when the next word is larger: the copies already appended behind
that word are not found. -/
theorem crowded_search {d : IntDict} (hd : WF d) {base : List IntSeq} {x y : Int} {k : Nat} (h : d.seqs = base ++ [y] :: List.replicate k [x])
    (hb : ∀ w ∈ base, w < [x] ∧ ¬ w <+: [x]) (hxy : x < y) : d.search [x] none = .ok (appendSym d x, (d.size : Int)) := by
  obtain ⟨r, hr, hrl, hlow, hhigh⟩ := lowerBound_ok d.seqs [x]
  have hlt : ([x] : IntSeq) < [y] := List.Lex.rel hxy
  have hrb : r = base.length := by
    rcases Nat.lt_trichotomy r base.length with hl | hl | hl
    · have hg : d.seqs[r]? = some base[r] := by rw [h, List.getElem?_append_left hl, List.getElem?_eq_getElem hl]
      exact absurd (hb _ (List.getElem_mem hl)).1 (not_lt.2 (hhigh _ hg))
    · exact hl
    · have hpos : 0 < r := by omega
      have hlen : r - 1 < d.seqs.length := by omega
      obtain ⟨w, hg⟩ : ∃ w, d.seqs[r - 1]? = some w := ⟨_, List.getElem?_eq_getElem hlen⟩
      have := hlow _ hpos hg
      rw [h, List.getElem?_append_right (by omega)] at hg
      have hm := List.mem_of_getElem? hg
      rw [List.mem_cons, List.mem_replicate] at hm
      rcases hm with hm | ⟨_, hm⟩
      · rw [hm] at this
        exact absurd this (lt_asymm hlt)
      · rw [hm] at this
        exact absurd this (lt_irrefl _)
  have hle : 0 ≤ (r : Int) - 1 → ∃ w, d.seqs[((r : Int) - 1).toNat]? = some w ∧ w ≤ [x] := by
    intro h0
    have h1 : ((r : Int) - 1).toNat = r - 1 := by omega
    have h2 : r - 1 < d.seqs.length := by omega
    exact ⟨d.seqs[r - 1], by rw [h1]; exact List.getElem?_eq_getElem h2, le_of_lt (hlow _ (by omega) (List.getElem?_eq_getElem h2))⟩
  obtain ⟨res, hw, hres⟩ := walkUp_wf hd [x] none r (d.size + 1) (by simp only [IntDict.size]; omega) ((r : Int) - 1) (by omega) hle
  have hnone : res = none := by
    cases res with
    | none => rfl
    | some j =>
      obtain ⟨m, w, _, h2, h3, h4, _⟩ := hres j rfl
      have hm : m < base.length := by omega
      rw [h, List.getElem?_append_left hm] at h3
      exact absurd h4 (hb w (List.mem_of_getElem? h3)).2
  have hex : d.exactAt r [x] = false := by
    rw [Bool.eq_false_iff, ne_eq, exactAt_iff, hrb, h, List.getElem?_append_right (le_refl _)]
    simp only [Nat.sub_self, List.getElem?_cons_zero, Option.some.injEq, List.cons.injEq, and_true]
    omega
  subst hnone
  unfold IntDict.search
  simp only [hr, ok_bind, hex, Bool.false_and, Bool.false_eq_true, if_false, hw]
  rfl

theorem parse_one {O : FloatOps F} {d d' d1 : IntDict} {x : Int} {freqs : List Int} {total : Int} {out out' : List Int} {c i : Int}
    (h : d.parse O [x] freqs total out = .ok (d', out', c)) (h1 : d.search [x] none = .ok (d1, i)) : d' = d1 := by
  unfold IntDict.parse IntDict.weightedParse at h
  obtain ⟨⟨d3, o1, s1⟩, h3, h⟩ := bind_ok.1 h
  obtain ⟨⟨d2, t⟩, h2, h3⟩ := bind_ok.1 h3
  obtain ⟨o2, _, h3⟩ := bind_ok.1 h3
  obtain ⟨sc, _, h3⟩ := bind_ok.1 h3
  cases h3
  cases h
  simp only [IntDict.forward, h1, ok_bind] at h2
  split at h2
  · cases h2
    rfl
  · obtain ⟨t1, _, h2⟩ := bind_ok.1 h2
    cases h2
    rfl

/-- C76, the part that holds: after any admissible history one call of `parse` adds at most as many words to `alphabet()` as the
sequence has symbols, each of them a single accepted symbol of the sequence. -/
theorem C76_growth_partial (E : Env F) (L : EnvLaws E) (SL : ScoreLaws E.ops) (m0 : Stream F) (vals : List Int) (calls : List Call)
    (h : Admissible E.ops m0 vals calls true) : ∃ m ws, run E m0 calls = .ok m ∧ m.alphabet = .ok ws ∧
      ∀ seq, ∃ m' ids added, m.parse E.ops seq = .ok (m', ids) ∧ m'.alphabet = .ok (ws ++ added) ∧ added.length ≤ seq.length ∧
        ∀ w ∈ added, ∃ x ∈ seq, w = [x] ∧ x ∈ vals ++ accepted calls := by
  obtain ⟨m, r1, inv, hd, _⟩ := h.inv L SL
  obtain ⟨d, d1, d2⟩ := inv.getDict (hd rfl)
  refine ⟨m, _, r1, inv.alphabet d1 d2, fun seq => ?_⟩
  obtain ⟨d0, d', ids, g1, g2, _, g4, g5, ⟨syms, s1, _, s3⟩, _, _, _⟩ := inv.parse SL (hd rfl) seq
  rw [d1] at g1
  cases g1
  have hget : (m.setDict d').getDict = .ok d' := Stream.getDict_setDict d1 d'
  have hsize : d'.size ≤ d.size + (m.coder.encodeImm seq).length := by
    have g := g2
    unfold Stream.parse at g
    obtain ⟨_, _, g⟩ := bind_ok.1 g
    obtain ⟨_, g0, g⟩ := bind_ok.1 g
    rw [d1] at g0
    cases g0
    obtain ⟨⟨dd, oo, cc⟩, hp, g⟩ := bind_ok.1 g
    have : dd = d' := by
      have e : (m.setDict dd).getDict = (m.setDict d').getDict := by
        simp only [pure_M, Except.ok.injEq, Prod.mk.injEq] at g
        rw [g.1]
      rw [hget, Stream.getDict_setDict d1 dd] at e
      cases e
      rfl
    subst this
    exact parse_size hp
  refine ⟨_, ids, decodeWords (vals ++ accepted calls) (syms.map fun x => [x]), g2, ?_, ?_, ?_⟩
  · rw [g5.alphabet hget g4, s1]
    simp [decodeWords]
  · have h1 : (m.coder.encodeImm seq).length ≤ seq.length := by
      have := congrArg List.length (imm_decode inv.coder seq)
      rw [List.length_map] at this
      rw [this]
      exact List.length_filter_le _ _
    simp only [IntDict.size, s1, List.length_append, List.length_map] at hsize
    simp only [decodeWords, List.length_map]
    omega
  · intro w hw
    simp only [decodeWords, List.map_map, List.mem_map, Function.comp_apply, List.map_cons, List.map_nil] at hw
    obtain ⟨y, hy, rfl⟩ := hw
    have := List.mem_map_of_mem (f := fun k : Int => (seen (vals ++ accepted calls))[k.toNat]?.getD 0) (s3 y hy)
    rw [imm_decode inv.coder, List.mem_filter] at this
    exact ⟨_, this.1, rfl, by simpa [seen_mem] using this.2⟩

/-- Accept two new symbols, parse the second of them once and then the first of them `k` times. -/
def again (k : Nat) : List Call := [.accept [7, 8], .parse [8]] ++ List.replicate k (.parse [7])

/-- **C76 is false**: parsing one and the same symbol over and over adds a word to the published dictionary with every call, without
bound. -/
theorem C76_repeat_false : ∃ m0, loaded56 = .ok m0 ∧ ∀ k, Admissible ratEnv.ops m0 [5, 6] (again k) true ∧
    ∃ m, run ratEnv m0 (again k) = .ok m ∧ m.alphabet = .ok ([[5], [5, 6], [6], [8]] ++ List.replicate k [7]) := by
  have h0 : ∃ m0, loaded56 = .ok m0 := by
    cases h : loaded56 with
    | ok m => exact ⟨m, rfl⟩
    | error e =>
      have : (loaded56.toOption.isSome) = true := by decide +kernel
      rw [h] at this
      cases this
  obtain ⟨m0, h0⟩ := h0
  have hleg : ∀ k, Legal true (List.replicate k (.parse [7])) true := by
    intro k
    induction k with
    | zero => exact .nil
    | succ k ih => exact .parse ih
  have hacc : ∀ k, accepted (List.replicate k (.parse [7])) = [] := by
    intro k
    induction k with
    | zero => rfl
    | succ k ih => exact ih
  have hacc' : ∀ k, accepted (again k) = [7, 8] := fun k => by simp [again, accepted, hacc]
  have hadm : ∀ k, Admissible ratEnv.ops m0 [5, 6] (again k) true := by
    intro k
    refine ⟨⟨true, _, .loaded (by decide) ⟨by decide, by decide, ?_, ?_⟩ (by decide) h0, .accept (.parse (hleg k)), ?_⟩⟩
    · decide
    · intro x h0 h1
      have : x = 0 ∨ x = 1 := by simp at h1; omega
      rcases this with rfl | rfl <;> simp
    · rw [hacc']
      decide
  have key : ∀ k, ∃ m, run ratEnv m0 (again k) = .ok m ∧ m.dict = .own ∧ m.coder.encodeImm [7] = [2] ∧
      m.own.seqs = [[0], [0, 1], [1]] ++ [3] :: List.replicate k [2] := by
    intro k
    induction k with
    | zero =>
      have hc : (do let m ← loaded56
                    let m ← run ratEnv m (again 0)
                    pure (m.dict, m.coder.encodeImm [7], m.own.seqs) : M (DictPtr × List Int × List IntSeq)) =
          .ok (.own, [2], [[0], [0, 1], [1], [3]]) := by decide +kernel
      rw [h0, ok_bind] at hc
      obtain ⟨m, h1, hc⟩ := bind_ok.1 hc
      simp only [pure_M, Except.ok.injEq, Prod.mk.injEq] at hc
      exact ⟨m, h1, hc.1, hc.2.1, hc.2.2⟩
    | succ k ih =>
      obtain ⟨m, h1, h2, h3, h4⟩ := ih
      obtain ⟨m1, i1, inv, hd, _⟩ := (hadm k).inv ratLaws (Ext.scoreLaws _)
      rw [h1] at i1
      cases i1
      obtain ⟨d, d', ids, g1, g2, g3, _⟩ := inv.parse (O := ratEnv.ops) (Ext.scoreLaws _) (hd rfl) [7]
      have hg : m.getDict = .ok m.own := by simp [Stream.getDict, h2]
      rw [hg] at g1
      cases g1
      have hs := crowded_search g3.wf h4 (by decide) (by decide)
      have hd' : d' = appendSym m.own 2 := by
        have g := g2
        unfold Stream.parse at g
        obtain ⟨_, _, g⟩ := bind_ok.1 g
        obtain ⟨_, g0, g⟩ := bind_ok.1 g
        rw [hg] at g0
        cases g0
        rw [h3] at g
        obtain ⟨⟨dd, oo, cc⟩, hp, g⟩ := bind_ok.1 g
        have hdd := parse_one hp hs
        simp only [pure_M, Except.ok.injEq, Prod.mk.injEq, Stream.setDict, h2] at g
        have := congrArg Stream.own g.1
        exact this.symm.trans hdd
      refine ⟨m.setDict d', ?_, ?_, ?_, ?_⟩
      · have : again (k + 1) = again k ++ [.parse [7]] := by
          simp [again, List.replicate_succ']
        rw [this, run_append, h1]
        show run ratEnv m [.parse [7]] = _
        simp only [run, call, g2, ok_bind, pure_M]
      · rw [(Stream.setDict_frame m d').1, h2]
      · rw [(Stream.setDict_frame m d').2.1, h3]
      · rw [hd']
        simp [Stream.setDict, h2, appendSym, h4, List.replicate_succ']
  refine ⟨m0, h0, fun k => ⟨hadm k, ?_⟩⟩
  obtain ⟨m, h1, h2, _, h4⟩ := key k
  obtain ⟨m1, i1, inv, hd, _⟩ := (hadm k).inv ratLaws (Ext.scoreLaws _)
  rw [h1] at i1
  cases i1
  have hg : m.getDict = .ok m.own := by simp [Stream.getDict, h2]
  refine ⟨m, h1, ?_⟩
  rw [inv.alphabet hg inv.own, h4, hacc']
  simp only [decodeWords, List.map_append, List.map_cons, List.map_nil, List.map_replicate]
  rfl

end VGram.Props
