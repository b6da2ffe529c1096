import Verif.Props.Builder
import Verif.Props.DictReal
import Verif.Proofs.IntVGram

/-!
# The parse of a stream model is the most probable one, and its dictionary respects the requested size (C72, C73)
-/

namespace VGram.Props

open VGram Spec

variable {F : Type}

/-! ## C73 -/

/-- Written with the symbols themselves or with their codes, a sequence has the same splits. -/
theorem spells_codes {c : SeqCoder} {hist : List Int} (hc : CInv c (seen hist)) {words : List IntSeq}
    (hw : ∀ w ∈ words, ∀ x ∈ w, 0 ≤ x ∧ x < ((seen hist).length : Int)) {ids : List Int} {seq : IntSeq}
    (h : Spells (decodeWords hist words) ids (seq.filter fun x => decide (x ∈ hist))) : Spells words ids (c.encodeImm seq) := by
  have := h.map fun x => ((seen hist).idxOf x : Int)
  have e1 : (decodeWords hist words).map (List.map fun x => ((seen hist).idxOf x : Int)) = words := by
    unfold decodeWords
    rw [List.map_map]
    conv_rhs => rw [← List.map_id words]
    apply List.map_congr_left
    intro w hwm
    rw [Function.comp_apply, List.map_map, id_eq]
    conv_rhs => rw [← List.map_id w]
    apply List.map_congr_left
    intro x hx
    obtain ⟨h0, h1⟩ := hw w hwm x hx
    have hlt : x.toNat < (seen hist).length := by omega
    rw [Function.comp_apply, List.getElem?_eq_getElem hlt, Option.getD_some, (seen_nodup _).idxOf_getElem _ hlt, id_eq]
    omega
  rw [e1] at this
  rw [hc.imm]
  simpa only [seen_mem] using this

theorem run_freqsTotal {E : Env F} : ∀ (calls : List Call) {m m' : Stream F}, m.totalFreqs = m.freqs.sum → run E m calls = .ok m' →
    m'.totalFreqs = m'.freqs.sum := by
  intro calls
  induction calls with
  | nil => intro m m' h hr; cases hr; exact h
  | cons c cs ih =>
    intro m m' h hr
    obtain ⟨m1, h1, h2⟩ := bind_ok.1 hr
    refine ih ?_ h2
    cases c with
    | accept seq =>
      simp only [call, Stream.accept] at h1
      obtain ⟨b, _, h1⟩ := bind_ok.1 h1
      cases h1
      exact h
    | parse seq =>
      simp only [call, Stream.parse] at h1
      obtain ⟨⟨m2, ids⟩, h3, h1⟩ := bind_ok.1 h1
      cases h1
      obtain ⟨_, _, h3⟩ := bind_ok.1 h3
      obtain ⟨_, _, h3⟩ := bind_ok.1 h3
      obtain ⟨⟨d', out, _⟩, _, h3⟩ := bind_ok.1 h3
      cases h3
      obtain ⟨f1, f2, f3, f4, f5, _⟩ := m.setDict_frame d'
      rw [f3, f4]
      exact h
    | update =>
      simp only [call, Stream.updateDict] at h1
      split at h1
      · cases h1
        exact h
      · obtain ⟨⟨b, fr⟩, _, h1⟩ := bind_ok.1 h1
        obtain ⟨mp, _, h1⟩ := bind_ok.1 h1
        cases h1
        exact sumI_eq _

theorem SStart.freqsTotal {O : FloatOps F} {m : Stream F} {vals : List Int} {r : Bool} {cap : Int} (h : SStart O m vals r cap) :
    m.totalFreqs = m.freqs.sum := by
  cases h with
  | fresh h => rfl
  | loaded h1 h2 h3 h4 =>
    simp only [Stream.ofSaved] at h4
    obtain ⟨d, _, h4⟩ := bind_ok.1 h4
    obtain ⟨b, _, h4⟩ := bind_ok.1 h4
    cases h4
    exact sumI_eq _

/-- C73: if the seen symbols of all parsed sequences were shown by `alphabet()`, the ids returned by `parse` have the greatest
score among all ways to write the sequence (without the symbols never seen) with the words of `alphabet()`, the frequency of a
word being the one at its position in `freqs()` and the total their sum. -/
theorem C73_best_score (E : Env F) (L : EnvLaws E) (SL : ScoreLaws E.ops) (OL : OrderLaws E.ops) (m0 : Stream F) (vals : List Int)
    (calls : List Call) (h : Admissible E.ops m0 vals calls true) (hn : Covered E m0 vals calls) :
    ∃ m ws, run E m0 calls = .ok m ∧ m.alphabet = .ok ws ∧ (∀ f ∈ m.freqs, 0 ≤ f) ∧
      ∀ seq, (∀ x ∈ seq, x ∈ vals ++ accepted calls → [x] ∈ ws) → ∃ ids, m.parse E.ops seq = .ok (m, ids) ∧
        Spells ws ids (seq.filter fun x => decide (x ∈ vals ++ accepted calls)) ∧
        ∀ ids', Spells ws ids' (seq.filter fun x => decide (x ∈ vals ++ accepted calls)) →
          E.ops.lt (parseScore E.ops m.freqs m.freqs.sum ws.length ids) (parseScore E.ops m.freqs m.freqs.sum ws.length ids') = false := by
  obtain ⟨m, r1, inv, hd, _⟩ := h.inv L SL
  obtain ⟨d, d1, d2⟩ := inv.getDict (hd rfl)
  have ha := inv.alphabet d1 d2
  have htot : m.totalFreqs = m.freqs.sum := by
    obtain ⟨r0, cap, s1, _⟩ := h.start
    exact run_freqsTotal calls s1.freqsTotal r1
  refine ⟨m, _, r1, ha, inv.freqs, fun seq hk => ?_⟩
  have hshow : Shows m (vals ++ accepted calls) seq := by
    intro ws hws
    rw [ha] at hws
    cases hws
    exact hk
  obtain ⟨ids, ws, e1, e2, e3⟩ := hshow.pure SL inv (hd rfl) (h.sorted L SL hn r1)
  rw [ha] at e1
  cases e1
  refine ⟨ids, e2, e3, fun ids' h' => ?_⟩
  have hs := (h.sorted L SL hn r1).getDict d1
  obtain ⟨ids2, o1, _, o3⟩ := weightedParse_opt SL OL hs (hshow.knows inv d1 d2) inv.freqs inv.total
  have hids : ids = ids2 := by
    simp only [Stream.parse] at e2
    obtain ⟨_, _, e2⟩ := bind_ok.1 e2
    simp only [d1, ok_bind, IntDict.parse, o1, pure_M, List.nil_append, Except.ok.injEq, Prod.mk.injEq] at e2
    exact e2.2.symm
  subst hids
  have := o3 ids' (spells_codes inv.coder d2.symbols h')
  rw [← htot]
  simpa only [decodeWords, List.length_map] using this

/-- C73 over the reals: the greatest product of `(freq + 1) / (total + number of words)`. -/
theorem C73_most_probable (srt : List (StatItem (Ext ℝ)) → List (StatItem (Ext ℝ))) (ord : PairMap → PairMap) 
    (gam : List (Ext ℝ) → Nat → Ext ℝ) (L : EnvLaws ⟨realOps, srt, ord, gam⟩) (m0 : Stream (Ext ℝ)) (vals : List Int)
    (calls : List Call) (h : Admissible realOps m0 vals calls true) (hn : Covered ⟨realOps, srt, ord, gam⟩ m0 vals calls) :
    ∃ m ws, run ⟨realOps, srt, ord, gam⟩ m0 calls = .ok m ∧ m.alphabet = .ok ws ∧
      ∀ seq, (∀ x ∈ seq, x ∈ vals ++ accepted calls → [x] ∈ ws) → ∃ ids, m.parse realOps seq = .ok (m, ids) ∧
        Spells ws ids (seq.filter fun x => decide (x ∈ vals ++ accepted calls)) ∧
        ∀ ids', Spells ws ids' (seq.filter fun x => decide (x ∈ vals ++ accepted calls)) →
          parseProb m.freqs m.freqs.sum ws.length ids' ≤ parseProb m.freqs m.freqs.sum ws.length ids := by
  obtain ⟨m, ws, h1, h2, h3, h4⟩ := C73_best_score ⟨realOps, srt, ord, gam⟩ L (Ext.scoreLaws Real.log) (Ext.orderLaws Real.log) m0 vals calls h hn
  refine ⟨m, ws, h1, h2, fun seq hk => ?_⟩
  obtain ⟨ids, g1, g2, g3⟩ := h4 seq hk
  refine ⟨ids, g1, g2, fun ids' h' => ?_⟩
  by_cases hs : 0 < ws.length
  · have := g3 ids' h'
    have ht : 0 ≤ m.freqs.sum := List.sum_nonneg h3
    obtain ⟨p1, e1⟩ := parseScore_real h3 ht hs ids
    obtain ⟨p2, e2⟩ := parseScore_real h3 ht hs ids'
    have this : realOps.lt (parseScore realOps m.freqs m.freqs.sum ws.length ids) (parseScore realOps m.freqs m.freqs.sum ws.length ids') = false := this
    rw [e1, e2] at this
    have hl : ¬ Real.log (parseProb m.freqs m.freqs.sum ws.length ids) < Real.log (parseProb m.freqs m.freqs.sum ws.length ids') := by
      simpa [realOps, Ext.ops, Ext.lt] using this
    exact (Real.log_le_log_iff p2 p1).1 (not_lt.1 hl)
  · have hnil : ws = [] := List.length_eq_zero_iff.1 (by omega)
    subst hnil
    have : ∀ is sq, Spells [] is sq → is = [] := by
      rintro is sq ⟨us, a, _⟩
      cases a with
      | nil => rfl
      | cons hx _ => obtain ⟨_, hx⟩ := hx; simp at hx
    rw [this ids _ g2, this ids' _ h']

/-- The choice depends on the frequencies: with many 5s and 6s the sequence 5 6 is split, otherwise it is one word. -/
example : (do
    let O := Ext.ops Rat fun x => -1 / x
    let m ← Stream.ofSaved O (coderAfter [[5, 6]]) [90, 0, 90] [[0], [0, 1], [1]] 4 (.fin 0)
    let (_, ids) ← m.parse O [5, 9, 6]
    let m' ← Stream.ofSaved O (coderAfter [[5, 6]]) [0, 9, 0] [[0], [0, 1], [1]] 4 (.fin 0)
    let (_, ids') ← m'.parse O [5, 9, 6]
    pure (ids, ids') : M (List Int × List Int)) = .ok ([0, 2], [1]) := by decide +kernel

/-! ## C72 -/

/-- The published dictionary has at most one word more than the builder's size, is sorted and has all `n` symbols. -/
def Fits (b : Builder F) (n : Nat) : Prop :=
  ∃ i s, b.result = some i ∧ b.stats[i]? = some s ∧ (s.dict.seqs.length : Int) ≤ b.size + 1 ∧ Sorted s.dict ∧
    ∀ x : Int, 0 ≤ x → x < (n : Int) → [x] ∈ s.dict.seqs

/-- What holds `len - base` rebuilds after the last new symbol. -/
structure Settled (b : Builder F) (n base : Nat) : Prop where
  one : base < b.stats.length → n ≤ b.symbAlphabet.length + 1
  two : base + 1 < b.stats.length → b.populate = false ∨ Fits b n
  three : base + 2 < b.stats.length → Fits b n

theorem Settled.set {b : Builder F} {n base : Nat} (h : Settled b n base) {j : Nat} {t t' : StatDict F} (ht : b.stats[j]? = some t)
    (hs : Sorted t.dict → (∀ x : Int, 0 ≤ x → x < (n : Int) → [x] ∈ t.dict.seqs) →
      t'.dict.seqs.length = t.dict.seqs.length ∧ Sorted t'.dict ∧ ∀ x : Int, 0 ≤ x → x < (n : Int) → [x] ∈ t'.dict.seqs) : Settled { b with stats := b.stats.set j t' } n base := by
  have key : Fits b n → Fits { b with stats := b.stats.set j t' } n := by
    rintro ⟨i, s, f1, f2, f3, f4, f5⟩
    by_cases e : j = i
    · subst e
      rw [ht] at f2
      cases f2
      obtain ⟨hl, g1, g2⟩ := hs f4 f5
      have hlt := (List.getElem?_eq_some_iff.1 ht).1
      exact ⟨j, t', f1, by simp [hlt], by rw [hl]; exact f3, g1, g2⟩
    · exact ⟨i, s, f1, by simp only; rw [List.getElem?_set_ne e]; exact f2, f3, f4, f5⟩
  refine ⟨fun hb => h.one (by simpa using hb), fun hb => ?_, fun hb => key (h.three (by simpa using hb))⟩
  exact (h.two (by simpa using hb)).imp_right key

theorem Settled.update {E : Env F} (L : EnvLaws E) (SL : ScoreLaws E.ops) {b b' : Builder F} {n base : Nat} (h : Settled b n base) (t : TInv b n)
    (hn : (n : Int) ≤ b.size + 1) (hb : base ≤ b.stats.length) (hu : b.update E = .ok b') : Settled b' n base := by
  obtain ⟨b2, u1, u2, u3, u4⟩ := update_tinv L SL t hn
  rw [hu] at u1
  cases u1
  rcases update_cases hu with ⟨rfl, _⟩ | ⟨s, s', words, freqs, mp, _, up⟩
  · exact h
  · have hne : b' ≠ b := fun e => by
      have := congrArg (fun b : Builder F => b.stats.length) e
      simp [up.stats] at this
    obtain ⟨v1, v2⟩ := u4.resolve_left hne
    have hlen : b'.stats.length = b.stats.length + 1 := by simp [up.stats]
    have keep : b.populate = true → Fits b n → Fits b' n := by
      rintro hp ⟨i, s0, f1, f2, f3, f4⟩
      have hlt := (List.getElem?_eq_some_iff.1 f2).1
      exact ⟨i, s0, by rw [up.result, if_pos hp, f1], by rw [up.stats, List.getElem?_append_left hlt]; exact f2, by rw [u3]; exact f3, f4⟩
    have fresh : b.populate = false → base < b.stats.length → Fits b' n := by
      intro hp hlt
      obtain ⟨s1, w1, w2, w3⟩ := v2 hp
      obtain ⟨s2, c1, c2, c3⟩ := u2.cur
      rw [up.current, w1] at c1
      cases c1
      have := h.one hlt
      exact ⟨_, s1, w2, w1, by omega, c2.sorted, fun x h0 h1 => (c3 x).2 ⟨h0, h1⟩⟩
    refine ⟨fun _ => by omega, fun hb2 => ?_, fun hb3 => ?_⟩
    · cases hp : b.populate with
      | true => exact Or.inl (by rw [up.populate, hp]; rfl)
      | false => exact Or.inr (fresh hp (by omega))
    · cases hp : b.populate with
      | true => exact keep hp ((h.two (by omega)).resolve_left (by simp [hp]))
      | false => exact fresh hp (by omega)

theorem Settled.call {E : Env F} (L : EnvLaws E) (SL : ScoreLaws E.ops) {m m' : Stream F} {hist : List Int} {base : Nat} {c : Call}
    (hs : Settled m.builder (seen hist).length base) (inv : StreamInv m hist) (hd : ∀ seq, c = .parse seq → m.dict ≠ .null)
    (hcap : ((seen hist).length : Int) ≤ m.builder.size + 1) (hb : base ≤ m.builder.stats.length) (hold : ∀ seq, c = .accept seq → ∀ x ∈ seq, x ∈ hist)
    (h : call E m c = .ok m') : Settled m'.builder (seen hist).length base ∧ base ≤ m'.builder.stats.length := by
  cases c with
  | accept seq =>
    have hx : ∀ x ∈ seq, x ∈ hist := hold seq rfl
    have hseen : seen (hist ++ seq) = seen hist :=
       seen_append_sub hx
    obtain ⟨c1, c2⟩ := inv.coder.encode seq
    have ha := encode_arrive seq hist
    rw [← c2, hseen] at ha
    simp only [Props.call, Stream.accept] at h
    obtain ⟨b', hb', h⟩ := bind_ok.1 h
    cases h
    obtain ⟨s, s', ids, e1, e2, e3, e4, e5⟩ := accept_parse SL inv.tinv ha
    have hset : Settled { m.builder with stats := m.builder.stats.set m.builder.current s' } (seen hist).length base := by
      refine hs.set e1 fun _ hk => ⟨by omega, ?_, fun x h0 h1 => e4 _ (hk x h0 h1)⟩
      obtain ⟨t, t1, t2, _⟩ := e3.cur
      have hlt := (List.getElem?_eq_some_iff.1 e1).1
      simp only [List.getElem?_set_self hlt, Option.some.injEq] at t1
      rw [t1]
      exact t2.sorted
    rcases ready_update e1 e2 hb' with rfl | hu
    · exact ⟨hset, by simpa using hb⟩
    · refine ⟨hset.update L SL e3 hcap (by simpa using hb) hu, ?_⟩
      rcases update_cases hu with ⟨rfl, _⟩ | ⟨_, _, _, _, _, _, up⟩
      · simpa using hb
      · simp only [up.stats, List.length_append, List.length_set]
        omega
  | update =>
    simp only [Props.call, Stream.updateDict] at h
    split at h
    · cases h
      exact ⟨hs, hb⟩
    · obtain ⟨s, s1, s2, _⟩ := resultFreqs_tinv inv.tinv m.freqs
      rw [s2, ok_bind] at h
      obtain ⟨mp, _, h⟩ := bind_ok.1 h
      cases h
      exact ⟨hs.set s1 fun h1 h2 => ⟨rfl, h1, h2⟩, by simpa using hb⟩
  | parse seq =>
    obtain ⟨d, d', ids, d1, p2, d2, p4, p5, p6, p7, p8, p9⟩ := inv.parse SL (hd seq rfl) seq
    simp only [Props.call, p2, ok_bind, pure_M] at h
    cases h
    cases hm : m.dict with
    | null => exact absurd hm (hd seq rfl)
    | own =>
      simp only [Stream.setDict, hm]
      exact ⟨hs, hb⟩
    | stat j =>
      have hj : m.builder.stats[j]? = some (m.builder.stats[j]'(inv.ptr j hm)) := List.getElem?_eq_getElem _
      generalize m.builder.stats[j]'(inv.ptr j hm) = t at hj
      have hdt : d = t.dict := by
        simp only [Stream.getDict, hm, rd_nat_ok.2 hj, ok_bind, pure_M] at d1
        cases d1
        rfl
      subst hdt
      have hmod : m.builder.stats.modify j (fun s => { s with dict := d' }) = m.builder.stats.set j { t with dict := d' } := by
        rw [List.modify_eq_set_getElem?, hj]
        rfl
      simp only [Stream.setDict, hm, hmod]
      refine ⟨hs.set hj fun h1 h2 => ?_, by simpa using hb⟩
      have := p9 h1 fun x hx => by
        obtain ⟨a, b⟩ := imm_range inv.coder seq x hx
        exact h2 x a b
      subst this
      exact ⟨rfl, h1, h2⟩

theorem Settled.run {E : Env F} (L : EnvLaws E) (SL : ScoreLaws E.ops) {hist : List Int} {base : Nat} : ∀ (calls : List Call) {r r' : Bool} {m m' : Stream F},
    Legal r calls r' → (r = true → m.dict ≠ .null) → Settled m.builder (seen hist).length base → StreamInv m hist →
    ((seen hist).length : Int) ≤ m.builder.size + 1 → base ≤ m.builder.stats.length → (∀ x ∈ accepted calls, x ∈ hist) →
    Props.run E m calls = .ok m' → Settled m'.builder (seen hist).length base := by
  intro calls
  induction calls with
  | nil => intro r r' m m' _ _ hs _ _ _ _ h; cases h; exact hs
  | cons c cs ih =>
    intro r r' m m' hl hd hs inv hcap hb hold h
    obtain ⟨m1, h1, h2⟩ := bind_ok.1 h
    have hone : ∃ r1, Legal r [c] r1 ∧ Legal r1 cs r' := by
      cases hl with
      | accept hl => exact ⟨_, .accept .nil, hl⟩
      | parse hl => exact ⟨_, .parse .nil, hl⟩
      | update hl => exact ⟨_, .update .nil, hl⟩
    obtain ⟨r1, l1, l2⟩ := hone
    have hacc : accepted [c] ++ accepted cs = accepted (c :: cs) := by cases c <;> simp [accepted]
    have hx : ∀ x ∈ accepted [c], x ∈ hist := fun x hx => hold x (by rw [← hacc]; exact List.mem_append_left _ hx)
    have hsub := seen_append_sub (a := hist) hx
    obtain ⟨m2, q1, q2, q3, q4⟩ := run_inv L SL l1 inv hd (by rw [hsub]; exact hcap)
    simp only [Props.run, h1, ok_bind, Except.ok.injEq] at q1
    subst q1
    obtain ⟨k1, k2⟩ := hs.call L SL inv (by rintro seq rfl; cases hl; exact hd rfl) hcap hb (by rintro seq rfl; simpa [accepted] using hx) h1
    refine ih l2 q3 k1 ⟨by rw [← hsub]; exact q2.coder, by rw [← hsub]; exact q2.tinv, by rw [← hsub]; exact q2.own, q2.ptr, q2.freqs, q2.total, q2.prob⟩
      (by rw [q4]; exact hcap) k2 (fun x hx => hold x (by rw [← hacc]; exact List.mem_append_right _ hx)) h2

theorem Legal.append {xs ys : List Call} {r r' : Bool} (h : Legal r (xs ++ ys) r') : ∃ r1, Legal r xs r1 ∧ Legal r1 ys r' := by
  induction xs generalizing r with
  | nil => exact ⟨r, .nil, h⟩
  | cons x xs ih =>
    cases h with
    | accept h => obtain ⟨r1, a, b⟩ := ih h; exact ⟨r1, .accept a, b⟩
    | parse h => obtain ⟨r1, a, b⟩ := ih h; exact ⟨r1, .parse a, b⟩
    | update h => obtain ⟨r1, a, b⟩ := ih h; exact ⟨r1, .update a, b⟩

/-- How many rebuilds of its dictionary a model has made. -/
def rebuilds (m : Stream F) : Nat := m.builder.stats.length - 1

/-- C72: take a fresh model and a history whose second part brings no new symbols.  If that part makes at least three
rebuilds, then `alphabet()` after a final `update_dict` has at most `size` words, whatever else was called in between. -/
theorem C72_size_respected (E : Env F) (L : EnvLaws E) (SL : ScoreLaws E.ops) (size : Int) (before after : List Call) (r : Bool)
    (h : Admissible E.ops (Stream.new E.ops size) [] (before ++ after) r) (hold : ∀ x ∈ accepted after, x ∈ accepted before)
    (m1 m2 : Stream F) (h1 : run E (Stream.new E.ops size) before = .ok m1) (h2 : run E m1 after = .ok m2)
    (h3 : rebuilds m1 + 3 ≤ rebuilds m2) : ∃ m ws, m2.updateDict E.ops = .ok m ∧ m.alphabet = .ok ws ∧ (ws.length : Int) ≤ size := by
  obtain ⟨r0, cap, s1, s2, s3⟩ := h.start
  obtain ⟨i1, i2, i3⟩ := s1.inv
  obtain ⟨r1, l1, l2⟩ := s2.append
  rw [accepted_append, List.nil_append] at s3
  have hsub := seen_append_sub (a := accepted before) hold
  rw [hsub] at s3
  obtain ⟨m1', q1, q2, q3, q4⟩ := run_inv L SL l1 i1 i2 (by rw [i3, List.nil_append]; exact s3)
  rw [h1] at q1
  cases q1
  rw [List.nil_append] at q2
  obtain ⟨m2', p1, p2, p3, p4⟩ := run_inv L SL l2 q2 q3 (by rw [q4, i3, hsub]; exact s3)
  rw [h2] at p1
  cases p1
  have hset := Settled.run (base := m1.builder.stats.length) L SL after l2 q3 ⟨fun h => by omega, fun h => by omega, fun h => by omega⟩ q2
    (by rw [q4, i3]; exact s3) le_rfl hold h2
  have hpos : 0 < m1.builder.stats.length := by
    obtain ⟨s, hs, _⟩ := q2.tinv.cur
    have := (List.getElem?_eq_some_iff.1 hs).1
    omega
  unfold rebuilds at h3
  obtain ⟨i, s, f1, f2, f3, f4, f5⟩ := hset.three (by omega)
  have hidx : m2.builder.resultIdx = i := by simp [Builder.resultIdx, f1]
  have hsize : m2.builder.size + 1 = size := by
    rw [p4, q4]
    simp [Stream.new, Builder.new]
  obtain ⟨m, u1, u2, u3, u4, u5, u6, u7, u8, u9, u10⟩ := p2.updateDict (O := E.ops)
  have hgd : ∃ d, m.getDict = .ok d ∧ d.seqs = s.dict.seqs := by
    by_cases he : m2.dict = .stat m2.builder.resultIdx
    · obtain rfl := u9 he
      exact ⟨s.dict, by simp only [Stream.getDict, he, hidx, rd_nat_ok.2 f2, ok_bind, pure_M], rfl⟩
    · obtain ⟨t, t1, _, _, _, t5⟩ := u10 he
      rw [hidx, f2] at t1
      cases t1
      have hlt := (List.getElem?_eq_some_iff.1 f2).1
      refine ⟨s.dict, ?_, rfl⟩
      simp only [Stream.getDict, u3, hidx, t5]
      rw [rd_nat_ok.2 (List.getElem?_set_self hlt), ok_bind, pure_M]
  obtain ⟨d, d1, d2⟩ := hgd
  obtain ⟨d', d3, d4⟩ := u2.getDict (by simp [u3])
  rw [d1] at d3
  cases d3
  refine ⟨m, _, u1, u2.alphabet d1 d4, ?_⟩
  simp only [decodeWords, List.length_map, d2]
  omega

/-- Three symbols, then three rebuilds without new ones; the model of size 4 ends with four words. -/
example : (do
    let m1 ← run quickEnv (Stream.new quickEnv.ops 4) [.accept [5, 6, 7]]
    let m2 ← run quickEnv m1 [.accept [5, 6, 5, 7], .update, .parse [6, 5, 7], .accept [5, 6, 7, 6], .accept [6, 5, 6, 5]]
    let m ← m2.updateDict quickEnv.ops
    let ws ← m.alphabet
    pure (rebuilds m1, rebuilds m2, ws) : M (Nat × Nat × List IntSeq)) = .ok (1, 4, [[5], [5, 6], [6], [7]]) := by decide +kernel

end VGram.Props
