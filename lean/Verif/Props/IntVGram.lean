import Verif.Proofs.IntVGram
import Verif.Proofs.Decimal

/-!
# The int model: fit and transform (C44-C48)

`rounds seqs rand t n` is the history `n` × (one `accept` per training sequence, then `update_dict`),
where step `j` accepts `seqs[rand j % seqs.size()]`; `samples seqs rand t n` is `n` such `accept` calls from
step `t` on.
-/

namespace VGram.Props

open VGram Spec

variable {F : Type}

/-! ## C44 -/

/-- **C44**, the calls: `n` rounds make exactly `n · |seqs|` `accept` calls, call `j` on the member
`rand j % |seqs|` of the training set. -/
theorem C44_accept_calls (seqs : List IntSeq) (rand : Nat → Nat) (n : Nat) :
    (accepts (rounds seqs rand 0 n)).length = n * seqs.length ∧
    ∀ j, j < n * seqs.length → ∃ i, i < seqs.length ∧ i = rand j % seqs.length ∧ (accepts (rounds seqs rand 0 n))[j]? = seqs[i]? := by
  rw [accepts_rounds]
  refine ⟨by simp, fun j hj => ?_⟩
  have hpos : 0 < seqs.length := by
    rcases Nat.eq_zero_or_pos seqs.length with h | h
    · rw [h] at hj; omega
    · exact h
  have hlt := Nat.mod_lt (rand j) hpos
  refine ⟨_, hlt, rfl, ?_⟩
  rw [List.getElem?_map, List.getElem?_range' hj]
  simp [sample, hlt]

/-- **C44**, uninterrupted: on an unfitted model `fit` makes exactly the calls of `iter_num` rounds, then
recomputes the frequencies and returns the model (or fails where one of these calls fails). -/
theorem C44_uninterrupted (E : Env F) (σ : IntVGram.Sched) (m : IntVGram F) (seqs : List IntSeq) (hm : m.fitted = false)
    (hσ : ∀ j, j < m.iterNum.toNat * seqs.length → σ.term j = false) :
    m.fit E σ seqs = (run E m.toStream (rounds seqs σ.rand 0 m.iterNum.toNat)).bind fun s =>
      (IntVGram.recomputeFreqs E.ops σ (m.iterNum.toNat * seqs.length) { m with toStream := s, fitted := true } seqs).bind fun m2 =>
        .ok ({ m2 with freqsComputed := true }, true) := by
  unfold IntVGram.fit
  simp only [hm, Bool.false_eq_true, if_false]
  rw [fitOuter_full E σ seqs _ 0 m fun j _ h => hσ j (by omega)]
  cases run E m.toStream (rounds seqs σ.rand 0 m.iterNum.toNat) with
  | error e => rfl
  | ok s =>
    simp only [Except.bind, ok_bind, Bool.false_eq_true, if_false, Nat.zero_add]
    rfl

theorem fit_fresh {E : Env F} {σ : IntVGram.Sched} {size iter : Int} {seqs : List IntSeq} {s : Stream F}
    (hr : run E (Stream.new E.ops size) (rounds seqs σ.rand 0 iter.toNat) = .ok s) (hσ : ∀ j, j < iter.toNat * seqs.length → σ.term j = false) :
    (IntVGram.new E.ops size iter).fit E σ seqs =
      (IntVGram.recomputeFreqs E.ops σ (iter.toNat * seqs.length) { IntVGram.new E.ops size iter with toStream := s, fitted := true } seqs).bind fun m2 =>
        .ok ({ m2 with freqsComputed := true }, true) :=
  (C44_uninterrupted E σ (IntVGram.new E.ops size iter) seqs rfl hσ).trans (congrArg (fun z => Except.bind z _) hr)

/-- **C44**, interrupted: if termination is first requested at the check after `accept` number `k` (counting from 0),
`fit` makes `k / |seqs|` full rounds and `k % |seqs| + 1` more `accept` calls, altogether `k + 1`, and returns the
null pointer.  Since the last `update_dict` nothing changed the pointer to the dictionary, its frequencies and its
`min_probability`, and every published word kept its id. -/
theorem C44_interrupted (E : Env F) (σ : IntVGram.Sched) (m : IntVGram F) (seqs : List IntSeq) (k : Nat) (hm : m.fitted = false)
    (hk : k < m.iterNum.toNat * seqs.length) (hσ : ∀ j, j < k → σ.term j = false) (hs : σ.term k = true) :
    ∃ before after, before = rounds seqs σ.rand 0 (k / seqs.length) ∧
      after = samples seqs σ.rand (k / seqs.length * seqs.length) (k % seqs.length + 1) ∧
      (accepts (before ++ after)).length = k + 1 ∧
      m.fit E σ seqs = (run E m.toStream (before ++ after)).bind (fun s => .ok ({ m with toStream := s }, false)) ∧
      ∀ m', m.fit E σ seqs = .ok (m', false) → ∃ s, run E m.toStream before = .ok s ∧ m'.dict = s.dict ∧ m'.freqs = s.freqs ∧
        m'.totalFreqs = s.totalFreqs ∧ m'.minProb = s.minProb ∧
        ∀ d, s.getDict = .ok d → ∃ d', m'.getDict = .ok d' ∧ d.seqs <+: d'.seqs := by
  have hpos : 0 < seqs.length := by
    rcases Nat.eq_zero_or_pos seqs.length with h | h
    · rw [h] at hk; omega
    · exact h
  have hdm : k / seqs.length * seqs.length + k % seqs.length = k := by
    rw [Nat.mul_comm]; exact Nat.div_add_mod k seqs.length
  have hq : k / seqs.length < m.iterNum.toNat := (Nat.div_lt_iff_lt_mul hpos).2 hk
  have hfit : m.fit E σ seqs = (run E m.toStream (rounds seqs σ.rand 0 (k / seqs.length) ++
      samples seqs σ.rand (k / seqs.length * seqs.length) (k % seqs.length + 1))).bind (fun s => .ok ({ m with toStream := s }, false)) := by
    unfold IntVGram.fit
    simp only [hm, Bool.false_eq_true, if_false]
    rw [fitOuter_stop E σ seqs (List.length_pos_iff.1 hpos) _ 0 (k / seqs.length) (k % seqs.length) m hq (Nat.mod_lt _ hpos)
      (fun j _ h => hσ j (by omega)) (by rw [hdm, Nat.zero_add]; exact hs)]
    rw [Nat.zero_add (k / seqs.length * seqs.length)]
    cases run E m.toStream (rounds seqs σ.rand 0 (k / seqs.length) ++
      samples seqs σ.rand (k / seqs.length * seqs.length) (k % seqs.length + 1)) with
    | error e => rfl
    | ok s => simp only [Except.bind, ok_bind, if_true, pure_M, hm]
  refine ⟨_, _, rfl, rfl, ?_, hfit, fun m' h' => ?_⟩
  · rw [accepts_append, accepts_rounds, accepts_samples]
    simp only [List.length_append, List.length_map, List.length_range']
    omega
  · rw [hfit, run_append] at h'
    obtain ⟨s', h1, h'⟩ := bind_ok.1 h'
    cases h'
    obtain ⟨s, h2, h3⟩ := bind_ok.1 h1
    have ho := samples_onlyAccept seqs σ.rand (k / seqs.length * seqs.length) (k % seqs.length + 1)
    obtain ⟨a1, a2, a3, a4, _⟩ := onlyAccept_dict ho h3
    exact ⟨s, h2, a1, a2, a3, a4, fun d hd => onlyAccept_keeps ho h3 hd⟩

/-- A schedule: step `j` uses training sequence `j`, termination is requested at step `k`. -/
def stopAt (k : Nat) : IntVGram.Sched := ⟨id, fun j => decide (j = k)⟩

/-- Two rounds over two sequences; not interrupted, and interrupted at the third of the four `accept` calls. -/
example : accepts (rounds [[5, 6], [7]] id 0 2) = [[5, 6], [7], [5, 6], [7]] ∧
    (do let (m, r) ← (IntVGram.new ratEnv.ops 4 2).fit ratEnv (stopAt 100) [[5, 6], [7]]
        let ws ← m.alphabet
        pure (ws, m.freqs, r) : M (List IntSeq × List Int × Bool)) = .ok ([[5], [6], [7]], [1, 1, 1], true) ∧
    (do let (m, r) ← (IntVGram.new ratEnv.ops 4 2).fit ratEnv (stopAt 2) [[5, 6], [7]]
        let ws ← m.alphabet
        pure (ws, m.freqs, r) : M (List IntSeq × List Int × Bool)) = .ok ([[5], [6], [7]], [1, 1, 1], false) := by
  refine ⟨by decide, by decide +kernel, by decide +kernel⟩

/-! ## C45 -/

theorem recomputeLoop_fitted {O : FloatOps F} {σ : IntVGram.Sched} {fr : List Int} {total : Int} : ∀ (seqs : List IntSeq) {t : Nat} {m m' : IntVGram F} {t' : Nat} {b : Bool},
    IntVGram.recomputeLoop O σ fr total seqs t m = .ok (m', t', b) → m'.fitted = m.fitted := by
  intro seqs
  induction seqs with
  | nil => intro t m m' t' b h; cases h; rfl
  | cons s seqs ih =>
    intro t m m' t' b h
    simp only [IntVGram.recomputeLoop] at h
    obtain ⟨d, _, h⟩ := bind_ok.1 h
    obtain ⟨⟨d', out, n⟩, _, h⟩ := bind_ok.1 h
    obtain ⟨fr', _, h⟩ := bind_ok.1 h
    split at h
    · cases h; rfl
    · have := ih h
      exact this

theorem recomputeFreqs_fitted {O : FloatOps F} {σ : IntVGram.Sched} {t : Nat} {m m' : IntVGram F} {seqs : List IntSeq}
    (h : IntVGram.recomputeFreqs O σ t m seqs = .ok m') : m'.fitted = m.fitted := by
  simp only [IntVGram.recomputeFreqs] at h
  obtain ⟨⟨b, fr⟩, _, h⟩ := bind_ok.1 h
  obtain ⟨⟨m2, t2, stop⟩, h2, h⟩ := bind_ok.1 h
  have := recomputeLoop_fitted seqs h2
  simp only at h
  split at h <;> cases h <;> exact this

/-- A `fit` that returned the model leaves it fitted and counted. -/
theorem fit_flags {E : Env F} {σ : IntVGram.Sched} {m m' : IntVGram F} {seqs : List IntSeq} (h : m.fit E σ seqs = .ok (m', true)) :
    m'.fitted = true ∧ m'.freqsComputed = true := by
  unfold IntVGram.fit at h
  split at h
  · next hm =>
    split at h
    · next hc => cases h; exact ⟨hm, hc⟩
    · obtain ⟨m1, h1, h⟩ := bind_ok.1 h
      cases h
      exact ⟨(recomputeFreqs_fitted h1).trans hm, rfl⟩
  · obtain ⟨⟨m1, t, stop⟩, _, h⟩ := bind_ok.1 h
    cases stop with
    | true => simp only [if_true] at h; cases h
    | false =>
      simp only [Bool.false_eq_true, if_false] at h
      obtain ⟨m2, h2, h⟩ := bind_ok.1 h
      cases h
      exact ⟨recomputeFreqs_fitted h2, rfl⟩

/-- **C45**, first half: after a `fit` that returned the model, every later `fit` returns at once and changes nothing. -/
theorem C45_second_fit (E : Env F) (σ : IntVGram.Sched) (m m' : IntVGram F) (seqs : List IntSeq) (h : m.fit E σ seqs = .ok (m', true)) :
    ∀ σ' seqs', m'.fit E σ' seqs' = .ok (m', true) := by
  have hf := fit_flags h
  intro σ' seqs'
  simp only [IntVGram.fit, hf.1, hf.2, if_true, pure_M]

theorem fitInner_flags {E : Env F} {σ : IntVGram.Sched} {seqs : List IntSeq} : ∀ (n : Nat) {t : Nat} {m m' : IntVGram F} {t' : Nat} {b : Bool},
    IntVGram.fitInner E σ seqs n t m = .ok (m', t', b) → m'.fitted = m.fitted ∧ m'.freqsComputed = m.freqsComputed ∧ m'.iterNum = m.iterNum := by
  intro n
  induction n with
  | zero => intro t m m' t' b h; cases h; exact ⟨rfl, rfl, rfl⟩
  | succ n ih =>
    intro t m m' t' b h
    simp only [IntVGram.fitInner] at h
    obtain ⟨s, _, h⟩ := bind_ok.1 h
    obtain ⟨s', _, h⟩ := bind_ok.1 h
    split at h
    · cases h; exact ⟨rfl, rfl, rfl⟩
    · have := ih h
      exact this

theorem fitOuter_flags {E : Env F} {σ : IntVGram.Sched} {seqs : List IntSeq} : ∀ (n : Nat) {t : Nat} {m m' : IntVGram F} {t' : Nat} {b : Bool},
    IntVGram.fitOuter E σ seqs n t m = .ok (m', t', b) → m'.fitted = m.fitted ∧ m'.freqsComputed = m.freqsComputed ∧ m'.iterNum = m.iterNum := by
  intro n
  induction n with
  | zero => intro t m m' t' b h; cases h; exact ⟨rfl, rfl, rfl⟩
  | succ n ih =>
    intro t m m' t' b h
    simp only [IntVGram.fitOuter] at h
    obtain ⟨⟨m1, t1, stop⟩, h1, h⟩ := bind_ok.1 h
    obtain ⟨f1, f2, f3⟩ := fitInner_flags _ h1
    cases stop with
    | true => simp only [if_true] at h; cases h; exact ⟨f1, f2, f3⟩
    | false =>
      simp only [Bool.false_eq_true, if_false] at h
      obtain ⟨s, _, h⟩ := bind_ok.1 h
      obtain ⟨g1, g2, g3⟩ := ih h
      exact ⟨g1.trans f1, g2.trans f2, g3.trans f3⟩

/-- **C45**, second half: a `fit` that returned null was called on an unfitted model and leaves it unfitted, with
`freqs_computed_` and `iter_num_` as before. -/
theorem C45_interrupted_unfitted (E : Env F) (σ : IntVGram.Sched) (m m' : IntVGram F) (seqs : List IntSeq) (h : m.fit E σ seqs = .ok (m', false)) :
    m.fitted = false ∧ m'.fitted = false ∧ m'.freqsComputed = m.freqsComputed ∧ m'.iterNum = m.iterNum := by
  unfold IntVGram.fit at h
  split at h
  · split at h
    · cases h
    · obtain ⟨m1, _, h⟩ := bind_ok.1 h
      cases h
  · next hm =>
    obtain ⟨⟨m1, t, stop⟩, h1, h⟩ := bind_ok.1 h
    obtain ⟨f1, f2, f3⟩ := fitOuter_flags _ h1
    cases stop with
    | true =>
      simp only [if_true] at h
      cases h
      exact ⟨by simpa using hm, by rw [f1]; simpa using hm, f2, f3⟩
    | false =>
      simp only [Bool.false_eq_true, if_false] at h
      obtain ⟨m2, _, h⟩ := bind_ok.1 h
      cases h

/-- **C45**, refitting: a fresh model interrupted at any step can be fitted again with any schedule: as long as the
symbols of both training sets fit into the model, no `accept` or `update_dict` call of the second `fit` fails. -/
theorem C45_refit (E : Env F) (L : EnvLaws E) (SL : ScoreLaws E.ops) (size iter : Int) (hsize : 1 ≤ size) (σ : IntVGram.Sched) (seqs : List IntSeq) (k : Nat)
    (hk : k < iter.toNat * seqs.length) (hσ : ∀ j, j < k → σ.term j = false) (hs : σ.term k = true) (seqs' : List IntSeq)
    (hcap : ((seen (seqs.flatten ++ seqs'.flatten)).length : Int) ≤ size) :
    ∃ m', (IntVGram.new E.ops size iter).fit E σ seqs = .ok (m', false) ∧ ∀ rand, ∃ s, run E m'.toStream (rounds seqs' rand 0 iter.toNat) = .ok s := by
  obtain ⟨before, after, hb, ha, hl, hfit, _⟩ := C44_interrupted E σ (IntVGram.new E.ops size iter) seqs k rfl hk hσ hs
  obtain ⟨i1, i2, i3⟩ := (SStart.fresh (O := E.ops) hsize).inv
  have hpos : seqs ≠ [] := by
    rintro rfl
    simp at hk
  have hleg : Legal false (before ++ after) (decide (0 < k / seqs.length)) := by
    have h1 := rounds_legal seqs σ.rand (k / seqs.length) 0 false
    rw [Bool.false_or] at h1
    rw [hb, ha]
    have : ∀ {a b : List Call} {r r1 r2 : Bool}, Legal r a r1 → Legal r1 b r2 → Legal r (a ++ b) r2 := by
      intro a b r r1 r2 h
      induction h with
      | nil => exact id
      | accept _ ih => exact fun h => .accept (ih h)
      | parse _ ih => exact fun h => .parse (ih h)
      | update _ ih => exact fun h => .update (ih h)
    have h2 := samples_legal seqs σ.rand (Legal.nil (r := decide (0 < k / seqs.length))) (k % seqs.length + 1) (k / seqs.length * seqs.length)
    rw [List.append_nil] at h2
    exact this h1 h2
  have hacc : ∀ x ∈ accepted (before ++ after), x ∈ seqs.flatten := by
    intro x hx
    rw [accepted_append] at hx
    rcases List.mem_append.1 hx with hx | hx
    · exact rounds_accepted σ.rand _ _ x (hb ▸ hx)
    · exact samples_accepted σ.rand _ _ (Or.inr hpos) x (ha ▸ hx)
  have hle : ∀ l : List Int, (∀ x ∈ l, x ∈ seqs.flatten ++ seqs'.flatten) → ((seen l).length : Int) ≤ size := by
    intro l h
    have := seen_length_mono h
    omega
  obtain ⟨s, r1, r2, r3, r4⟩ := run_inv L SL hleg i1 (by simp) (by
    rw [i3, List.nil_append]
    exact hle _ fun x hx => by simp only [List.mem_append]; exact Or.inl (hacc x hx))
  refine ⟨{ IntVGram.new E.ops size iter with toStream := s }, ?_, fun rand => ?_⟩
  · rw [hfit]
    have : (IntVGram.new E.ops size iter).toStream = Stream.new E.ops size := rfl
    rw [this, r1]
    rfl
  · rw [List.nil_append] at r2
    obtain ⟨s', q1, _⟩ := run_inv L SL (rounds_legal seqs' rand iter.toNat 0 (decide (0 < k / seqs.length))) r2 r3 (by
      rw [r4, i3]
      refine hle _ fun x hx => ?_
      rcases List.mem_append.1 hx with hx | hx
      · exact List.mem_append_left _ (hacc x hx)
      · exact List.mem_append_right _ (rounds_accepted rand _ _ x hx))
    exact ⟨s', q1⟩

example : (do
    let (m, r) ← (IntVGram.new ratEnv.ops 4 1).fit ratEnv (stopAt 0) [[5, 6], [7]]
    let (m1, r1) ← m.fit ratEnv (stopAt 100) [[5, 6], [7]]
    let (m2, r2) ← m1.fit ratEnv (stopAt 0) [[9, 9]]
    pure ((r, m.fitted), (r1, m1.fitted, m1.freqs), (r2, m2.freqs)) : M ((Bool × Bool) × (Bool × Bool × List Int) × (Bool × List Int))) =
      .ok ((false, false), (true, true, [1, 1, 1]), (true, [1, 1, 1])) := by decide +kernel

/-! ## C46 -/

/-- **C46.** An uninterrupted `fit` of a fresh model with at least one round, when every training symbol is a word of the
resulting dictionary: it succeeds; `freqs()` has one entry per word; entry `i` is the number of times `i` is emitted when
every training sequence is parsed once with the frequencies `prior` reported by the builder; `total_freqs` is their sum,
which is the number of ids emitted.  The alphabet is the one of the last `update_dict`. -/
theorem C46_recomputed_freqs (E : Env F) (L : EnvLaws E) (SL : ScoreLaws E.ops) (size iter : Int) (h1 : 1 ≤ size) (h2 : 1 ≤ iter) (σ : IntVGram.Sched)
    (seqs : List IntSeq) (hcap : ((seen seqs.flatten).length : Int) ≤ size) (hσ : ∀ j, j < iter.toNat * seqs.length + seqs.length → σ.term j = false) :
    ∃ s ws, run E (Stream.new E.ops size) (rounds seqs σ.rand 0 iter.toNat) = .ok s ∧ s.alphabet = .ok ws ∧
      ((∀ seq ∈ seqs, ∀ x ∈ seq, [x] ∈ ws) → ∃ m b prior outs, (IntVGram.new E.ops size iter).fit E σ seqs = .ok (m, true) ∧
        m.alphabet = .ok ws ∧ s.builder.resultFreqs [] = .ok (b, prior) ∧ prior.length = ws.length ∧
        List.Forall₂ (fun seq ids => Spells ws ids seq ∧
          ∃ p, ({ s with freqs := prior, totalFreqs := sumI prior } : Stream F).parse E.ops seq = .ok (p, ids)) seqs outs ∧
        m.freqs.length = ws.length ∧ (∀ i : Nat, i < ws.length → m.freqs[i]? = some ((outs.flatten.count (i : Int) : Nat) : Int)) ∧
        m.totalFreqs = m.freqs.sum ∧ m.freqs.sum = outs.flatten.length) := by
  obtain ⟨s, s1, s2, s3⟩ := rounds_updated L SL σ.rand h1 (show 1 ≤ iter.toNat by omega) hcap
  obtain ⟨d, d1, d2⟩ := s2.inv.getDict (by simp [s2.ptr])
  refine ⟨s, _, s1, s2.inv.alphabet d1 d2, fun hk => ?_⟩
  have hj : JustUpdated ({ IntVGram.new E.ops size iter with toStream := s, fitted := true } : IntVGram F).toStream (accepted (rounds seqs σ.rand 0 iter.toNat)) := s2
  obtain ⟨m, prior, outs, r1, r2, r3, r4, r5, r6, r7, r8, _⟩ := recompute_known SL σ (iter.toNat * seqs.length) hj (s2.inv.alphabet d1 d2) hk fun j a b => hσ j b
  obtain ⟨b, prior', d', b1, b2, b3, b4, _⟩ := hj.start
  have r2' : s.builder.resultFreqs [] = .ok (m.builder, prior) := r2
  have b1' : s.builder.resultFreqs [] = .ok (b, prior') := b1
  rw [b1'] at r2'
  cases r2'
  have b4' : s.getDict = .ok d' := b4
  rw [d1] at b4'
  cases b4'
  refine ⟨{ m with freqsComputed := true }, m.builder, prior, outs, ?_, r7, b1, by simp [decodeWords, b3], r3, by rw [show _ = _ from r4]; simp [tally], fun i hi => ?_,
    by rw [← sumI_eq]; exact r5, by rw [← sumI_eq]; exact r6⟩
  · exact (fit_fresh s1 fun j hj => hσ j (by omega)).trans (congrArg (fun z => Except.bind z _) r1)
  · show m.freqs[i]? = _
    rw [r4]
    simp [tally, hi]

/-- Outside the condition of C46: if the training rounds did not put a training symbol into any word, `fit` writes
past the end of `freqs_`. -/
theorem C46_missing_symbol_oob (E : Env F) (L : EnvLaws E) (SL : ScoreLaws E.ops) (size iter : Int) (h1 : 1 ≤ size) (h2 : 1 ≤ iter) (σ : IntVGram.Sched)
    (pre : List IntSeq) (seq : IntSeq) (post : List IntSeq) (hcap : ((seen (pre ++ seq :: post).flatten).length : Int) ≤ size) (hσ : ∀ j, σ.term j = false)
    (s : Stream F) (ws : List IntSeq) (hr : run E (Stream.new E.ops size) (rounds (pre ++ seq :: post) σ.rand 0 iter.toNat) = .ok s)
    (ha : s.alphabet = .ok ws) (hk : ∀ s ∈ pre, ∀ x ∈ s, [x] ∈ ws) (x : Int) (hx : x ∈ seq) (hn : ∀ w ∈ ws, x ∉ w) :
    (IntVGram.new E.ops size iter).fit E σ (pre ++ seq :: post) = .error .oob := by
  obtain ⟨s', s1, s2, s3⟩ := rounds_updated L SL σ.rand h1 (show 1 ≤ iter.toNat by omega) hcap
  rw [hr] at s1
  cases s1
  have hj : JustUpdated ({ IntVGram.new E.ops size iter with toStream := s, fitted := true } : IntVGram F).toStream
    (accepted (rounds (pre ++ seq :: post) σ.rand 0 iter.toNat)) := s2
  have := recompute_oob (post := post) SL σ (iter.toNat * (pre ++ seq :: post).length) hj ha hk hx hn fun j _ _ => hσ j
  exact (fit_fresh hr fun j _ => hσ j).trans (congrArg (fun z => Except.bind z _) this)

/-- The condition of C46 is necessary: the same `fit` succeeds if and only if every training symbol is a word of the
dictionary after the training rounds; otherwise it writes out of bounds. -/
theorem C46_fit_iff_covered (E : Env F) (L : EnvLaws E) (SL : ScoreLaws E.ops) (size iter : Int) (h1 : 1 ≤ size) (h2 : 1 ≤ iter) (σ : IntVGram.Sched)
    (seqs : List IntSeq) (hcap : ((seen seqs.flatten).length : Int) ≤ size) (hσ : ∀ j, j < iter.toNat * seqs.length + seqs.length → σ.term j = false) :
    ∃ s ws, run E (Stream.new E.ops size) (rounds seqs σ.rand 0 iter.toNat) = .ok s ∧ s.alphabet = .ok ws ∧
      ((∃ m, (IntVGram.new E.ops size iter).fit E σ seqs = .ok (m, true)) ↔ ∀ seq ∈ seqs, ∀ x ∈ seq, [x] ∈ ws) ∧
      ((¬ ∀ seq ∈ seqs, ∀ x ∈ seq, [x] ∈ ws) → (IntVGram.new E.ops size iter).fit E σ seqs = .error .oob) := by
  obtain ⟨s, s1, s2, s3⟩ := rounds_updated L SL σ.rand h1 (show 1 ≤ iter.toNat by omega) hcap
  obtain ⟨d, d1, d2⟩ := s2.inv.getDict (by simp [s2.ptr])
  have hbad : (¬ ∀ seq ∈ seqs, ∀ x ∈ seq, [x] ∈ decodeWords (accepted (rounds seqs σ.rand 0 iter.toNat)) d.seqs) →
      (IntVGram.new E.ops size iter).fit E σ seqs = .error .oob := by
    intro hn
    have hj : JustUpdated ({ IntVGram.new E.ops size iter with toStream := s, fitted := true } : IntVGram F).toStream (accepted (rounds seqs σ.rand 0 iter.toNat)) := s2
    have := recompute_covers SL σ (iter.toNat * seqs.length) hj (s2.inv.alphabet d1 d2) hn fun j _ b => hσ j b
    exact (fit_fresh s1 fun j hj => hσ j (by omega)).trans (congrArg (fun z => Except.bind z _) this)
  refine ⟨s, _, s1, s2.inv.alphabet d1 d2, ⟨fun ⟨m, hm⟩ => ?_, fun hk => ?_⟩, hbad⟩
  · by_contra hn
    rw [hbad hn] at hm
    cases hm
  · obtain ⟨s', ws, r1, r2, r3⟩ := C46_recomputed_freqs E L SL size iter h1 h2 σ seqs hcap hσ
    rw [s1] at r1
    cases r1
    rw [s2.inv.alphabet d1 d2] at r2
    cases r2
    obtain ⟨m, b, prior, outs, r4, _⟩ := r3 hk
    exact ⟨m, r4⟩

/-- `fit` on the training set `5 6`, `5 6 5`, `6`; the words `5`, `56`, `6` are used. -/
example : (do
    let (m, r) ← (IntVGram.new quickEnv.ops 4 3).fit quickEnv (stopAt 100) [[5, 6], [5, 6, 5], [6]]
    let ws ← m.alphabet
    pure (ws, m.freqs, m.totalFreqs, r) : M (List IntSeq × List Int × Int × Bool)) = .ok ([[5], [5, 6], [6]], [1, 2, 1], 4, true) := by decide +kernel

/-- When `rand` always picks the first sequence the symbol 7 of the second one is missing. -/
example : (do
    let (m, _) ← (IntVGram.new ratEnv.ops 4 1).fit ratEnv ⟨fun _ => 0, fun _ => false⟩ [[5, 6], [7]]
    pure m.freqs : M (List Int)) = .error .oob := by decide +kernel

/-- With `iter_num = 0` the recomputation dereferences the null dictionary as soon as there is a training sequence. -/
theorem C46_no_rounds_false (E : Env F) (size : Int) (σ : IntVGram.Sched) (seq : IntSeq) (seqs : List IntSeq) :
    (IntVGram.new E.ops size 0).fit E σ (seq :: seqs) = .error .nullDeref := rfl

/-! ## C47 -/

/-- Fitted models: a fresh model after a successful uninterrupted `fit` with at least one round on symbols that fit into it, or a
model constructed from saved data with a proper dictionary.  `hist`: the symbols it knows. -/
inductive Ready (E : Env F) : IntVGram F → List Int → Prop
  | fit {size iter : Int} {σ : IntVGram.Sched} {seqs : List IntSeq} {m : IntVGram F} (h1 : 1 ≤ size) (h2 : 1 ≤ iter)
      (hcap : ((seen seqs.flatten).length : Int) ≤ size) (hσ : ∀ j, j < iter.toNat * seqs.length + seqs.length → σ.term j = false)
      (hf : (IntVGram.new E.ops size iter).fit E σ seqs = .ok (m, true)) : Ready E m seqs.flatten
  | loaded {vals : List Int} {words : List IntSeq} {freqs : List Int} {size : Int} {mp : F} {a b : Bool} {m : IntVGram F} (h1 : vals.Nodup)
      (h2 : Proper words vals.length) (h3 : ∀ f ∈ freqs, 0 ≤ f)
      (h4 : IntVGram.ofSaved E.ops (coderAfter [vals]) freqs words size mp a b = .ok m) : Ready E m vals

theorem SStart.total {O : FloatOps F} {vals : List Int} {words : List IntSeq} {freqs : List Int} {size : Int} {mp : F} {m : Stream F} (h1 : vals.Nodup)
    (h2 : Proper words vals.length) (h3 : ∀ f ∈ freqs, 0 ≤ f) (h4 : Stream.ofSaved O (coderAfter [vals]) freqs words size mp = .ok m) : Total m vals := by
  have hs := SStart.loaded h1 h2 h3 h4
  refine ⟨hs.inv.1, hs.inv.2.1 rfl, fun d hd => ⟨hs.sorted.getDict hd, fun x h0 hx => ?_⟩⟩
  simp only [Stream.ofSaved] at h4
  obtain ⟨d', hd', h4⟩ := bind_ok.1 h4
  obtain ⟨b, hb, h4⟩ := bind_ok.1 h4
  cases h4
  cases hd
  rw [init_seqs h2 hd']
  rw [seen_id h1] at hx
  exact (sortSeqs_perm _).mem_iff.2 (h2.covers x h0 hx)

theorem Ready.total {E : Env F} (L : EnvLaws E) (SL : ScoreLaws E.ops) {m : IntVGram F} {hist : List Int} (h : Ready E m hist) :
    ∃ hist', Total m.toStream hist' ∧ ∀ x, x ∈ hist ↔ x ∈ hist' := by
  cases h with
  | @fit size iter σ seqs m h1 h2 hcap hσ hf =>
    obtain ⟨s, ws, hr, ha, hiff, _⟩ := C46_fit_iff_covered E L SL size iter h1 h2 σ seqs hcap hσ
    have hk := hiff.1 ⟨m, hf⟩
    obtain ⟨s', s1, s2, s3⟩ := rounds_updated L SL σ.rand h1 (show 1 ≤ iter.toNat by omega) hcap
    rw [hr] at s1
    cases s1
    have hj : JustUpdated ({ IntVGram.new E.ops size iter with toStream := s, fitted := true } : IntVGram F).toStream (accepted (rounds seqs σ.rand 0 iter.toNat)) := s2
    obtain ⟨m2, prior, outs, r1, r2, r3, r4, r5, r6, r7, r8, _⟩ := recompute_known SL σ (iter.toNat * seqs.length) hj ha hk fun j a b => hσ j b
    have e : m = { m2 with freqsComputed := true } := by
      have := hf.symm.trans ((fit_fresh hr fun j hj => hσ j (by omega)).trans (congrArg (fun z => Except.bind z _) r1))
      simp only [Except.bind, Except.ok.injEq, Prod.mk.injEq, and_true] at this
      exact this
    subst e
    obtain ⟨d, d1, d2⟩ := s2.inv.getDict (by simp [s2.ptr])
    have ha' := ha
    rw [s2.inv.alphabet d1 d2] at ha'
    cases ha'
    refine ⟨_, r8.total r7 fun x hx => ?_, fun x => ⟨fun hx => ?_, rounds_accepted σ.rand _ _ x⟩⟩
    · obtain ⟨seq, q1, q2⟩ := List.mem_flatten.1 (rounds_accepted σ.rand _ _ x hx)
      exact hk seq q1 x q2
    · obtain ⟨seq, q1, q2⟩ := List.mem_flatten.1 hx
      exact (single_code d2 (hk seq q1 x q2)).1
  | loaded h1 h2 h3 h4 =>
    simp only [IntVGram.ofSaved] at h4
    obtain ⟨s, hs, h4⟩ := bind_ok.1 h4
    cases h4
    exact ⟨_, SStart.total h1 h2 h3 hs, fun x => Iff.rfl⟩

/-- **C47**, transform: on a fitted model an uninterrupted `transform` never fails and leaves the model as it is; it returns
one id list per input, in order; list `k` spells input `k` without the unknown symbols in words of `alphabet()`, and it is
what `parse` returns for that input. -/
theorem C47_transform (E : Env F) (L : EnvLaws E) (SL : ScoreLaws E.ops) (m : IntVGram F) (hist : List Int) (h : Ready E m hist) (σ : IntVGram.Sched)
    (seqs : List IntSeq) (hσ : ∀ j, j < seqs.length → σ.term j = false) : ∃ ws outs, m.alphabet = .ok ws ∧
      m.transform E.ops σ seqs = .ok (m, outs) ∧ outs.length = seqs.length ∧
      List.Forall₂ (fun seq ids => m.parse E.ops seq = .ok (m.toStream, ids) ∧ Spells ws ids (seq.filter fun x => decide (x ∈ hist))) seqs outs := by
  obtain ⟨hist', ht, he⟩ := h.total L SL
  obtain ⟨d, d1, d2, d3, d4, d5⟩ := ht.words
  obtain ⟨outs, o1, o2⟩ := ht.transformLoop SL σ d5 seqs 0 fun j _ hj => hσ j (by omega)
  simp only [← he] at o2
  refine ⟨_, outs, d5, ?_, o2.length_eq.symm, o2⟩
  simp only [IntVGram.transform, o1, ok_bind, pure_M]

/-- `transform` interrupted after input `k` returns the lists of the first `k + 1` inputs. -/
theorem C47_transform_interrupted (E : Env F) (L : EnvLaws E) (SL : ScoreLaws E.ops) (m : IntVGram F) (hist : List Int) (h : Ready E m hist) (σ : IntVGram.Sched)
    (seqs : List IntSeq) (k : Nat) (hk : k < seqs.length) (hσ : ∀ j, j < k → σ.term j = false) (hs : σ.term k = true) : ∃ ws outs, m.alphabet = .ok ws ∧
      m.transform E.ops σ seqs = .ok (m, outs) ∧
      List.Forall₂ (fun seq ids => m.parse E.ops seq = .ok (m.toStream, ids) ∧ Spells ws ids (seq.filter fun x => decide (x ∈ hist))) (seqs.take (k + 1)) outs := by
  obtain ⟨hist', ht, he⟩ := h.total L SL
  obtain ⟨d, d1, d2, d3, d4, d5⟩ := ht.words
  obtain ⟨outs, o1, o2⟩ := ht.transform_stop SL σ d5 seqs 0 k hk (fun j _ hj => hσ j (by omega)) (by rw [Nat.zero_add]; exact hs)
  simp only [← he] at o2
  refine ⟨_, outs, d5, ?_, o2⟩
  simp only [IntVGram.transform, o1, ok_bind, pure_M]

/-- The printed form of an id list: `-1` for the empty list, else every id in decimal after one space. -/
def Printed (ids : List Int) (s : Str) : Prop :=
  (ids = [] ∧ s = ['-', '1']) ∨ (ids ≠ [] ∧ ∃ nums : List Str, List.Forall₂ (fun i t => IsDecimal t i) ids nums ∧ s = (nums.map fun t => ' ' :: t).flatten)

theorem idString_printed (ids : List Int) : Printed ids (IntVGram.idString ids) := by
  cases ids with
  | nil => exact Or.inl ⟨rfl, rfl⟩
  | cons i ids =>
    refine Or.inr ⟨by simp, (i :: ids).map IntVGram.decInt, ?_, ?_⟩
    · rw [List.forall₂_map_right_iff]
      exact List.forall₂_same.2 fun j _ => decInt_spec j
    · simp only [IntVGram.idString]
      rw [if_neg (by simp), List.map_map]
      rfl

theorem idString_inj {a b : List Int} (h : IntVGram.idString a = IntVGram.idString b) : a = b := by
  have hd : ¬ IsDigit ' ' := by unfold IsDigit; decide
  cases a with
  | nil =>
    cases b with
    | nil => rfl
    | cons j b => simp [IntVGram.idString] at h
  | cons i a =>
    cases b with
    | nil => simp [IntVGram.idString] at h
    | cons j b =>
      simp only [IntVGram.idString] at h
      rw [if_neg (by simp), if_neg (by simp)] at h
      refine sep_inj (sep := ' ') (r := []) (r' := []) ⟨by decide, hd⟩ (Or.inl rfl) (Or.inl rfl) (by decide) ?_
      simpa using h

theorem stringLoop_full {σ : IntVGram.Sched} : ∀ {outs : List (List Int)} {t : Nat}, (∀ j, t ≤ j → j < t + outs.length → σ.term j = false) →
    IntVGram.stringLoop σ outs t = outs.map IntVGram.idString := by
  intro outs
  induction outs with
  | nil => intro t _; rfl
  | cons ids outs ih =>
    intro t h
    simp only [IntVGram.stringLoop, h t (le_refl _) (by simp), Bool.false_eq_true, if_false, List.map_cons]
    rw [ih fun j h1 h2 => h j (by omega) (by simp only [List.length_cons]; omega)]

/-- **C47**, transform_to_string: it prints the id lists `transform` returns, one string per input, each id in decimal after one
space and `-1` for the empty list. -/
theorem C47_transform_to_string (E : Env F) (L : EnvLaws E) (SL : ScoreLaws E.ops) (m : IntVGram F) (hist : List Int) (h : Ready E m hist) (σ : IntVGram.Sched)
    (seqs : List IntSeq) (hσ : ∀ j, j < 2 * seqs.length → σ.term j = false) : ∃ outs strs, m.transform E.ops σ seqs = .ok (m, outs) ∧
      m.transformToString E.ops σ seqs = .ok (m, strs) ∧ strs.length = seqs.length ∧ List.Forall₂ Printed outs strs := by
  obtain ⟨hist', ht, he⟩ := h.total L SL
  obtain ⟨d, d1, d2, d3, d4, d5⟩ := ht.words
  obtain ⟨outs, o1, o2⟩ := ht.transformLoop SL σ d5 seqs 0 fun j _ hj => hσ j (by omega)
  have hl := o2.length_eq
  refine ⟨outs, outs.map IntVGram.idString, by simp only [IntVGram.transform, o1, ok_bind, pure_M], ?_, by simp [hl], ?_⟩
  · simp only [IntVGram.transformToString, o1, ok_bind, pure_M]
    rw [stringLoop_full fun j h1 h2 => hσ j (by omega)]
  · rw [List.forall₂_map_right_iff]
    exact List.forall₂_same.2 fun j _ => idString_printed j

/-- **C47**, readable: the printed form determines the id list. -/
theorem C47_printed_injective (a b : List Int) (s : Str) (ha : Printed a s) (hb : Printed b s) : a = b := by
  have uniq : ∀ {ids : List Int} {s : Str}, Printed ids s → s = IntVGram.idString ids := by
    have num : ∀ {i : Int} {t : Str}, IsDecimal t i → t = IntVGram.decInt i := by
      intro i t h
      exact IsDecimal.unique h (decInt_spec i)
    intro ids s h
    rcases h with ⟨rfl, rfl⟩ | ⟨h1, nums, h2, rfl⟩
    · rfl
    · have : nums = ids.map IntVGram.decInt := by
        clear h1
        induction h2 with
        | nil => rfl
        | cons a _ ih => rw [ih, List.map_cons, num a]
      subst this
      cases ids with
      | nil => exact absurd rfl h1
      | cons i ids =>
        simp only [IntVGram.idString]
        rw [if_neg (by simp), List.map_map]
        rfl
  exact idString_inj ((uniq ha).symm.trans (uniq hb))

example : (do
    let (m, _) ← (IntVGram.new quickEnv.ops 4 3).fit quickEnv (stopAt 100) [[5, 6], [5, 6, 5], [6]]
    let (_, outs) ← m.transform quickEnv.ops (stopAt 100) [[6, 5, 6, 9, 5], [8], [5]]
    let (_, strs) ← m.transformToString quickEnv.ops (stopAt 100) [[6, 5, 6, 9, 5], [8], [5]]
    pure (outs, strs) : M (List (List Int) × List Str)) =
      .ok ([[2, 1, 0], [], [0]], [" 2 1 0".toList, "-1".toList, " 0".toList]) := by decide +kernel

/-! ## C48 -/

/-- **C48 is false**: training on `5 6`, `5`; termination is requested at the first check inside `recompute_freqs`.  The
returned model has `freqs_computed_` set, but `total_freqs_` belongs to the old frequencies, and the counts cover
only the first sequence. -/
theorem C48_interrupted_recompute_false : (do
    let (m, r) ← (IntVGram.new ratEnv.ops 4 1).fit ratEnv (stopAt 2) [[5, 6], [5]]
    pure (r, m.freqsComputed, m.freqs, m.totalFreqs) : M (Bool × Bool × List Int × Int)) = .ok (true, true, [1, 1], 3) := by decide +kernel

theorem recomputeLoop_stop {O : FloatOps F} {σ : IntVGram.Sched} {fr : List Int} {total : Int} : ∀ (seqs : List IntSeq) {t : Nat} {m m' : IntVGram F} {t' : Nat} {b : Bool},
    IntVGram.recomputeLoop O σ fr total seqs t m = .ok (m', t', b) → m'.totalFreqs = m.totalFreqs ∧ (b = true → ∃ j, σ.term j = true) := by
  intro seqs
  induction seqs with
  | nil => intro t m m' t' b h; cases h; exact ⟨rfl, by simp⟩
  | cons s seqs ih =>
    intro t m m' t' b h
    simp only [IntVGram.recomputeLoop] at h
    obtain ⟨d, _, h⟩ := bind_ok.1 h
    obtain ⟨⟨d', out, n⟩, _, h⟩ := bind_ok.1 h
    obtain ⟨fr', _, h⟩ := bind_ok.1 h
    have hf := (m.toStream.setDict_frame d').2.2.2.1
    split at h
    · next ht => cases h; exact ⟨hf, fun _ => ⟨t, ht⟩⟩
    · obtain ⟨g1, g2⟩ := ih h
      exact ⟨g1.trans hf, g2⟩

/-- C48, the part that holds: whatever the model, if `isTerminated` never answers yes, a `fit` that computes the frequencies
leaves `total_freqs_` equal to their sum.  Missing: termination inside `recompute_freqs`. -/
theorem C48_uninterrupted_partial (E : Env F) (σ : IntVGram.Sched) (hσ : ∀ j, σ.term j = false) (m m' : IntVGram F) (seqs : List IntSeq) (r : Bool)
    (hm : m.fitted = false ∨ m.freqsComputed = false) (h : m.fit E σ seqs = .ok (m', r)) : m'.freqsComputed = true ∧ m'.totalFreqs = m'.freqs.sum := by
  have key : ∀ {t : Nat} {a b : IntVGram F}, IntVGram.recomputeFreqs E.ops σ t a seqs = .ok b → b.totalFreqs = b.freqs.sum := by
    intro t a b hab
    simp only [IntVGram.recomputeFreqs] at hab
    obtain ⟨⟨bb, fr⟩, _, hab⟩ := bind_ok.1 hab
    obtain ⟨⟨m2, t2, stop⟩, h2, hab⟩ := bind_ok.1 hab
    have := (recomputeLoop_stop seqs h2).2
    cases stop with
    | true =>
      obtain ⟨j, hj⟩ := this rfl
      rw [hσ j] at hj
      cases hj
    | false =>
      simp only [Bool.false_eq_true, if_false] at hab
      cases hab
      exact sumI_eq _
  unfold IntVGram.fit at h
  split at h
  · next hf =>
    split at h
    · next hc => rcases hm with hm | hm <;> simp_all
    · obtain ⟨m1, h1, h⟩ := bind_ok.1 h
      cases h
      have := key h1
      exact ⟨rfl, this⟩
  · obtain ⟨⟨m1, t, stop⟩, h1, h⟩ := bind_ok.1 h
    rw [fitOuter_full E σ seqs _ 0 m fun j _ _ => hσ j] at h1
    obtain ⟨s, _, h1⟩ := bind_ok.1 h1
    cases h1
    simp only [Bool.false_eq_true, if_false] at h
    obtain ⟨m2, h2, h⟩ := bind_ok.1 h
    cases h
    have := key h2
    exact ⟨rfl, this⟩

/-- When `recompute_freqs` is interrupted the old total stays, whatever the counts are. -/
theorem C48_stale_total_false (O : FloatOps F) (σ : IntVGram.Sched) (t : Nat) (m m' : IntVGram F) (seqs : List IntSeq) (hne : seqs ≠ [])
    (ht : σ.term t = true) (h : IntVGram.recomputeFreqs O σ t m seqs = .ok m') : m'.totalFreqs = m.totalFreqs := by
  cases seqs with
  | nil => exact absurd rfl hne
  | cons s seqs =>
    simp only [IntVGram.recomputeFreqs] at h
    obtain ⟨⟨b, fr⟩, _, h⟩ := bind_ok.1 h
    obtain ⟨⟨m2, t2, stop⟩, h2, h⟩ := bind_ok.1 h
    have hl := (recomputeLoop_stop _ h2).1
    simp only [IntVGram.recomputeLoop] at h2
    obtain ⟨d, _, h2⟩ := bind_ok.1 h2
    obtain ⟨⟨d', out, n⟩, _, h2⟩ := bind_ok.1 h2
    obtain ⟨fr', _, h2⟩ := bind_ok.1 h2
    rw [if_pos ht] at h2
    cases h2
    simp only [if_true] at h
    cases h
    exact hl

end VGram.Props
