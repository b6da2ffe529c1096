import Verif.Props.IntVGram
import Verif.Props.Format

/-!
# Interrupted calls of the integer model

What `transform_to_string` and `fit` do when `isTerminated()` answers yes in the middle of printing (int_vgram.cc:95) or of counting
(int_vgram.cc:75), and what the file of a model says that was not fitted.  Completes C45, C47 and C48.
-/

namespace VGram.Props

open VGram Spec

variable {F : Type}

/-! ## C47 -/

theorem stringLoop_any {σ : IntVGram.Sched} : ∀ (outs : List (List Int)) (t : Nat), ∃ n, n ≤ outs.length ∧
    IntVGram.stringLoop σ outs t = (outs.take n).map IntVGram.idString ∧ (∀ j, j + 1 < n → σ.term (t + j) = false) ∧
    (n < outs.length → 0 < n ∧ σ.term (t + (n - 1)) = true) := by
  intro outs
  induction outs with
  | nil => intro t; exact ⟨0, by simp, rfl, by omega, by simp⟩
  | cons ids outs ih =>
    intro t
    simp only [IntVGram.stringLoop]
    by_cases ht : σ.term t = true
    · exact ⟨1, by simp, by simp [ht], by omega, fun _ => ⟨by omega, by simpa using ht⟩⟩
    · obtain ⟨n, n1, n2, n3, n4⟩ := ih (t + 1)
      refine ⟨n + 1, by simpa using n1, by simp [ht, n2], fun j hj => ?_, fun hn => ⟨by omega, ?_⟩⟩
      · cases j with
        | zero => simpa using ht
        | succ j => rw [show t + (j + 1) = t + 1 + j by omega]; exact n3 j (by omega)
      · obtain ⟨p1, p2⟩ := n4 (by simpa using hn)
        rw [show t + (n + 1 - 1) = t + 1 + (n - 1) by omega]
        exact p2

theorem least_stop (σ : IntVGram.Sched) (n : Nat) : (∀ j, j < n → σ.term j = false) ∨ ∃ k, k < n ∧ (∀ j, j < k → σ.term j = false) ∧ σ.term k = true := by
  induction n with
  | zero => exact Or.inl fun j hj => by omega
  | succ n ih =>
    rcases ih with h | ⟨k, k1, k2⟩
    · by_cases hn : σ.term n = true
      · exact Or.inr ⟨n, by omega, h, hn⟩
      · refine Or.inl fun j hj => ?_
        rcases Nat.lt_or_ge j n with hj' | hj'
        · exact h j hj'
        · rw [show j = n by omega]; simpa using hn
    · exact Or.inr ⟨k, by omega, k2⟩

/-- **C47**, whenever termination is requested: `transform_to_string` makes the id lists like `transform`, one check per list, and prints them one after
the other, again with one check per list; the first yes ends the loop it is given in, after the list it belongs to. -/
theorem C47_transform_to_string_interrupted (E : Env F) (L : EnvLaws E) (SL : ScoreLaws E.ops) (m : IntVGram F) (hist : List Int) (h : Ready E m hist)
    (σ : IntVGram.Sched) (seqs : List IntSeq) : ∃ outs strs, m.transform E.ops σ seqs = .ok (m, outs) ∧ m.transformToString E.ops σ seqs = .ok (m, strs) ∧
      strs.length ≤ outs.length ∧ List.Forall₂ Printed (outs.take strs.length) strs ∧
      (∀ j, j + 1 < strs.length → σ.term (outs.length + j) = false) ∧
      (strs.length < outs.length → 0 < strs.length ∧ σ.term (outs.length + (strs.length - 1)) = true) := by
  obtain ⟨hist', ht, he⟩ := h.total L SL
  obtain ⟨d, d1, d2, d3, d4, d5⟩ := ht.words
  have key : ∃ outs, IntVGram.transformLoop E.ops σ seqs 0 m.toStream = .ok (m.toStream, outs, outs.length) := by
    rcases least_stop σ seqs.length with hσ | ⟨k, k1, k2, k3⟩
    · obtain ⟨outs, o1, o2⟩ := ht.transformLoop SL σ d5 seqs 0 fun j _ hj => hσ j (by omega)
      refine ⟨outs, ?_⟩
      rw [o1, o2.length_eq, Nat.zero_add]
    · obtain ⟨outs, o1, o2⟩ := ht.transform_stop SL σ d5 seqs 0 k k1 (fun j _ hj => k2 j (by omega)) (by rw [Nat.zero_add]; exact k3)
      refine ⟨outs, ?_⟩
      have := o2.length_eq
      rw [List.length_take, Nat.min_eq_left (by omega)] at this
      rw [o1, ← this, Nat.zero_add]
  obtain ⟨outs, o1⟩ := key
  obtain ⟨n, n1, n2, n3, n4⟩ := stringLoop_any (σ := σ) outs outs.length
  have hl : (IntVGram.stringLoop σ outs outs.length).length = n := by rw [n2]; simp [n1]
  refine ⟨outs, IntVGram.stringLoop σ outs outs.length, by simp only [IntVGram.transform, o1, ok_bind, pure_M],
    by simp only [IntVGram.transformToString, o1, ok_bind, pure_M], ?_⟩
  rw [hl]
  refine ⟨n1, ?_, n3, n4⟩
  rw [n2, List.forall₂_map_right_iff]
  exact List.forall₂_same.2 fun j _ => idString_printed j

/-- Three inputs; the yes is given for the second list to be printed (check 4). -/
example : (do
    let (m, _) ← (IntVGram.new quickEnv.ops 4 3).fit quickEnv (stopAt 100) [[5, 6], [5, 6, 5], [6]]
    let (_, outs) ← m.transform quickEnv.ops (stopAt 4) [[6, 5, 6, 9, 5], [8], [5]]
    let (_, strs) ← m.transformToString quickEnv.ops (stopAt 4) [[6, 5, 6, 9, 5], [8], [5]]
    pure (outs, strs) : M (List (List Int) × List Str)) =
      .ok ([[2, 1, 0], [], [0]], [" 2 1 0".toList, "-1".toList]) := by decide +kernel

/-! ## C48 -/

/-- Nobody requests termination. -/
def never : IntVGram.Sched := ⟨id, fun _ => false⟩

theorem recomputeLoop_take {O : FloatOps F} {σ : IntVGram.Sched} {fr : List Int} {total : Int} : ∀ (seqs : List IntSeq) (t k : Nat) (m : IntVGram F),
    k < seqs.length → (∀ j, t ≤ j → j < t + k → σ.term j = false) → σ.term (t + k) = true → ∀ t',
    (IntVGram.recomputeLoop O σ fr total seqs t m).map (fun p => (p.1, p.2.2)) =
      (IntVGram.recomputeLoop O never fr total (seqs.take (k + 1)) t' m).map (fun p => (p.1, true)) := by
  intro seqs
  induction seqs with
  | nil => intro t k m hk; simp at hk
  | cons s seqs ih =>
    intro t k m hk hσ hs t'
    simp only [IntVGram.recomputeLoop, List.take_succ_cons]
    cases m.toStream.getDict with
    | error e => rfl
    | ok d =>
      simp only [ok_bind]
      cases d.parse O (m.coder.encode s).2 fr total [] with
      | error e => rfl
      | ok p =>
        obtain ⟨d', out, n⟩ := p
        simp only [ok_bind]
        cases IntVGram.countIds m.freqs out with
        | error e => rfl
        | ok fr' =>
          simp only [ok_bind]
          cases k with
          | zero =>
            simp only [Nat.add_zero] at hs
            simp only [hs, if_true, never, Bool.false_eq_true, if_false, List.take_zero, IntVGram.recomputeLoop]
            rfl
          | succ k =>
            rw [hσ t (le_refl _) (by omega)]
            simp only [never, Bool.false_eq_true, if_false]
            exact ih (t + 1) k _ (by simpa using hk) (fun j h1 h2 => hσ j (by omega) (by omega)) (by rw [← hs]; congr 1; omega) _

theorem recomputeLoop_total {O : FloatOps F} {σ : IntVGram.Sched} {fr : List Int} {total : Int} {seqs : List IntSeq} {t : Nat} {m m' : IntVGram F} {t' : Nat} {b : Bool}
    (h : IntVGram.recomputeLoop O σ fr total seqs t m = .ok (m', t', b)) : m'.totalFreqs = m.totalFreqs := (recomputeLoop_stop seqs h).1

theorem recomputeLoop_never {O : FloatOps F} {fr : List Int} {total : Int} {seqs : List IntSeq} {t : Nat} {m m' : IntVGram F} {t' : Nat} {b : Bool}
    (h : IntVGram.recomputeLoop O never fr total seqs t m = .ok (m', t', b)) : b = false := by
  cases b with
  | false => rfl
  | true => obtain ⟨j, hj⟩ := (recomputeLoop_stop seqs h).2 rfl; cases hj

theorem recomputeFreqs_take {O : FloatOps F} {σ : IntVGram.Sched} {seqs : List IntSeq} {t k : Nat} (m : IntVGram F)
    (hk : k < seqs.length) (hσ : ∀ j, t ≤ j → j < t + k → σ.term j = false) (hs : σ.term (t + k) = true) :
    IntVGram.recomputeFreqs O σ t m seqs =
      (IntVGram.recomputeFreqs O never 0 m (seqs.take (k + 1))).map fun m' => { m' with totalFreqs := m.totalFreqs } := by
  simp only [IntVGram.recomputeFreqs]
  cases m.builder.resultFreqs [] with
  | error e => rfl
  | ok p =>
    obtain ⟨b, fr⟩ := p
    simp only [ok_bind]
    have h := recomputeLoop_take (O := O) (fr := fr) (total := sumI fr) seqs t k { m with builder := b, freqs := List.replicate fr.length 0 } hk hσ hs 0
    cases h1 : IntVGram.recomputeLoop O σ fr (sumI fr) seqs t { m with builder := b, freqs := List.replicate fr.length 0 } with
    | error e =>
      rw [h1] at h
      cases h2 : IntVGram.recomputeLoop O never fr (sumI fr) (seqs.take (k + 1)) 0 { m with builder := b, freqs := List.replicate fr.length 0 } with
      | error e' => rw [h2] at h; cases h; rfl
      | ok q => rw [h2] at h; cases h
    | ok q =>
      rw [h1] at h
      cases h2 : IntVGram.recomputeLoop O never fr (sumI fr) (seqs.take (k + 1)) 0 { m with builder := b, freqs := List.replicate fr.length 0 } with
      | error e' => rw [h2] at h; cases h
      | ok q' =>
        rw [h2] at h
        obtain ⟨m1, t1, b1⟩ := q
        obtain ⟨m2, t2, b2⟩ := q'
        cases h
        have e1 := recomputeLoop_never h2
        have e2 := recomputeLoop_total h1
        subst e1
        simp only [ok_bind, if_true, Bool.false_eq_true, if_false, pure_M, Except.map]
        congr 1
        simp only at e2
        rw [← e2]

/-- **C48 is false**, what happens instead: if the first yes is given at check `k` of the counting, `fit` returns the model as if it had counted the first `k + 1`
training sequences only, but with the total of the dictionary before the counting. -/
theorem C48_interrupted_fit_false (E : Env F) (σ : IntVGram.Sched) (m : IntVGram F) (seqs : List IntSeq) (k : Nat) (hm : m.fitted = false) (hk : k < seqs.length)
    (hσ : ∀ j, j < m.iterNum.toNat * seqs.length + k → σ.term j = false) (hs : σ.term (m.iterNum.toNat * seqs.length + k) = true) :
    m.fit E σ seqs = (run E m.toStream (rounds seqs σ.rand 0 m.iterNum.toNat)).bind fun s =>
      (IntVGram.recomputeFreqs E.ops never 0 { m with toStream := s, fitted := true } (seqs.take (k + 1))).bind fun m2 =>
        .ok ({ m2 with freqsComputed := true, totalFreqs := s.totalFreqs }, true) := by
  rw [C44_uninterrupted E σ m seqs hm fun j hj => hσ j (by omega)]
  congr 1
  funext s
  rw [recomputeFreqs_take _ hk (fun j _ h => hσ j h) hs]
  cases IntVGram.recomputeFreqs E.ops never 0 { m with toStream := s, fitted := true } (seqs.take (k + 1)) <;> rfl

/-- The same for a fitted model whose frequencies are still to be computed, as only a file can make it. -/
theorem C48_interrupted_recount_false (E : Env F) (σ : IntVGram.Sched) (m : IntVGram F) (seqs : List IntSeq) (k : Nat) (hm : m.fitted = true)
    (hf : m.freqsComputed = false) (hk : k < seqs.length) (hσ : ∀ j, j < k → σ.term j = false) (hs : σ.term k = true) :
    m.fit E σ seqs = (IntVGram.recomputeFreqs E.ops never 0 m (seqs.take (k + 1))).bind fun m2 =>
      .ok ({ m2 with freqsComputed := true, totalFreqs := m.totalFreqs }, true) := by
  unfold IntVGram.fit
  simp only [hm, if_true, hf, Bool.false_eq_true, if_false]
  rw [recomputeFreqs_take (k := k) m hk (fun j _ h => hσ j (by omega)) (by rw [Nat.zero_add]; exact hs)]
  cases IntVGram.recomputeFreqs E.ops never 0 m (seqs.take (k + 1)) <;> rfl

example : (do
    let (m, _) ← (IntVGram.new quickEnv.ops 4 3).fit quickEnv (stopAt 100) [[5, 6], [5, 6, 5], [6]]
    let (m', _) ← ({ m with freqsComputed := false } : IntVGram _).fit quickEnv (stopAt 0) [[5, 6], [5, 6, 5], [6]]
    let (m'', _) ← ({ m with freqsComputed := false } : IntVGram _).fit quickEnv (stopAt 1) [[5, 6], [5, 6, 5], [6]]
    pure (m.freqs, m.totalFreqs, m'.freqs, m'.totalFreqs, m''.freqs) : M (List Int × Int × List Int × Int × List Int)) =
      .ok ([1, 2, 1], 4, [0, 1, 0], 4, [1, 2, 0]) := by decide +kernel

/-! ## C45 -/

/-- The file of a text model that was never fitted, or whose `fit` was interrupted, says that it is neither fitted nor counted. -/
theorem C45_unfitted_file (E : Env F) (size iter : Int) (t : Tokenizer) (σ : IntVGram.Sched) (seqs : List IntSeq) {m : IntVGram F} {j : Json F}
    (hm : m = IntVGram.new E.ops size iter ∨ (IntVGram.new E.ops size iter).fit E σ seqs = .ok (m, false))
    (h : Saver.saveStringVGram E.ops ⟨m, t⟩ = .ok j) : Member j "fitted" (.bool false) ∧ Member j "freqs_computed" (.bool false) := by
  obtain ⟨_, _, _, _, _, _, _, _, _, f1, f2, _⟩ := C84_text_file E.ops h
  rcases hm with rfl | hm
  · exact ⟨f1, f2⟩
  · obtain ⟨_, g2, g3, _⟩ := C45_interrupted_unfitted E σ _ _ seqs hm
    rw [g2] at f1
    rw [g3] at f2
    exact ⟨f1, f2⟩

end VGram.Props
