import Verif.Proofs.Order

/-! # Dictionary construction -/

namespace VGram

/-- `p` is the right value of `parents_[i]`: the greatest earlier index whose word is a prefix
of word `i`, or -1. -/
def IsParent (seqs : List IntSeq) (i : Nat) (p : Int) : Prop :=
  ∀ s, seqs[i]? = some s →
    (p = -1 ∧ ∀ j, j < i → ∀ w, seqs[j]? = some w → ¬ w <+: s) ∨
    (∃ j : Nat, j < i ∧ p = (j : Int) ∧ (∃ w, seqs[j]? = some w ∧ w <+: s) ∧
      ∀ k, j < k → k < i → ∀ w, seqs[k]? = some w → ¬ w <+: s)

/-- Invariant of the prefix stack when the words `0 … i-1` have been processed. -/
structure StackInv (seqs : List IntSeq) (i : Nat) (stack : List (IntSeq × Int)) : Prop where
  entries : ∀ e ∈ stack, ∃ j : Nat, j < i ∧ e.2 = (j : Int) ∧ seqs[j]? = some e.1
  desc : stack.Pairwise (fun a b => b.2 < a.2)
  complete : ∀ j, j < i → ∀ w s, seqs[j]? = some w → (∀ k, k < i → ∀ v, seqs[k]? = some v → v ≤ s) →
    w <+: s → (w, (j : Int)) ∈ stack

theorem sorted_le {seqs : List IntSeq} (hs : seqs.Pairwise (· ≤ ·)) {j i : Nat} (hji : j ≤ i) {w s : IntSeq}
    (hw : seqs[j]? = some w) (hi : seqs[i]? = some s) : w ≤ s := by
  rcases Nat.lt_or_eq_of_le hji with h | rfl
  · obtain ⟨h1, rfl⟩ := List.getElem?_eq_some_iff.1 hw
    obtain ⟨h2, rfl⟩ := List.getElem?_eq_some_iff.1 hi
    exact List.pairwise_iff_getElem.1 hs j i h1 h2 h
  · rw [hw] at hi
    exact le_of_eq (Option.some.inj hi)

theorem popToPrefix_spec {cur : IntSeq} {stack : List (IntSeq × Int)} (hle : ∀ e ∈ stack, e.1 ≤ cur) :
    ∃ st' p, popToPrefix cur stack = .ok (st', p) ∧ st' <:+ stack ∧
      (∀ e ∈ stack, e.1 <+: cur → e ∈ st') ∧
      ((p = -1 ∧ st' = []) ∨ ∃ w rest, st' = (w, p) :: rest ∧ w <+: cur) := by
  induction stack with
  | nil => exact ⟨[], -1, rfl, List.suffix_refl _, by simp, Or.inl ⟨rfl, rfl⟩⟩
  | cons e rest ih =>
    obtain ⟨w, j⟩ := e
    have hm := mismatch_of_le (hle (w, j) (by simp))
    simp only [popToPrefix, hm, ok_bind]
    by_cases hp : w <+: cur
    · simp only [hp, decide_true, if_true, pure_M]
      exact ⟨_, _, rfl, List.suffix_refl _, fun e he _ => he, Or.inr ⟨w, rest, rfl, hp⟩⟩
    · obtain ⟨st', p, h1, h2, h3, h4⟩ := ih (fun e he => hle e (by simp [he]))
      simp only [hp, decide_false, Bool.false_eq_true, if_false]
      refine ⟨st', p, h1, h2.trans (List.suffix_cons _ _), ?_, h4⟩
      intro e he hpe
      rcases List.mem_cons.1 he with rfl | he
      · exact absurd hpe hp
      · exact h3 e he hpe

theorem initLoop_spec {seqs : List IntSeq} (hs : seqs.Pairwise (· ≤ ·)) :
    ∀ (rest : List IntSeq) (i : Nat) (stack : List (IntSeq × Int)), seqs.drop i = rest → i ≤ seqs.length →
      StackInv seqs i stack →
      ∃ ps, initLoop i stack rest = .ok ps ∧ ps.length = rest.length ∧
        ∀ k p, ps[k]? = some p → IsParent seqs (i + k) p := by
  intro rest
  induction rest with
  | nil => intro i stack _ _ _; exact ⟨[], rfl, rfl, by simp⟩
  | cons cur rest ih =>
    intro i stack hdrop hi inv
    have hcur : seqs[i]? = some cur := by
      have := congrArg (fun l => l[0]?) hdrop
      simpa using this
    have hilt : i < seqs.length := (List.getElem?_eq_some_iff.1 hcur).1
    have hdrop' : seqs.drop (i + 1) = rest := by
      have := congrArg List.tail hdrop
      simpa using this
    have hle : ∀ e ∈ stack, e.1 ≤ cur := by
      intro e he
      obtain ⟨j, hj, _, hw⟩ := inv.entries e he
      exact sorted_le hs (le_of_lt hj) hw hcur
    obtain ⟨st', p, hpop, hsuf, hkeep, hp⟩ := popToPrefix_spec hle
    have inv' : StackInv seqs (i + 1) ((cur, (i : Int)) :: st') := by
      refine ⟨?_, ?_, ?_⟩
      · intro e he
        rcases List.mem_cons.1 he with rfl | he
        · exact ⟨i, by omega, rfl, hcur⟩
        · obtain ⟨j, hj, h1, h2⟩ := inv.entries e (hsuf.subset he)
          exact ⟨j, by omega, h1, h2⟩
      · rw [List.pairwise_cons]
        refine ⟨?_, inv.desc.sublist hsuf.sublist⟩
        intro e he
        obtain ⟨j, hj, h1, _⟩ := inv.entries e (hsuf.subset he)
        change e.2 < (i : Int)
        omega
      · intro j hj w s hw hbound hpre
        rcases Nat.lt_or_eq_of_le (Nat.le_of_lt_succ hj) with hlt | rfl
        · have hin := inv.complete j hlt w s hw (fun k hk v hv => hbound k (by omega) v hv) hpre
          have hcs : cur ≤ s := hbound i (by omega) cur hcur
          have hwc : w ≤ cur := sorted_le hs (le_of_lt hlt) hw hcur
          exact List.mem_cons_of_mem _ (hkeep _ hin (prefix_of_between hpre hwc hcs))
        · rw [hcur] at hw
          cases hw
          simp
    obtain ⟨ps, h1, h2, h3⟩ := ih (i + 1) _ hdrop' hilt inv'
    refine ⟨p :: ps, ?_, by simp [h2], ?_⟩
    · simp [initLoop, hpop, h1]
    · intro k q hk
      cases k with
      | zero =>
        have hq : p = q := by simpa using hk
        subst hq
        intro s hs'
        have hsc : cur = s := by simpa [hcur] using hs'
        subst hsc
        have hcomp : ∀ j, j < i → ∀ w, seqs[j]? = some w → w <+: cur → (w, (j : Int)) ∈ st' := by
          intro j hj w hw hpre
          exact hkeep _ (inv.complete j hj w cur hw
            (fun k hk v hv => sorted_le hs (le_of_lt hk) hv hcur) hpre) hpre
        rcases hp with ⟨rfl, hnil⟩ | ⟨w, rest', hst, hpre⟩
        · left
          refine ⟨rfl, fun j hj w hw hpre => ?_⟩
          have := hcomp j hj w hw hpre
          simp [hnil] at this
        · right
          obtain ⟨j, hj, hj2, hjw⟩ := inv.entries (w, p) (hsuf.subset (by simp [hst]))
          refine ⟨j, hj, hj2, ⟨w, hjw, hpre⟩, ?_⟩
          intro k hjk hki v hv hvpre
          have hin := hcomp k hki v hv hvpre
          have hd := inv.desc.sublist hsuf.sublist
          rw [hst] at hin hd
          rw [List.pairwise_cons] at hd
          rcases List.mem_cons.1 hin with heq | hin
          · have : (k : Int) = p := congrArg Prod.snd heq
            simp only at hj2
            omega
          · have := hd.1 _ hin
            simp only at this hj2
            omega
      | succ k =>
        have := h3 k q (by simpa using hk)
        rwa [show i + (k + 1) = i + 1 + k by omega]

/-- Construction always succeeds; its result is the sorted list with the right parents. -/
theorem init_spec (l : List IntSeq) :
    ∃ ps, IntDict.init l = .ok ⟨sortSeqs l, ps⟩ ∧ ps.length = l.length ∧
      ∀ i p, ps[i]? = some p → IsParent (sortSeqs l) i p := by
  obtain ⟨ps, h1, h2, h3⟩ := initLoop_spec (sortSeqs_sorted l) (sortSeqs l) 0 [] (by simp) (by simp)
    ⟨by simp, List.Pairwise.nil, fun j hj => absurd hj (by omega)⟩
  refine ⟨ps, by simp [IntDict.init, h1], by rw [h2, sortSeqs_length], ?_⟩
  intro i p hp
  have := h3 i p hp
  rwa [Nat.zero_add] at this

end VGram
