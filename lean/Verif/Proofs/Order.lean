import Mathlib.Data.List.Lex
import Mathlib.Data.List.Sort
import Verif.Proofs.Basic
import Verif.Model.IntDict

/-! # The lexicographic order, prefixes, and sorting -/

namespace VGram

/-- `operator<` on `vector<int>` is Mathlib's lexicographic order on lists. -/
theorem seqLt_iff : ∀ a b : IntSeq, seqLt a b = true ↔ a < b
  | [], [] => by simp [seqLt]
  | [], _ :: _ => by simp [seqLt]
  | _ :: _, [] => by simp [seqLt]
  | a :: as, b :: bs => by
    rw [seqLt, List.cons_lt_cons_iff, ← seqLt_iff as bs]
    by_cases h : a < b
    · simp [h]
    · by_cases h' : b < a
      · have : a ≠ b := by omega
        simp [h, h', this]
      · have : a = b := by omega
        simp [this]

theorem seqLt_false {a b : IntSeq} : seqLt a b = false ↔ b ≤ a := by
  rw [← not_lt, ← seqLt_iff]; simp

theorem prefix_le {w s : IntSeq} (h : w <+: s) : w ≤ s := by
  obtain ⟨t, rfl⟩ := h
  induction w with
  | nil => exact not_lt.1 (by simp)
  | cons a w ih => simpa using List.cons_le_cons a ih

/-- Everything between a prefix of `s` and `s` extends that prefix. -/
theorem prefix_of_between {w p s : IntSeq} (h : w <+: s) (h1 : w ≤ p) (h2 : p ≤ s) : w <+: p := by
  induction w generalizing p s with
  | nil => simp
  | cons a w ih =>
    obtain ⟨t, rfl⟩ := h
    cases p with
    | nil => exact absurd h1 (by simp)
    | cons b p =>
      rw [List.cons_append] at h2
      rw [← not_lt, List.cons_lt_cons_iff] at h1 h2
      have hab : a = b := by
        by_contra hne
        rcases lt_or_gt_of_ne hne with h | h
        · exact h2 (Or.inl h)
        · exact h1 (Or.inl h)
      subst hab
      simp only [lt_self_iff_false, true_and, false_or, not_lt] at h1 h2
      rw [List.cons_prefix_cons]
      exact ⟨rfl, ih ⟨t, rfl⟩ h1 h2⟩

theorem insertSeq_perm (s : IntSeq) (l : List IntSeq) : (insertSeq s l).Perm (s :: l) := by
  induction l with
  | nil => exact List.Perm.refl _
  | cons t ts ih =>
    unfold insertSeq
    split
    · exact (List.Perm.cons t ih).trans (List.Perm.swap s t ts)
    · exact List.Perm.refl _

theorem sortSeqs_perm (l : List IntSeq) : (sortSeqs l).Perm l := by
  induction l with
  | nil => exact List.Perm.refl _
  | cons s ss ih => exact (insertSeq_perm s _).trans (List.Perm.cons s ih)

theorem insertSeq_sorted (s : IntSeq) {l : List IntSeq} (h : l.Pairwise (· ≤ ·)) :
    (insertSeq s l).Pairwise (· ≤ ·) := by
  induction l with
  | nil => simp [insertSeq]
  | cons t ts ih =>
    rw [List.pairwise_cons] at h
    unfold insertSeq
    split
    next hlt =>
      rw [seqLt_iff] at hlt
      rw [List.pairwise_cons]
      refine ⟨fun x hx => ?_, ih h.2⟩
      rcases List.mem_cons.1 ((insertSeq_perm s ts).mem_iff.1 hx) with rfl | hx
      · exact le_of_lt hlt
      · exact h.1 x hx
    next hlt =>
      have hle := seqLt_false.1 (by simpa using hlt)
      rw [List.pairwise_cons]
      refine ⟨fun x hx => ?_, List.pairwise_cons.2 h⟩
      rcases List.mem_cons.1 hx with rfl | hx
      · exact hle
      · exact le_trans hle (h.1 x hx)

theorem sortSeqs_sorted (l : List IntSeq) : (sortSeqs l).Pairwise (· ≤ ·) := by
  induction l with
  | nil => exact List.Pairwise.nil
  | cons s ss ih => exact insertSeq_sorted s ih

theorem sortSeqs_length (l : List IntSeq) : (sortSeqs l).length = l.length := (sortSeqs_perm l).length_eq

/-- Any correct sorting algorithm gives the same list as the model's insertion sort. -/
theorem sortSeqs_unique {l l' : List IntSeq} (hp : l'.Perm l) (hs : l'.Pairwise (· ≤ ·)) : l' = sortSeqs l :=
  List.Perm.eq_of_pairwise (fun _ _ _ _ h1 h2 => le_antisymm h1 h2) hs (sortSeqs_sorted l)
    (hp.trans (sortSeqs_perm l).symm)

theorem sortSeqs_id {l : List IntSeq} (h : l.Pairwise (· ≤ ·)) : sortSeqs l = l :=
  (sortSeqs_unique (List.Perm.refl _) h).symm

theorem mismatch_ok_iff {p q : IntSeq} : mismatchAtEnd p q = .ok true ↔ p <+: q := by
  induction p generalizing q with
  | nil => simp [mismatchAtEnd]
  | cons a p ih =>
    cases q with
    | nil => simp [mismatchAtEnd]
    | cons b q =>
      unfold mismatchAtEnd
      split
      next h => subst h; rw [ih, List.cons_prefix_cons]; simp
      next h => simp [List.cons_prefix_cons, h]

/-- The comparison stays in bounds when the first sequence is not above the second. -/
theorem mismatch_of_le {p q : IntSeq} (h : p ≤ q) : mismatchAtEnd p q = .ok (decide (p <+: q)) := by
  induction p generalizing q with
  | nil => simp [mismatchAtEnd]
  | cons a p ih =>
    cases q with
    | nil => exact absurd h (by simp)
    | cons b q =>
      unfold mismatchAtEnd
      split
      next hab =>
        subst hab
        rw [ih]
        · simp [List.cons_prefix_cons]
        · rw [← not_lt, List.cons_lt_cons_iff] at h
          simpa using h
      next hab => simp [List.cons_prefix_cons, hab]

/-- ... and also when it is a prefix of something not above the second. -/
theorem mismatch_of_prefix_le {p p' q : IntSeq} (hp : p <+: p') (h : p' ≤ q) :
    mismatchAtEnd p q = .ok (decide (p <+: q)) :=
  mismatch_of_le (le_trans (prefix_le hp) h)

end VGram
