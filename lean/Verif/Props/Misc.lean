import Verif.Model.Misc
import Verif.Proofs.Decimal
import Mathlib.Data.List.Forall2

/-!
# Properties of the free functions and of the list encoder
-/

namespace VGram.Props

open VGram VGram.Spec

/-! ## C57 -/

/-- The documented form: the numbers in decimal, separated by single spaces, inside parentheses. -/
def Parens (ids : List Int) (s : Str) : Prop :=
  ∃ nums : List Str, List.Forall₂ (fun i t => IsDecimal t i) ids nums ∧ s = '(' :: (List.intercalate [' '] nums ++ [')'])

theorem toStringLoop_spec (seq : IntSeq) : ∀ (n i : Nat) (res : Str), i + n ≤ seq.length →
    seqToStringLoop seq n i res = .ok (res ++ (((seq.drop i).take n).map fun x => IntVGram.decInt x ++ [' ']).flatten) := by
  intro n
  induction n with
  | zero => intro i res _; simp [seqToStringLoop]
  | succ n ih =>
    intro i res h
    have hi : i < seq.length := by omega
    simp only [seqToStringLoop, rd_of_lt hi, ok_bind]
    rw [ih (i + 1) _ (by omega), List.drop_eq_getElem_cons hi, List.take_succ_cons, List.map_cons, List.flatten_cons]
    simp only [List.append_assoc]

theorem intercalate_last (f : Int → Str) : ∀ (l : List Int) (x : Int), List.intercalate [' '] ((l ++ [x]).map f) = (l.map fun y => f y ++ [' ']).flatten ++ f x := by
  intro l x
  induction l with
  | nil => simp [List.intercalate]
  | cons a l ih =>
    cases l with
    | nil => simp [List.intercalate, List.intersperse]
    | cons b l =>
      simp only [List.intercalate, List.map_cons, List.cons_append, List.intersperse_cons_cons, List.flatten_cons] at ih ⊢
      rw [ih]
      simp

theorem intercalate_lead (f : Int → Str) : ∀ (l : List Int), l ≠ [] → ' ' :: List.intercalate [' '] (l.map f) = (l.map fun y => ' ' :: f y).flatten := by
  intro l
  induction l with
  | nil => intro h; exact absurd rfl h
  | cons a l ih =>
    intro _
    cases l with
    | nil => simp [List.intercalate]
    | cons b l =>
      have := ih (by simp)
      simp only [List.intercalate, List.map_cons, List.intersperse_cons_cons, List.flatten_cons, List.cons_append] at this ⊢
      rw [← this]
      simp

/-- **C57 is false** for the empty sequence: `seq[0]` is read although there is no such element. -/
theorem C57_empty_false : seqToString [] = .error .oob := by
  have : ((([] : IntSeq).length + (2 ^ 64 - 1)) % 2 ^ 64 : Nat) = 18446744073709551614 + 1 := by decide
  rw [seqToString, this]
  rfl

/-- C57 for every non-empty sequence (that fits a `size_t`): no fault, and the result has the documented form.
Missing: the empty sequence, `C57_empty_false`. -/
theorem C57_to_string_partial (seq : IntSeq) (h0 : seq ≠ []) (h : seq.length < 2 ^ 64) : ∃ s, seqToString seq = .ok s ∧ Parens seq s := by
  obtain ⟨l, x, rfl⟩ : ∃ l x, seq = l ++ [x] := ⟨seq.dropLast, seq.getLast h0, (List.dropLast_append_getLast h0).symm⟩
  refine ⟨_, ?_, (l ++ [x]).map IntVGram.decInt, ?_, rfl⟩
  · have hn : ((l ++ [x]).length + (2 ^ 64 - 1)) % 2 ^ 64 = l.length := by
      simp only [List.length_append, List.length_cons, List.length_nil] at h ⊢
      omega
    rw [seqToString, hn, toStringLoop_spec _ _ _ _ (by simp), ok_bind, intercalate_last]
    have hr : rd (l ++ [x]) (((l ++ [x]).length : Int) - 1) = .ok x := by
      rw [show (((l ++ [x]).length : Int) - 1) = (l.length : Nat) by simp, rd_nat]
      simp
    cases l with
    | nil => simp only [List.nil_append] at hr ⊢; rw [hr]; simp [ok_bind, pure_M]
    | cons a l => simp only [List.cons_append] at hr ⊢; rw [hr]; simp [ok_bind, pure_M]
  · rw [List.forall₂_map_right_iff]
    exact List.forall₂_same.2 fun j _ => decInt_spec j

/-- C57: the documented form determines the sequence, so different non-empty sequences print differently. -/
theorem C57_parens_injective (a b : List Int) (s : Str) (ha0 : a ≠ []) (hb0 : b ≠ []) (ha : Parens a s) (hb : Parens b s) : a = b := by
  have uniq : ∀ {ids : List Int} {nums : List Str}, List.Forall₂ (fun i t => IsDecimal t i) ids nums → nums = ids.map IntVGram.decInt := by
    intro ids nums h
    induction h with
    | nil => rfl
    | cons a _ ih => rw [ih, List.map_cons, IsDecimal.unique a (decInt_spec _)]
  obtain ⟨n, h1, h2⟩ := ha
  obtain ⟨k, h3, h4⟩ := hb
  rw [uniq h1] at h2
  rw [uniq h3] at h4
  rw [h2] at h4
  simp only [List.cons.injEq, true_and] at h4
  have : ' ' :: (List.intercalate [' '] (a.map IntVGram.decInt)) ++ [')'] = ' ' :: (List.intercalate [' '] (b.map IntVGram.decInt)) ++ [')'] := by
    simpa using h4
  rw [intercalate_lead _ a ha0, intercalate_lead _ b hb0] at this
  exact sep_inj (by unfold IsDigit; decide) (Or.inr rfl) (Or.inr rfl) (by decide) this

example : seqToString [3, -12, 0] = .ok "(3 -12 0)".toList := by decide +kernel

/-! ## C58 -/

/-- **C58 is false**: encoding a list that contains a symbol missing from the table always dereferences `end()`; the freshly assigned code is never returned. -/
theorem C58_new_symbol_false (e : ListEncoder) (input out : List Int) (x : Int) (hx : x ∈ input) (hn : e.mapping.get? x = none) :
    e.encode input out = .error .oob := by
  induction input generalizing out with
  | nil => cases hx
  | cons y input ih =>
    simp only [ListEncoder.encode]
    cases hy : e.mapping.get? y with
    | none => rfl
    | some k =>
      rcases List.mem_cons.1 hx with rfl | hx
      · rw [hn] at hy; cases hy
      · exact ih _ hx

/-- C58 is false of every encoder a program can obtain: it starts empty, so the first symbol of the first non-empty list faults. -/
theorem C58_fresh_false (x : Int) (input out : List Int) : ListEncoder.encode ⟨[], 0⟩ (x :: input) out = .error .oob := rfl

/-- C58, the part that holds: when all symbols are in the table, their codes are appended in order and the encoder is unchanged.
Missing: symbols that are not in the table, `C58_new_symbol_false`. -/
theorem C58_known_partial (e : ListEncoder) (input out : List Int) (hk : ∀ x ∈ input, e.mapping.get? x ≠ none) :
    ∃ codes, e.encode input out = .ok (e, out ++ codes) ∧ List.Forall₂ (fun x c => e.mapping.get? x = some c) input codes := by
  induction input generalizing out with
  | nil => exact ⟨[], by simp [ListEncoder.encode], .nil⟩
  | cons y input ih =>
    obtain ⟨k, hy⟩ := Option.ne_none_iff_exists'.1 (hk y (by simp))
    obtain ⟨codes, h1, h2⟩ := ih (out ++ [k]) fun x hx => hk x (by simp [hx])
    exact ⟨k :: codes, by simp [ListEncoder.encode, hy, h1], .cons hy h2⟩

/-- `ListDict::parse`, list_dict.h:41-43: even if the encoder worked, the delegate would be given one zero per input symbol before the codes,
because the buffer is created with a size. -/
theorem C58_zero_prefix_false (e : ListEncoder) (input : List Int) (hk : ∀ x ∈ input, e.mapping.get? x ≠ none) :
    ∃ codes, e.encodeBuffer input = .ok (e, List.replicate input.length 0 ++ codes) ∧ List.Forall₂ (fun x c => e.mapping.get? x = some c) input codes :=
  C58_known_partial e input _ hk

example : ListEncoder.encode ⟨[(7, 0), (9, 1)], 2⟩ [9, 7, 9] [] = .ok (⟨[(7, 0), (9, 1)], 2⟩, [1, 0, 1]) ∧
    ListEncoder.encode ⟨[(7, 0), (9, 1)], 2⟩ [9, 8, 9] [] = .error .oob ∧
    ListEncoder.encodeBuffer ⟨[(7, 0), (9, 1)], 2⟩ [9, 7] = .ok (⟨[(7, 0), (9, 1)], 2⟩, [0, 0, 1, 0]) := by decide +kernel

end VGram.Props
