import Mathlib.Data.List.Basic
import Verif.Model.Basic

/-! # Lemmas about the result monad and vector accesses -/

namespace VGram

theorem bind_ok {α β : Type} {x : M α} {f : α → M β} {b : β} :
    (x >>= f) = .ok b ↔ ∃ a, x = .ok a ∧ f a = .ok b := by
  cases x with
  | error e => simp [bind, Except.bind]
  | ok a => simp [bind, Except.bind]

theorem bind_error {α β : Type} {x : M α} {f : α → M β} {e : Fault} :
    (x >>= f) = .error e ↔ x = .error e ∨ ∃ a, x = .ok a ∧ f a = .error e := by
  cases x with
  | error e => simp [bind, Except.bind]
  | ok a => simp [bind, Except.bind]

@[simp] theorem ok_bind {α β : Type} {a : α} {f : α → M β} : (Except.ok a >>= f : M β) = f a := rfl
@[simp] theorem error_bind {α β : Type} {e : Fault} {f : α → M β} :
    (Except.error e >>= f : M β) = .error e := rfl
@[simp] theorem pure_M {α : Type} {a : α} : (pure a : M α) = .ok a := rfl

theorem rd_nat {α : Type} (l : List α) (n : Nat) :
    rd l (n : Int) = match l[n]? with | some a => .ok a | none => .error .oob := rfl

theorem rd_of_lt {α : Type} {l : List α} {n : Nat} (h : n < l.length) : rd l (n : Int) = .ok l[n] := by
  rw [rd_nat, List.getElem?_eq_getElem h]

theorem rd_ok {α : Type} {l : List α} {i : Int} {a : α} :
    rd l i = .ok a ↔ ∃ n : Nat, i = n ∧ l[n]? = some a := by
  cases i with
  | ofNat n =>
    change rd l (n : Int) = _ ↔ _
    rw [rd_nat]
    constructor
    · intro h
      refine ⟨n, rfl, ?_⟩
      cases h' : l[n]? with
      | none => simp [h'] at h
      | some b => simpa [h'] using h
    · rintro ⟨m, hm, h⟩
      have : n = m := Int.ofNat.inj hm
      subst this
      simp [h]
  | negSucc n =>
    simp only [rd, reduceCtorEq, false_iff, not_exists, not_and]
    intro m hm
    exact absurd hm (by intro h; cases h)

theorem rd_nat_ok {α : Type} {l : List α} {n : Nat} {a : α} :
    rd l (n : Int) = .ok a ↔ l[n]? = some a := by
  rw [rd_ok]
  constructor
  · rintro ⟨m, hm, h⟩
    have : n = m := by omega
    subst this; exact h
  · intro h; exact ⟨n, rfl, h⟩

theorem rd_error {α : Type} {l : List α} {i : Int} {e : Fault} (h : rd l i = .error e) : e = .oob := by
  cases i with
  | ofNat n =>
    change rd l (n : Int) = _ at h
    rw [rd_nat] at h
    cases h' : l[n]? with
    | none => simp [h'] at h; exact h.symm
    | some b => simp [h'] at h
  | negSucc n => simp [rd] at h; exact h.symm

theorem wr_nat {α : Type} (l : List α) (n : Nat) (x : α) :
    wr l (n : Int) x = if n < l.length then .ok (l.set n x) else .error .oob := rfl

theorem wr_of_lt {α : Type} {l : List α} {n : Nat} {x : α} (h : n < l.length) :
    wr l (n : Int) x = .ok (l.set n x) := by simp [wr_nat, h]

theorem wr_ok {α : Type} {l l' : List α} {i : Int} {x : α} :
    wr l i x = .ok l' ↔ ∃ n : Nat, i = n ∧ n < l.length ∧ l' = l.set n x := by
  cases i with
  | ofNat n =>
    change wr l (n : Int) x = _ ↔ _
    rw [wr_nat]
    constructor
    · intro h
      split at h
      · exact ⟨n, rfl, ‹_›, by simpa using h.symm⟩
      · simp at h
    · rintro ⟨m, hm, h, rfl⟩
      have : n = m := Int.ofNat.inj hm
      subst this
      simp [h]
  | negSucc n =>
    simp only [wr, reduceCtorEq, false_iff, not_exists, not_and]
    intro m hm
    exact absurd hm (by intro h; cases h)

theorem sumI_eq (l : List Int) : sumI l = l.sum := by
  unfold sumI
  rw [List.sum_eq_foldl]

end VGram
