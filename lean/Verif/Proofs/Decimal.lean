import Mathlib.Data.List.Induction
import Verif.Spec.Decimal
import Verif.Model.Stream
import Verif.Proofs.Basic

/-! # `std::to_string` -/

namespace VGram

open Spec

theorem toNat_digit {k : Nat} (h : k < 10) : (Char.ofNat (48 + k)).toNat = 48 + k := by
  have : ∀ j : Fin 10, (Char.ofNat (48 + j.1)).toNat = 48 + j.1 := by decide
  exact this ⟨k, h⟩

theorem numeral_snoc (s : Str) (c : Char) : numeral (s ++ [c]) = 10 * numeral s + (c.toNat - 48) := by
  simp [numeral, List.foldl_append]

theorem decAux_spec : ∀ (fuel n : Nat) (acc : Str), n < fuel → ∃ s, IntVGram.decAux fuel n acc = s ++ acc ∧ IsNumeral s n ∧ (s.head? = some '0' → n = 0) := by
  intro fuel
  induction fuel with
  | zero => intro n acc h; omega
  | succ fuel ih =>
    intro n acc h
    simp only [IntVGram.decAux]
    by_cases hn : n < 10
    · rw [if_pos hn]
      have ht := toNat_digit hn
      refine ⟨[Char.ofNat (48 + n)], rfl, ⟨by simp, ?_, ?_, ?_⟩, ?_⟩
      · intro c hc
        rw [List.mem_singleton] at hc
        subst hc
        unfold IsDigit
        rw [ht]
        omega
      · intro h
        simp only [List.head?_cons, Option.some.injEq] at h
        rw [h]
      · simp only [numeral, List.foldl_cons, List.foldl_nil, ht]
        omega
      · intro h
        simp only [List.head?_cons, Option.some.injEq] at h
        rw [h] at ht
        have : ('0').toNat = 48 := by decide
        omega
    · rw [if_neg hn]
      obtain ⟨s, s1, s2, s3⟩ := ih (n / 10) (Char.ofNat (48 + n % 10) :: acc) (by omega)
      have ht := toNat_digit (Nat.mod_lt n (by decide : 10 > 0))
      have hz : s.head? ≠ some '0' := fun e => by have := s3 e; omega
      have hh : (s ++ [Char.ofNat (48 + n % 10)]).head? = s.head? := by
        cases s with
        | nil => exact absurd rfl s2.nonempty
        | cons => rfl
      refine ⟨s ++ [Char.ofNat (48 + n % 10)], by rw [s1]; simp, ⟨by simp, ?_, ?_, ?_⟩, ?_⟩
      · intro c hc
        rcases List.mem_append.1 hc with hc | hc
        · exact s2.digits c hc
        · rw [List.mem_singleton] at hc
          subst hc
          unfold IsDigit
          rw [ht]
          omega
      · rw [hh]; exact fun e => absurd e hz
      · rw [numeral_snoc, s2.value, ht]; omega
      · rw [hh]; exact fun e => absurd e hz

theorem decInt_spec (i : Int) : IsDecimal (IntVGram.decInt i) i := by
  cases i with
  | ofNat n =>
    obtain ⟨s, s1, s2, _⟩ := decAux_spec (n + 1) n [] (by omega)
    refine ⟨s, n, s2, Or.inl ⟨?_, rfl⟩⟩
    simp only [IntVGram.decInt, s1, List.append_nil]
  | negSucc n =>
    obtain ⟨s, s1, s2, _⟩ := decAux_spec (n + 2) (n + 1) [] (by omega)
    refine ⟨s, n + 1, s2, Or.inr ⟨?_, by omega, by omega⟩⟩
    simp only [IntVGram.decInt, s1, List.append_nil]

theorem Spec.IsDecimal.chars {s : Str} {i : Int} (h : IsDecimal s i) : s ≠ [] ∧ ∀ c ∈ s, c = '-' ∨ IsDigit c := by
  obtain ⟨t, n, h1, ⟨rfl, _⟩ | ⟨rfl, _⟩⟩ := h
  · exact ⟨h1.nonempty, fun c hc => Or.inr (h1.digits c hc)⟩
  · refine ⟨by simp, fun c hc => ?_⟩
    rcases List.mem_cons.1 hc with rfl | hc
    · exact Or.inl rfl
    · exact Or.inr (h1.digits c hc)

/-- A numeral determines the number. -/
theorem Spec.IsDecimal.inj {s : Str} {i j : Int} (h1 : IsDecimal s i) (h2 : IsDecimal s j) : i = j := by
  have hm : ¬ IsDigit '-' := by unfold IsDigit; decide
  obtain ⟨t, n, a, ⟨e, e'⟩ | ⟨e, e', _⟩⟩ := h1 <;> obtain ⟨u, k, b, ⟨f, f'⟩ | ⟨f, f', _⟩⟩ := h2
  · rw [e', f', ← a.value, ← b.value, ← e, ← f]
  · subst e
    rw [f] at a
    exact absurd (a.digits '-' (by simp)) hm
  · subst f
    rw [e] at b
    exact absurd (b.digits '-' (by simp)) hm
  · rw [e] at f
    injection f with _ f
    rw [e', f', ← a.value, ← b.value, f]

theorem numeral_pos {s : Str} (h0 : s ≠ []) (hd : ∀ c ∈ s, IsDigit c) (hl : s.head? ≠ some '0') : 1 ≤ numeral s := by
  induction s using List.reverseRecOn with
  | nil => exact absurd rfl h0
  | append_singleton s c ih =>
    rw [numeral_snoc]
    by_cases hs : s = []
    · subst hs
      obtain ⟨h1, h2⟩ := hd c (by simp)
      have : c.toNat ≠ 48 := by
        intro e
        apply hl
        simp only [List.nil_append, List.head?_cons, Option.some.injEq]
        exact Char.toNat_inj.1 (e.trans (by decide))
      simp only [numeral, List.foldl_nil]
      omega
    · have := ih hs (fun c hc => hd c (by simp [hc])) (by
        cases s with
        | nil => exact absurd rfl hs
        | cons => exact hl)
      omega

/-- A number has one numeral. -/
theorem Spec.IsNumeral.unique {n : Nat} {s t : Str} (h1 : IsNumeral s n) (h2 : IsNumeral t n) : s = t := by
  induction s using List.reverseRecOn generalizing n t with
  | nil => exact absurd rfl h1.nonempty
  | append_singleton s c ih =>
    obtain ⟨t, c', rfl⟩ : ∃ t' c', t = t' ++ [c'] := by
      rcases List.eq_nil_or_concat t with h | ⟨t', c', h⟩
      · exact absurd h h2.nonempty
      · exact ⟨t', c', by simpa using h⟩
    have v1 := h1.value
    have v2 := h2.value
    rw [numeral_snoc] at v1 v2
    have d1 := h1.digits c (by simp)
    have d2 := h2.digits c' (by simp)
    unfold IsDigit at d1 d2
    have hc : c = c' := Char.toNat_inj.1 (by omega)
    subst hc
    have hv : numeral s = numeral t := by omega
    have lead : ∀ {u : Str}, IsNumeral (u ++ [c]) n → u ≠ [] → u.head? ≠ some '0' := by
      intro u hu hne e
      have := hu.lead (by
        cases u with
        | nil => exact absurd rfl hne
        | cons => exact e)
      have := congrArg List.length this
      simp only [List.length_append, List.length_singleton] at this
      exact hne (List.eq_nil_of_length_eq_zero (by omega))
    have sub : ∀ {u : Str}, IsNumeral (u ++ [c]) n → u ≠ [] → IsNumeral u (numeral u) := fun hu hne =>
      ⟨hne, fun c hc => hu.digits c (by simp [hc]), fun e => absurd e (lead hu hne), rfl⟩
    by_cases hs : s = []
    · by_cases ht : t = []
      · rw [hs, ht]
      · have := numeral_pos ht (sub h2 ht).digits (lead h2 ht)
        rw [← hv, hs] at this
        simp [numeral] at this
    · by_cases ht : t = []
      · have := numeral_pos hs (sub h1 hs).digits (lead h1 hs)
        rw [hv, ht] at this
        simp [numeral] at this
      · rw [ih (sub h1 hs) (hv ▸ sub h2 ht)]

/-- An integer has one decimal form. -/
theorem Spec.IsDecimal.unique {s t : Str} {i : Int} (h1 : IsDecimal s i) (h2 : IsDecimal t i) : s = t := by
  obtain ⟨u, n, a, ⟨e, e'⟩ | ⟨e, e', _⟩⟩ := h1 <;> obtain ⟨v, k, b, ⟨f, f'⟩ | ⟨f, f', _⟩⟩ := h2
  · have : n = k := by omega
    subst this
    rw [e, f, a.unique b]
  · omega
  · omega
  · have : n = k := by omega
    subst this
    rw [e, f, a.unique b]

/-- Lists of numerals, each preceded by a separator that does not occur in numerals, can be read back. -/
theorem sep_inj {sep : Char} (hsep : sep ≠ '-' ∧ ¬ IsDigit sep) : ∀ {a b : List Int} {r r' : Str}, (r = [] ∨ r.head? = some ')') → (r' = [] ∨ r'.head? = some ')') → sep ≠ ')' →
    (a.map fun i => sep :: IntVGram.decInt i).flatten ++ r = (b.map fun i => sep :: IntVGram.decInt i).flatten ++ r' → a = b := by
  have key : ∀ {s s' r r' : Str}, (∀ c ∈ s, c = '-' ∨ IsDigit c) → (∀ c ∈ s', c = '-' ∨ IsDigit c) →
      (∀ c, r.head? = some c → ¬ (c = '-' ∨ IsDigit c)) → (∀ c, r'.head? = some c → ¬ (c = '-' ∨ IsDigit c)) → s ++ r = s' ++ r' → s = s' ∧ r = r' := by
    intro s
    induction s with
    | nil =>
      intro s' r r' _ h2 h3 _ e
      cases s' with
      | nil => exact ⟨rfl, e⟩
      | cons c s' =>
        simp only [List.nil_append] at e
        exact absurd (h2 c (by simp)) (h3 c (by rw [e]; rfl))
    | cons c s ih =>
      intro s' r r' h1 h2 h3 h4 e
      cases s' with
      | nil =>
        simp only [List.nil_append] at e
        exact absurd (h1 c (by simp)) (h4 c (by rw [← e]; rfl))
      | cons c' s' =>
        simp only [List.cons_append, List.cons.injEq] at e
        obtain ⟨rfl, e⟩ := e
        obtain ⟨k1, k2⟩ := ih (fun c hc => h1 c (by simp [hc])) (fun c hc => h2 c (by simp [hc])) h3 h4 e
        exact ⟨by rw [k1], k2⟩
  have hp : ¬ (')' = '-' ∨ IsDigit ')') := by unfold IsDigit; decide
  have hs : ¬ (sep = '-' ∨ IsDigit sep) := by
    rintro (h | h)
    · exact hsep.1 h
    · exact hsep.2 h
  have hr : ∀ {r : Str} (l : List Int), (r = [] ∨ r.head? = some ')') →
      ∀ c, ((l.map fun i => sep :: IntVGram.decInt i).flatten ++ r).head? = some c → ¬ (c = '-' ∨ IsDigit c) := by
    intro r l h c hc
    cases l with
    | nil =>
      simp only [List.map_nil, List.flatten_nil, List.nil_append] at hc
      rcases h with rfl | h
      · simp at hc
      · rw [h] at hc
        cases hc
        exact hp
    | cons i l =>
      simp only [List.map_cons, List.flatten_cons, List.cons_append, List.head?_cons, Option.some.injEq] at hc
      subst hc
      exact hs
  intro a
  induction a with
  | nil =>
    intro b r r' h1 h2 h3 e
    cases b with
    | nil => rfl
    | cons j b =>
      simp only [List.map_nil, List.flatten_nil, List.nil_append, List.map_cons, List.flatten_cons, List.cons_append] at e
      rcases h1 with rfl | h1
      · cases e
      · rw [e] at h1
        simp at h1
        exact absurd h1 h3
  | cons i a ih =>
    intro b r r' h1 h2 h3 e
    cases b with
    | nil =>
      simp only [List.map_nil, List.flatten_nil, List.nil_append, List.map_cons, List.flatten_cons, List.cons_append] at e
      rcases h2 with rfl | h2
      · cases e
      · rw [← e] at h2
        simp at h2
        exact absurd h2 h3
    | cons j b =>
      simp only [List.map_cons, List.flatten_cons, List.cons_append, List.append_assoc, List.cons.injEq, true_and] at e
      obtain ⟨k1, k2⟩ := key (decInt_spec i).chars.2 (decInt_spec j).chars.2 (hr a h1) (hr b h2) e
      have : i = j := (decInt_spec i).inj (k1 ▸ decInt_spec j)
      rw [this, ih h1 h2 h3 k2]

end VGram
