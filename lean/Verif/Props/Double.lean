import Verif.Proofs.Double
import Verif.Props.File

/-!
# Properties of the text of doubles

C85–C88: the digits computed by `grisu2`, reading them back, their number, and the buffer they are written to.
-/

namespace VGram.Props

open Spec Grisu Dump Parse

/-! ## C85 -/

/-- **C85**: for every positive finite double `grisu2` ends without a failed assertion, with at most 17 digits, without leading and trailing zeros, and
an exponent of at most three digits. -/
theorem C85_digits {b : Nat} (h0 : 0 < b) (h : b < 2047 * 2 ^ 52) : ∃ ds e, grisu2 b = .ok (ds, e) ∧ 1 ≤ ds.length ∧ ds.length ≤ 17 ∧ (∀ d ∈ ds, d ≤ 9) ∧
    ds.head? ≠ some 0 ∧ ds.getLast? ≠ some 0 ∧ -324 ≤ (ds.length : ℤ) + e - 1 ∧ (ds.length : ℤ) + e - 1 ≤ 308 := by
  obtain ⟨ds, e, r1, r2, r3, r4, r5, r6, r7, r8, r9, r10, _⟩ := grisu2_spec h0 h
  refine ⟨ds, e, r1, r2, r3, r4, r5, r6, ?_, ?_⟩
  · -- 10^(len + e) > 10^-324
    have h1 : (decimal ds : ℚ) * 10 ^ e < 10 ^ ((ds.length : ℤ) + e) := by
      rw [zpow_add₀ (by norm_num), zpow_natCast]
      exact mul_lt_mul_of_pos_right (by exact_mod_cast r8) (by positivity)
    have h2 : (10 : ℚ) ^ (-324 : ℤ) < (value (b - 1) + value b) / 2 := by
      have h3 : value 1 ≤ value b := value_strictMono.monotone h0
      have h4 := value_nonneg (b - 1)
      have h5 : value 1 = 2 ^ (-1074 : ℤ) := by
        unfold value
        norm_num
      rw [h5] at h3
      have h6 : (10 : ℚ) ^ (-324 : ℤ) < 2 ^ (-1074 : ℤ) / 2 := by
        rw [zpow_neg, zpow_neg, ← one_div, ← one_div, div_div, zpow_ofNat, zpow_ofNat]
        refine one_div_lt_one_div_of_lt (by positivity) ?_
        exact_mod_cast (by decide +kernel : 2 ^ 1074 * 2 < 10 ^ 324)
      linarith
    have h3 : (10 : ℚ) ^ (-324 : ℤ) < 10 ^ ((ds.length : ℤ) + e) := by linarith
    have := (zpow_lt_zpow_iff_right₀ (by norm_num : (1 : ℚ) < 10)).1 h3
    omega
  · have h1 : (10 : ℚ) ^ ((ds.length : ℤ) - 1 + e) ≤ decimal ds * 10 ^ e := by
      rw [zpow_add₀ (by norm_num), show (ds.length : ℤ) - 1 = ((ds.length - 1 : ℕ) : ℤ) by omega, zpow_natCast]
      exact mul_le_mul_of_nonneg_right (by exact_mod_cast r7) (by positivity)
    have h2 : (value b + value (b + 1)) / 2 < 10 ^ (309 : ℤ) := by
      have h3 : value b ≤ value (2047 * 2 ^ 52) := value_strictMono.monotone (by omega)
      have h4 : value (b + 1) ≤ value (2047 * 2 ^ 52) := value_strictMono.monotone (by omega)
      rw [value_top] at h3 h4
      have h5 : (2 : ℚ) ^ 1024 < 10 ^ (309 : ℤ) := by
        rw [zpow_ofNat]
        exact_mod_cast (by decide +kernel : 2 ^ 1024 < 10 ^ 309)
      generalize (2 : ℚ) ^ 1024 = x at *
      linarith
    have h3 : (10 : ℚ) ^ ((ds.length : ℤ) - 1 + e) < 10 ^ (309 : ℤ) := by linarith
    have := (zpow_lt_zpow_iff_right₀ (by norm_num : (1 : ℚ) < 10)).1 h3
    omega

/-- **C85**, the round trip: the number that is written is nearer to the double than to any other, whatever the rule for ties. -/
theorem C85_nearest {b : Nat} (h0 : 0 < b) (h : b < 2047 * 2 ^ 52) {ds : List Nat} {e : ℤ} (hg : grisu2 b = .ok (ds, e)) {c : Nat} (hc : c ≠ b) :
    |(decimal ds : ℚ) * 10 ^ e - value b| < |(decimal ds : ℚ) * 10 ^ e - value c| := by
  obtain ⟨ds', e', r1, _, _, _, _, _, _, _, r9, r10, _⟩ := grisu2_spec h0 h
  rw [hg] at r1
  cases r1
  exact nearest_of_between (Or.inr r9) r10 (by positivity) hc

/-- One tenth, one third, the greatest double, the least normal double and the least double. -/
example : grisu2 0x3FB999999999999A = .ok ([1], -1) ∧ grisu2 0x3FD5555555555555 = .ok ([3, 3, 3, 3, 3, 3, 3, 3, 3, 3, 3, 3, 3, 3, 3, 3], -16) ∧
    grisu2 0x7FEFFFFFFFFFFFFF = .ok ([1, 7, 9, 7, 6, 9, 3, 1, 3, 4, 8, 6, 2, 3, 1, 5, 7], 292) ∧
    grisu2 0x0010000000000000 = .ok ([2, 2, 2, 5, 0, 7, 3, 8, 5, 8, 5, 0, 7, 2, 0, 1, 4], -324) ∧ grisu2 1 = .ok ([5], -324) := by decide +kernel

/-! ## C86 -/

variable {strtod : Str → Double}

/-- **C86**: with doubles for numbers, what the writer and the reader of json.h need to know of the conversions holds, if only `strtod` rounds correctly. -/
theorem C86_text_laws {O : FloatOps Double} (hO : ∀ x, O.isFinite x = x.isFinite) (hs : CorrectlyRounded strtod) : TextLaws O (Double.text strtod) := by
  have pos : ∀ x : Double, (Double.text strtod).isZero x = false → 0 < x.mag.val := fun x hx => Nat.pos_of_ne_zero (by simpa [Double.text] using hx)
  have fin : ∀ x : Double, O.isFinite x = true → x.mag.val < 2047 * 2 ^ 52 := fun x hx => by
    rw [hO] at hx
    simpa [Double.isFinite] using hx
  have run : ∀ x : Double, O.isFinite x = true → (Double.text strtod).isZero x = false → ∃ ds e, grisu2 x.mag.val = .ok (ds, e) ∧
      (Double.text strtod).grisu x = (ds.map digit, e) ∧ 1 ≤ ds.length ∧ (∀ d ∈ ds, d ≤ 9) ∧ ds.head? ≠ some 0 ∧ -324 ≤ (ds.length : ℤ) + e - 1 ∧
      (ds.length : ℤ) + e - 1 ≤ 308 := by
    intro x h1 h2
    obtain ⟨ds, e, r1, r2, _, r3, r4, _, r5, r6⟩ := C85_digits (pos x h2) (fin x h1)
    exact ⟨ds, e, r1, by simp only [Double.text, r1], r2, r3, r4, r5, r6⟩
  have dig : ∀ {d : Nat}, d ≤ 9 → (digit d).toNat = 48 + d := fun h => toNat_digit (by omega)
  constructor
  · intro x h1 h2
    obtain ⟨ds, e, _, r1, r2, r3, r4, _⟩ := run x h1 h2
    rw [r1]
    refine ⟨by rintro h; simp at h; simp [h] at r2, ?_, ?_⟩
    · intro hh
      cases ds with
      | nil => cases hh
      | cons d ds =>
        injection hh with hh
        have := dig (r3 d (by simp))
        rw [hh] at this
        exact r4 (by rw [List.head?_cons]; congr 1; have : ('0' : Char).toNat = 48 := rfl; omega)
    · intro c hc
      obtain ⟨d, hd, rfl⟩ := List.mem_map.1 hc
      rw [dig (r3 d hd)]
      have := r3 d hd
      omega
  · intro x h1 h2
    obtain ⟨ds, e, _, r1, _, _, _, r2, r3⟩ := run x h1 h2
    rw [r1]
    simp only [List.length_map]
    omega
  · intro x h1 h2 s hd
    obtain ⟨ds, e, r0, r1, _, r3, _⟩ := run x h1 h2
    rw [r1] at hd
    simp only [numeral_map_digit r3] at hd
    obtain ⟨_, _, q1, _, _, _, _, _, _, _, _, q10, _⟩ := grisu2_spec (pos x h2) (fin x h1)
    rw [r0] at q1
    cases q1
    obtain ⟨n1, n2⟩ := hs.nearest s _ _ hd (lt_of_lt_of_le q10 (half_le_top (fin x h1)))
    have hsign := hs.sign s _ _ hd
    have hmag : (strtod s).mag.val = x.mag.val := by
      by_contra hne
      exact absurd (n2 _ (fin x h1)) (not_le.2 (C85_nearest (pos x h2) (fin x h1) r0 hne))
    show strtod s = x
    cases hx : strtod s with
    | mk neg mag =>
      rw [hx] at hsign hmag
      cases x with
      | mk neg' mag' => exact congr (congrArg Double.mk hsign) (Fin.ext hmag)
  · intro x h1 h2 s hd
    have hx0 : x.mag.val = 0 := by simpa [Double.text] using h2
    obtain ⟨n1, n2⟩ := hs.nearest s _ _ hd (by norm_num)
    have hsign := hs.sign s _ _ hd
    have hmag : (strtod s).mag.val = x.mag.val := by
      have := n2 0 (by norm_num)
      rw [value_zero, sub_zero, abs_zero, zero_sub, abs_neg] at this
      have h3 : value (strtod s).mag.val = value 0 := by
        rw [value_zero]
        exact abs_eq_zero.1 (le_antisymm this (abs_nonneg _))
      rw [hx0]
      exact value_strictMono.injective h3
    show strtod s = x
    cases hx : strtod s with
    | mk neg mag =>
      rw [hx] at hsign hmag
      cases x with
      | mk neg' mag' => exact congr (congrArg Double.mk hsign) (Fin.ext hmag)
  · intro s neg v hd hv
    rw [hO]
    have : (10 : ℚ) ^ 300 < (2 ^ 54 - 1) * 2 ^ 970 := by
      have h1 : ((10 ^ 300 : ℕ) : ℚ) < ((2 ^ 54 - 1) * 2 ^ 970 : ℕ) := Nat.cast_lt.2 (by decide +kernel)
      rw [Nat.cast_mul, Nat.cast_sub (by norm_num), Nat.cast_pow, Nat.cast_pow, Nat.cast_pow] at h1
      exact h1
    exact decide_eq_true (hs.nearest s neg v hd (hv.trans this)).1

/-- **C86** for one number: reading the text of a finite double gives the double, with the sign of zero. -/
theorem C86_number_round_trip (hs : CorrectlyRounded strtod) (O : FloatOps Double) (hO : ∀ x, O.isFinite x = x.isFinite) {x : Double} (h : x.isFinite = true) :
    strtod (toChars (Double.text strtod) x) = x := by
  have L := C86_text_laws hO hs
  have hd := C62_number_text L ((hO x).trans h)
  cases hz : (Double.text strtod).isZero x with
  | true =>
    rw [hz, if_pos rfl] at hd
    exact L.zero x ((hO x).trans h) hz _ hd
  | false =>
    rw [hz] at hd
    exact L.read x ((hO x).trans h) hz _ hd

/-- **C86** for a file: a completely written model file is read back as the same tree of bit-identical doubles. -/
theorem C86_file_round_trip (hs : CorrectlyRounded strtod) {O : FloatOps Double} (hO : ∀ x, O.isFinite x = x.isFinite) {j : Json Double} (h : Saved O j)
    (hi : Ints64 j) (hd : (writeFile O (Double.text strtod) j).done = true) :
    readFile O (Double.text strtod) (writeFile O (Double.text strtod) j).text = .ok j :=
  C62_file_round_trip (C86_text_laws hO hs) h hi hd

/-- There is a correctly rounding `strtod`. -/
theorem C86_strtod_exists : CorrectlyRounded strtodEven := strtodEven_rounded

/-- With it, texts of doubles and what they are read as. -/
example : toChars (Double.text strtodEven) ⟨false, 0x3FB999999999999A⟩ = "0.1".toList ∧ strtodEven "0.1".toList = ⟨false, 0x3FB999999999999A⟩ ∧
    toChars (Double.text strtodEven) ⟨true, 1⟩ = "-5e-324".toList ∧ strtodEven "-5e-324".toList = ⟨true, 1⟩ ∧
    toChars (Double.text strtodEven) ⟨true, 0⟩ = "-0.0".toList ∧ strtodEven "-0.0".toList = ⟨true, 0⟩ ∧
    strtodEven "1e400".toList = ⟨false, 0x7FF0000000000000⟩ := by decide +kernel

/-! ## C87 -/

/-- **C87**, the digits are the shortest: a number with fewer digits is outside the interval of the numbers that round to the double, or less than the `2^60`-th
part of the double away from an end of it. -/
theorem C87_shortest_partial {b : Nat} (h0 : 0 < b) (h : b < 2047 * 2 ^ 52) {ds : List Nat} {e : ℤ} (hg : grisu2 b = .ok (ds, e)) {n : ℕ} {i : ℤ}
    (hn : n < 10 ^ (ds.length - 1)) : n * (10 : ℚ) ^ i < (value (b - 1) + value b) / 2 + value b / 2 ^ 60 ∨
      (value b + value (b + 1)) / 2 - value b / 2 ^ 60 < n * (10 : ℚ) ^ i := by
  obtain ⟨ds', e', r1, _, _, _, _, _, _, _, _, _, r11, _⟩ := grisu2_spec h0 h
  rw [hg] at r1
  cases r1
  rcases lt_or_ge ((n : ℚ) * 10 ^ i) ((value (b - 1) + value b) / 2 + value b / 2 ^ 60) with h1 | h1
  · exact Or.inl h1
  · exact Or.inr (r11 n i hn h1)

/-- **C87**, the digits are the best: no number with the same exponent that is inside the interval is nearer to the double, but for the `2^60`-th part of
the double. -/
theorem C87_closest_partial {b : Nat} (h0 : 0 < b) (h : b < 2047 * 2 ^ 52) {ds : List Nat} {e : ℤ} (hg : grisu2 b = .ok (ds, e)) {n : ℕ}
    (h1 : (value (b - 1) + value b) / 2 + value b / 2 ^ 60 ≤ n * (10 : ℚ) ^ e) (h2 : n * (10 : ℚ) ^ e ≤ (value b + value (b + 1)) / 2 - value b / 2 ^ 60) :
    |value b - decimal ds * (10 : ℚ) ^ e| ≤ |value b - n * (10 : ℚ) ^ e| + value b / 2 ^ 60 := by
  obtain ⟨ds', e', r1, _, _, _, _, _, _, _, _, _, _, r12⟩ := grisu2_spec h0 h
  rw [hg] at r1
  cases r1
  exact r12 n h1 h2

set_option exponentiation.threshold 3000 in
/-- **C87 is false** without the tolerance: 17 digits are written for this double, although a number with 16 digits is nearer to it than to any other double, so
that every `strtod` reads it as the same double. -/
theorem C87_shortest_false : grisu2 7039228035821156771 = .ok ([3, 6, 8, 0, 5, 0, 0, 8, 7, 7, 9, 2, 8, 5, 0, 9, 4], 146) ∧
    ∀ c, c ≠ 7039228035821156771 → |(3680500877928509 : ℚ) * 10 ^ 147 - value 7039228035821156771| < |(3680500877928509 : ℚ) * 10 ^ 147 - value c| := by
  refine ⟨by decide +kernel, fun c hc => nearest_of_between (Or.inr ?_) ?_ (by norm_num) hc⟩
  · unfold value
    norm_num
  · unfold value
    norm_num

/-- **C87 is false** for the nearest digits too: `…024` would be nearer to this double (about 3.51e-25) than `…023`. -/
theorem C87_closest_false : grisu2 4241034123071815154 = .ok ([3, 5, 1, 2, 9, 2, 5, 0, 7, 6, 7, 4, 1, 5, 0, 2, 3], -41) ∧
    (value 4241034123071815154 - 35129250767415023 / 10 ^ 41) > (35129250767415024 / 10 ^ 41 - value 4241034123071815154) := by
  refine ⟨by decide +kernel, ?_⟩
  unfold value
  norm_num

/-! ## C88 -/

theorem appendExponent_length (e : ℤ) : (appendExponent e).length ≤ 4 := by
  unfold appendExponent
  simp only
  split_ifs <;> simp

theorem formatBuffer_length (buf : Str) (e : ℤ) (h : 1 ≤ buf.length ∧ buf.length ≤ 17) : (formatBuffer buf e (-4) 15).length ≤ 23 := by
  unfold formatBuffer
  simp only
  split_ifs with h1 h2 h3 h4
  · simp only [List.length_append, List.length_replicate, List.length_cons, List.length_nil]
    omega
  · simp only [List.length_append, List.length_cons, List.length_take, List.length_drop]
    omega
  · simp only [List.length_append, List.length_replicate, List.length_cons]
    omega
  · have := appendExponent_length ((buf.length : ℤ) + e - 1)
    simp only [List.length_append, List.length_cons]
    omega
  · have := appendExponent_length ((buf.length : ℤ) + e - 1)
    simp only [List.length_append, List.length_cons, List.length_take, List.length_drop]
    omega

/-- **C88**: the text of a double has at most 24 characters; the buffer has 64. -/
theorem C88_double_fits (x : Double) (h : x.isFinite = true) : (toChars (Double.text strtod) x).length ≤ 24 := by
  have hs : (if (Double.text strtod).signbit x = true then ['-'] else []).length ≤ 1 := by
    split_ifs <;> simp
  unfold toChars
  rw [List.length_append]
  cases hz : (Double.text strtod).isZero x with
  | true =>
    rw [if_pos rfl]
    simp only [List.length_cons, List.length_nil]
    omega
  | false =>
    have h0 : 0 < x.mag.val := Nat.pos_of_ne_zero (by simpa [Double.text] using hz)
    have h1 : x.mag.val < 2047 * 2 ^ 52 := by simpa [Double.isFinite] using h
    obtain ⟨ds, e, r1, r2, r3, _⟩ := C85_digits h0 h1
    have : (Double.text strtod).grisu x = (ds.map digit, e) := by simp only [Double.text, r1]
    rw [this]
    have := formatBuffer_length (ds.map digit) e (by simpa using ⟨r2, r3⟩)
    simp only [Bool.false_eq_true, if_false] at this ⊢
    omega

theorem revDigits_length : ∀ (fuel n x : Nat), x < 10 ^ n → (revDigits fuel x).length ≤ n
  | 0, _, _, _ => by simp [revDigits]
  | fuel + 1, n, x, h => by
    unfold revDigits
    split_ifs with hx
    · simp
    · cases n with
      | zero => simp at h; omega
      | succ n =>
        have := revDigits_length fuel n (x / 10) (by rw [Nat.div_lt_iff_lt_mul (by norm_num), ← Nat.pow_succ]; exact h)
        simp only [List.length_cons]
        omega

/-- **C88**: the text of an integer of 64 bits has at most 20 characters. -/
theorem C88_integer_fits (i : ℤ) (h : -(2 ^ 63) ≤ i ∧ i < 2 ^ 64) : (dumpInt i).length ≤ 20 := by
  unfold dumpInt
  split_ifs with h0 h1
  · simp
  · have := revDigits_length i.natAbs 19 i.natAbs (by omega)
    simp only [List.length_reverse, List.length_append, List.length_cons, List.length_nil]
    omega
  · have := revDigits_length i.natAbs 20 i.natAbs (by omega)
    simp only [List.length_reverse, List.length_append, List.length_nil]
    omega

/-- The bounds are attained. -/
example : (toChars (Double.text strtodEven) ⟨true, 0x0010000000000000⟩).length = 24 ∧ (dumpInt (-(2 ^ 63))).length = 20 ∧ (dumpInt (2 ^ 64 - 1)).length = 20 := by
  decide +kernel

end VGram.Props
