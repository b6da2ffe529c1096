import Verif.Proofs.Grisu
import Verif.Proofs.JsonValue
import Verif.Proofs.Decimal

/-! # Doubles and decimal numbers -/

namespace VGram

open Spec

/-! ## Nearest doubles -/

theorem value_zero : value 0 = 0 := by
  unfold value
  simp

theorem value_nonneg (b : Nat) : 0 ≤ value b := by
  rw [← value_zero]
  exact Grisu.value_strictMono.monotone (Nat.zero_le b)

theorem nearest_of_between {b : Nat} {v : ℚ} (h1 : b = 0 ∨ (value (b - 1) + value b) / 2 < v) (h2 : v < (value b + value (b + 1)) / 2) (h0 : 0 ≤ v) {c : Nat} (hc : c ≠ b) :
    |v - value b| < |v - value c| := by
  have m := Grisu.value_strictMono.monotone
  rcases Nat.lt_or_gt_of_ne hc with h | h
  · have hb : b ≠ 0 := by omega
    have h1 := h1.resolve_left hb
    have h3 : value c ≤ value (b - 1) := m (by omega)
    have h4 : value c < value b := Grisu.value_strictMono h
    rw [abs_of_pos (a := v - value c) (by linarith), abs_lt]
    constructor <;> linarith
  · have h3 : value (b + 1) ≤ value c := m (by omega)
    have h4 : value b < value c := Grisu.value_strictMono h
    rw [abs_of_neg (a := v - value c) (by linarith), abs_lt]
    rcases h1 with rfl | h1
    · rw [value_zero] at *
      constructor <;> linarith
    · have h5 : value (b - 1) ≤ value b := m (by omega)
      constructor <;> linarith

theorem value_top : value (2047 * 2 ^ 52) = 2 ^ 1024 := by
  unfold value
  rw [if_neg (by norm_num)]
  have : ((2047 * 2 ^ 52 / 2 ^ 52 : ℕ) : ℤ) - 1075 = 972 := by norm_num
  rw [this, show (1024 : ℕ) = 52 + 972 by norm_num, pow_add]
  norm_num

/-- Numbers below `2^1024` that do not round to it. -/
theorem half_top : (value (2047 * 2 ^ 52 - 1) + value (2047 * 2 ^ 52)) / 2 = (2 ^ 54 - 1) * 2 ^ 970 := by
  have := Grisu.half_above (2047 * 2 ^ 52 - 1)
  rw [Nat.sub_add_cancel (by norm_num)] at this
  rw [this]
  have h1 : Grisu.sig (2047 * 2 ^ 52 - 1) = 2 ^ 53 - 1 := by decide +kernel
  have h2 : Grisu.ex (2047 * 2 ^ 52 - 1) = 971 := by decide +kernel
  rw [h1, h2]
  norm_num

theorem half_le_top {b : Nat} (h : b < 2047 * 2 ^ 52) : (value b + value (b + 1)) / 2 ≤ (2 ^ 54 - 1) * 2 ^ 970 := by
  rw [← half_top]
  have m := Grisu.value_strictMono.monotone
  have h1 : value b ≤ value (2047 * 2 ^ 52 - 1) := m (by omega)
  have h2 : value (b + 1) ≤ value (2047 * 2 ^ 52) := m (by omega)
  generalize value (2047 * 2 ^ 52 - 1) = x at *
  generalize value (2047 * 2 ^ 52) = y at *
  linarith

/-! ## Digits as characters -/

theorem numeral_map_digit {ds : List Nat} (h : ∀ d ∈ ds, d ≤ 9) : numeral (ds.map Dump.digit) = decimal ds := by
  unfold numeral decimal
  generalize 0 = n
  induction ds generalizing n with
  | nil => rfl
  | cons d ds ih =>
    rw [List.map_cons, List.foldl_cons, List.foldl_cons, show (Dump.digit d).toNat = 48 + d from toNat_digit (by have := h d (by simp); omega), Nat.add_sub_cancel_left]
    exact ih (fun x hx => h x (by simp [hx])) _

/-! ## The value of a text -/

theorem expOf_eq {x : Str} {e : Int} (h : IsExp x e) : expOf x = e := by
  cases h with
  | none => rfl
  | plus c sg ds hc hs h0 hd =>
    rcases hs with rfl | rfl
    · cases ds with
      | nil => exact absurd rfl h0
      | cons d ds =>
        have hd0 := hd d (by simp)
        have n1 : d ≠ '-' := by rintro rfl; revert hd0; unfold IsDigit; decide
        have n2 : d ≠ '+' := by rintro rfl; revert hd0; unfold IsDigit; decide
        simp only [List.nil_append]
        unfold expOf
        split
        · next heq => injection heq with _ h; injection h with h _; exact absurd h n1
        · next heq => injection heq with _ h; injection h with h _; exact absurd h n2
        · next heq => injection heq with _ h; rw [h]
        · next heq => cases heq
    · rfl
  | minus c ds hc h0 hd => rfl

theorem decimal_eq {s : Str} {neg : Bool} {v : ℚ} (h : Denotes s neg v) : (decimalParts s).1 = neg ∧ decimalValue s = v := by
  obtain ⟨_, a, f, b, x, e, h1, h2, h3, h4, h5⟩ := h
  have dig : ∀ {c : Char}, IsDigit c → c ≠ 'e' ∧ c ≠ 'E' ∧ c ≠ '-' ∧ c ≠ '.' := by
    intro c hc
    refine ⟨?_, ?_, ?_, ?_⟩ <;>
    · rintro rfl
      revert hc
      unfold IsDigit
      decide
  have hx : x.takeWhile (fun c => decide (c ≠ 'e' ∧ c ≠ 'E')) = [] ∧ x.dropWhile (fun c => decide (c ≠ 'e' ∧ c ≠ 'E')) = x := by
    cases h5 with
    | none => exact ⟨rfl, rfl⟩
    | plus c sg ds hc => constructor <;> [rw [List.takeWhile_cons_of_neg]; rw [List.dropWhile_cons_of_neg]] <;> rcases hc with rfl | rfl <;> simp
    | minus c ds hc => constructor <;> [rw [List.takeWhile_cons_of_neg]; rw [List.dropWhile_cons_of_neg]] <;> rcases hc with rfl | rfl <;> simp
  have hneg : decide (((if neg then ['-'] else []) ++ (a ++ (f ++ x))).head? = some '-') = neg := by
    cases neg with
    | true => simp
    | false =>
      cases a with
      | nil => exact absurd rfl h1
      | cons c a => have := (dig (h2 c (by simp))).2.2.1; simp [this]
  have htail : (if neg then ((if neg then ['-'] else []) ++ (a ++ (f ++ x))).tail else (if neg then ['-'] else []) ++ (a ++ (f ++ x))) = a ++ (f ++ x) := by
    cases neg <;> simp
  have pa : ∀ c ∈ a, decide (c ≠ 'e' ∧ c ≠ 'E') = true := by intro c hc; have := dig (h2 c hc); simp [this]
  have pf : ∀ c ∈ f, decide (c ≠ 'e' ∧ c ≠ 'E') = true := by
    intro c hc
    rcases h4 with ⟨rfl, _⟩ | ⟨rfl, _⟩
    · cases hc
    · rcases List.mem_cons.1 hc with rfl | hc
      · decide
      · have := dig (h3 c hc); simp [this]
  have qa : ∀ c ∈ a, decide (c ≠ '.') = true := by intro c hc; have := dig (h2 c hc); simp [this]
  have hp : decimalParts ((if neg then ['-'] else []) ++ (a ++ (f ++ x))) = (neg, a, b, x) := by
    unfold decimalParts
    simp only [hneg, htail]
    rw [List.takeWhile_append_of_pos pa, List.takeWhile_append_of_pos pf, hx.1, List.append_nil, List.dropWhile_append_of_pos pa, List.dropWhile_append_of_pos pf, hx.2,
      List.takeWhile_append_of_pos qa, List.dropWhile_append_of_pos qa]
    rcases h4 with ⟨rfl, rfl⟩ | ⟨rfl, _⟩
    · simp
    · simp
  refine ⟨by rw [hp], ?_⟩
  unfold decimalValue
  rw [hp]
  simp only
  rw [expOf_eq h5]

/-! ## A correctly rounding `strtod` -/

theorem floorBits_spec {v : ℚ} : ∀ (k n : Nat), value n ≤ v → v < value (n + 2 ^ k) → value (floorBits v k n) ≤ v ∧ v < value (floorBits v k n + 1)
  | 0, n, h1, h2 => ⟨h1, h2⟩
  | k + 1, n, h1, h2 => by
    unfold floorBits
    split
    · next h => exact floorBits_spec k _ h (by rw [Nat.add_assoc, ← Nat.two_mul, ← Nat.pow_succ']; exact h2)
    · next h => exact floorBits_spec k _ h1 (not_le.1 h)

theorem nearestBits_spec {v : ℚ} (h0 : 0 ≤ v) (h : v < (2 ^ 54 - 1) * 2 ^ 970) :
    nearestBits v < 2047 * 2 ^ 52 ∧ ∀ c, |v - value (nearestBits v)| ≤ |v - value c| := by
  have m := Grisu.value_strictMono.monotone
  have htop : v < value (2047 * 2 ^ 52) := by
    rw [value_top]
    refine h.trans ?_
    rw [show (1024 : ℕ) = 54 + 970 by norm_num, pow_add]
    exact mul_lt_mul_of_pos_right (by norm_num) (by positivity)
  have h63 : v < value (0 + 2 ^ 63) := lt_of_lt_of_le htop (m (by norm_num))
  obtain ⟨f1, f2⟩ := floorBits_spec 63 0 (by rw [value_zero]; exact h0) h63
  have hlt : floorBits v 63 0 < 2047 * 2 ^ 52 := by
    by_contra hn
    have := m (not_lt.1 hn)
    linarith
  unfold nearestBits
  simp only [if_neg (not_le.2 hlt)]
  generalize floorBits v 63 0 = n at *
  have below : ∀ c, c ≤ n → |v - value n| ≤ |v - value c| := by
    intro c hc
    have := m hc
    rw [abs_of_nonneg (by linarith), abs_of_nonneg (by linarith)]
    linarith
  have above : ∀ c, n + 1 ≤ c → |v - value (n + 1)| ≤ |v - value c| := by
    intro c hc
    have := m hc
    rw [abs_of_neg (by linarith), abs_of_neg (by linarith)]
    linarith
  have e1 : |v - value n| = v - value n := abs_of_nonneg (by linarith)
  have e2 : |v - value (n + 1)| = value (n + 1) - v := by rw [abs_of_neg (by linarith)]; ring
  split
  · next hc =>
    refine ⟨hlt, fun c => ?_⟩
    rcases Nat.lt_or_ge n c with hnc | hnc
    · refine le_trans ?_ (above c hnc)
      rw [e1, e2]
      rcases hc with hc | hc <;> linarith
    · exact below c hnc
  · next hc =>
    have hc1 : value n + value (n + 1) ≤ 2 * v := not_lt.1 fun h => hc (Or.inl h)
    refine ⟨?_, fun c => ?_⟩
    · by_contra hn
      obtain rfl : n = 2047 * 2 ^ 52 - 1 := by omega
      have := half_top
      rw [Nat.sub_add_cancel (by norm_num)] at hc1
      clear f1 f2 below above e1 e2 hc htop
      generalize ((2 : ℚ) ^ 54 - 1) * 2 ^ 970 = z at *
      generalize value (2047 * 2 ^ 52 - 1) = x at *
      generalize value (2047 * 2 ^ 52) = y at *
      linarith
    · rcases Nat.lt_or_ge n c with hnc | hnc
      · exact above c hnc
      · refine le_trans ?_ (below c hnc)
        rw [e1, e2]
        linarith

theorem denotes_nonneg {s : Str} {neg : Bool} {v : ℚ} (h : Denotes s neg v) : 0 ≤ v := by
  obtain ⟨_, a, f, b, x, e, h1, h2, h3, h4, h5⟩ := h
  positivity

theorem strtodEven_rounded : CorrectlyRounded strtodEven := by
  refine ⟨fun s neg v h => (decimal_eq h).1, fun s neg v h hv => ?_⟩
  obtain ⟨h1, h2⟩ := nearestBits_spec (denotes_nonneg h) hv
  have e : (strtodEven s).mag.val = nearestBits v := by
    unfold strtodEven
    simp only [(decimal_eq h).2, Fin.val_ofNat]
    exact Nat.mod_eq_of_lt (by omega)
  rw [e]
  exact ⟨h1, fun c _ => h2 c⟩

end VGram
