import Verif.Proofs.Double
import Verif.Spec.Ieee

/-! # The arithmetic of doubles satisfies the laws -/

namespace VGram

open Spec

/-! ## Rounding -/

/-- The least number that rounds to infinity. -/
def overflow : ℚ := (2 ^ 54 - 1) * 2 ^ 970

theorem pow_lt_overflow : (2 : ℚ) ^ 1023 < overflow := by
  unfold overflow
  rw [show (1023 : ℕ) = 53 + 970 by norm_num, pow_add]
  exact mul_lt_mul_of_pos_right (by norm_num) (by positivity)

theorem overflow_pos : 0 < overflow := lt_trans (by positivity) pow_lt_overflow

theorem nearestBits_le (v : ℚ) : nearestBits v ≤ 2047 * 2 ^ 52 := by
  unfold nearestBits
  simp only
  split
  · exact le_rfl
  · split <;> omega

theorem nearestBits_overflow {v : ℚ} (h : overflow ≤ v) : nearestBits v = 2047 * 2 ^ 52 := by
  have m := Grisu.value_strictMono.monotone
  have h0 : 0 ≤ v := overflow_pos.le.trans h
  by_cases htop : v < value (2047 * 2 ^ 52)
  · have h63 : v < value (0 + 2 ^ 63) := lt_of_lt_of_le htop (m (by norm_num))
    obtain ⟨f1, f2⟩ := floorBits_spec 63 0 (by rw [value_zero]; exact h0) h63
    have hlt : floorBits v 63 0 < 2047 * 2 ^ 52 := by
      by_contra hn
      have := m (not_lt.1 hn)
      linarith
    have hge : 2047 * 2 ^ 52 - 1 ≤ floorBits v 63 0 := by
      by_contra hn
      have h1 : value (floorBits v 63 0 + 1) ≤ value (2047 * 2 ^ 52 - 1) := m (by omega)
      have h2 : value (2047 * 2 ^ 52 - 1) < value (2047 * 2 ^ 52) := Grisu.value_strictMono (by norm_num)
      have h3 := half_top
      unfold overflow at h
      generalize ((2 : ℚ) ^ 54 - 1) * 2 ^ 970 = z at *
      generalize value (2047 * 2 ^ 52 - 1) = x at *
      generalize value (2047 * 2 ^ 52) = y at *
      linarith
    have e : floorBits v 63 0 = 2047 * 2 ^ 52 - 1 := by omega
    unfold nearestBits
    simp only [if_neg (not_le.2 hlt)]
    rw [e, Nat.sub_add_cancel (by norm_num), if_neg]
    have h3 := half_top
    unfold overflow at h
    generalize ((2 : ℚ) ^ 54 - 1) * 2 ^ 970 = z at *
    generalize value (2047 * 2 ^ 52 - 1) = x at *
    generalize value (2047 * 2 ^ 52) = y at *
    rintro (h4 | ⟨_, h4⟩)
    · linarith
    · revert h4
      decide
  · have h1 : 2047 * 2 ^ 52 ≤ floorBits v 63 0 := by
      have key : ∀ (k n : Nat), value n ≤ v → (2047 * 2 ^ 52 < n + 2 ^ k) → 2047 * 2 ^ 52 ≤ floorBits v k n := by
        intro k
        induction k with
        | zero => intro n _ h2; simp only [floorBits]; omega
        | succ k ih =>
          intro n h1 h2
          unfold floorBits
          split
          · next hc =>
            refine ih _ hc ?_
            rw [pow_succ] at h2
            omega
          · next hc =>
            refine ih _ h1 ?_
            by_contra hn
            exact hc ((m (not_lt.1 hn)).trans (not_lt.1 htop))
      exact key 63 0 (by rw [value_zero]; exact h0) (by norm_num)
    unfold nearestBits
    simp only [if_pos h1]

theorem nearestBits_mono {v w : ℚ} (h0 : 0 ≤ v) (h : v ≤ w) : nearestBits v ≤ nearestBits w := by
  rcases h.lt_or_eq with h | rfl
  · by_cases hw : overflow ≤ w
    · rw [nearestBits_overflow hw]
      exact nearestBits_le v
    · have hw := not_le.1 hw
      have nv := (nearestBits_spec h0 (h.trans hw)).2 (nearestBits w)
      have nw := (nearestBits_spec (h0.trans h.le) hw).2 (nearestBits v)
      by_contra hn
      have hlt := Grisu.value_strictMono (not_le.1 hn)
      generalize value (nearestBits v) = a at *
      generalize value (nearestBits w) = b at *
      rcases abs_cases (v - a) with ⟨e1, _⟩ | ⟨e1, _⟩ <;> rcases abs_cases (v - b) with ⟨e2, _⟩ | ⟨e2, _⟩ <;>
        rcases abs_cases (w - a) with ⟨e3, _⟩ | ⟨e3, _⟩ <;> rcases abs_cases (w - b) with ⟨e4, _⟩ | ⟨e4, _⟩ <;>
        rw [e1, e2] at nv <;> rw [e3, e4] at nw <;> linarith
  · exact le_rfl

theorem nearestBits_value {b : Nat} (h : b < 2047 * 2 ^ 52) : nearestBits (value b) = b := by
  have hv : value b < overflow := by
    have h1 : value b < value (b + 1) := Grisu.value_lt_succ b
    have : _ ≤ overflow := half_le_top h
    linarith
  have := (nearestBits_spec (value_nonneg b) hv).2 b
  rw [sub_self, abs_zero] at this
  have := sub_eq_zero.1 (abs_eq_zero.1 (le_antisymm this (abs_nonneg _)))
  exact (Grisu.value_strictMono.injective this).symm

/-- The rounded value of `x`; numbers that are too large get the value `2^1024`. -/
def rnd (x : ℚ) : ℚ := if x < 0 then -value (nearestBits (-x)) else value (nearestBits x)

theorem rnd_neg (x : ℚ) : rnd (-x) = -rnd x := by
  unfold rnd
  rcases lt_trichotomy x 0 with h | rfl | h
  · rw [if_neg (by linarith), if_pos h, neg_neg]
  · have : nearestBits 0 = 0 := by
      have := nearestBits_value (b := 0) (by norm_num)
      rwa [value_zero] at this
    simp [this, value_zero]
  · rw [if_pos (by linarith), if_neg (by linarith), neg_neg]

theorem rnd_nonneg {x : ℚ} (h : 0 ≤ x) : 0 ≤ rnd x := by
  unfold rnd
  rw [if_neg (not_lt.2 h)]
  exact value_nonneg _

theorem rnd_mono {x y : ℚ} (h : x ≤ y) : rnd x ≤ rnd y := by
  have m := Grisu.value_strictMono.monotone
  by_cases hx : x < 0
  · by_cases hy : y < 0
    · unfold rnd
      rw [if_pos hx, if_pos hy]
      exact neg_le_neg (m (nearestBits_mono (by linarith) (by linarith)))
    · refine le_trans ?_ (rnd_nonneg (not_lt.1 hy))
      unfold rnd
      rw [if_pos hx]
      exact neg_nonpos.2 (value_nonneg _)
  · unfold rnd
    rw [if_neg hx, if_neg (by linarith)]
    exact m (nearestBits_mono (not_lt.1 hx) h)

theorem abs_rnd (x : ℚ) : |rnd x| = value (nearestBits |x|) := by
  unfold rnd
  split
  · next h => rw [abs_neg, abs_of_nonneg (value_nonneg _), abs_of_neg h]
  · next h => rw [abs_of_nonneg (value_nonneg _), abs_of_nonneg (not_lt.1 h)]

theorem rnd_value {b : Nat} (h : b < 2047 * 2 ^ 52) : rnd (value b) = value b := by
  unfold rnd
  rw [if_neg (not_lt.2 (value_nonneg b)), nearestBits_value h]

/-- The encoding of a power of two. -/
theorem value_pow {k : Nat} (h0 : 1 ≤ k) : value (k * 2 ^ 52) = 2 ^ ((k : ℤ) - 1023) := by
  unfold value
  rw [Nat.mul_div_cancel _ (by norm_num), if_neg (by omega), Nat.mul_mod_left, show ((k : ℤ) - 1023) = 52 + (k - 1075) by ring, zpow_add₀ (by norm_num)]
  norm_num

theorem value_pow_nat {k : Nat} : value ((k + 1023) * 2 ^ 52) = 2 ^ k := by
  rw [value_pow (by omega)]
  push_cast
  rw [add_sub_cancel_right, zpow_natCast]

theorem value_inv_pow {k : Nat} (h : k ≤ 1022) : value ((1023 - k) * 2 ^ 52) = 1 / 2 ^ k := by
  rw [value_pow (by omega), Nat.cast_sub (by omega)]
  push_cast
  rw [show (1023 : ℤ) - k - 1023 = -k by ring, zpow_neg, zpow_natCast, one_div]

theorem rnd_pow {k : Nat} (h : k ≤ 1023) : rnd (2 ^ k) = 2 ^ k := by
  rw [← value_pow_nat]
  exact rnd_value (by omega)

theorem rnd_inv_pow {k : Nat} (h : k ≤ 1022) : rnd (1 / 2 ^ k) = 1 / 2 ^ k := by
  rw [← value_inv_pow h]
  exact rnd_value (by omega)

theorem abs_rnd_le {x y : ℚ} (h : |x| ≤ y) : |rnd x| ≤ rnd y := by
  rw [abs_le] at h ⊢
  have h1 := rnd_mono h.1
  rw [rnd_neg] at h1
  exact ⟨h1, rnd_mono h.2⟩

theorem abs_rnd_pow {x : ℚ} {k : Nat} (hk : k ≤ 1023) (h : |x| ≤ 2 ^ k) : |rnd x| ≤ 2 ^ k := by
  rw [← rnd_pow hk]
  exact abs_rnd_le h

theorem le_rnd_pow {x : ℚ} {k : Nat} (hk : k ≤ 1022) (h : 1 / 2 ^ k ≤ x) : 1 / 2 ^ k ≤ rnd x := by
  rw [← rnd_inv_pow hk]
  exact rnd_mono h

/-- A number within half the distance to the next double is rounded down. -/
theorem rnd_stay {b : Nat} {x : ℚ} (hb : b < 2047 * 2 ^ 52) (h : x < (value b + value (b + 1)) / 2) : rnd x ≤ value b := by
  by_cases hx : x < value b
  · exact (rnd_mono hx.le).trans_eq (rnd_value hb)
  · have hx := not_lt.1 hx
    have h0 := (value_nonneg b).trans hx
    have := half_le_top hb
    have n := (nearestBits_spec h0 (h.trans_le this)).2 b
    unfold rnd
    rw [if_neg (not_lt.2 h0)]
    by_contra hn
    have hlt : b < nearestBits x := by
      by_contra hle
      exact hn (Grisu.value_strictMono.monotone (not_lt.1 hle))
    have h3 : value (b + 1) ≤ value (nearestBits x) := Grisu.value_strictMono.monotone hlt
    have h4 := Grisu.value_lt_succ b
    rw [abs_of_nonneg (a := x - value b) (by linarith), abs_of_neg (by linarith)] at n
    linarith

theorem value_succ_pow {k : Nat} (hk : 52 ≤ k) : value ((k + 1023) * 2 ^ 52 + 1) = 2 ^ k + 2 ^ (k - 52) := by
  unfold value
  have h1 : ((k + 1023) * 2 ^ 52 + 1) / 2 ^ 52 = k + 1023 := by omega
  have h2 : ((k + 1023) * 2 ^ 52 + 1) % 2 ^ 52 = 1 := by omega
  rw [h1, h2, if_neg (by omega)]
  push_cast
  have e : (2 : ℚ) ^ ((k : ℤ) + 1023 - 1075) = 2 ^ (k - 52) := by
    rw [show ((k : ℤ) + 1023 - 1075) = ((k - 52 : ℕ) : ℤ) by omega, zpow_natCast]
  have e2 : (2 : ℚ) ^ k = 2 ^ 52 * 2 ^ (k - 52) := by
    rw [← pow_add, Nat.add_sub_cancel' hk]
  rw [e, e2]
  ring

/-- Sums with small terms stagnate. -/
theorem abs_rnd_absorb {x : ℚ} {j k : Nat} (h : j + 60 ≤ k) (hk : k ≤ 1000) (hx : |x| ≤ 2 ^ k + 2 ^ j) : |rnd x| ≤ 2 ^ k := by
  refine (abs_rnd_le hx).trans ((rnd_stay (b := (k + 1023) * 2 ^ 52) (by omega) ?_).trans_eq value_pow_nat)
  rw [value_succ_pow (by omega), value_pow_nat]
  have h4 : (2 : ℚ) ^ (j + 2) ≤ 2 ^ (k - 52) := pow_le_pow_right₀ (by norm_num) (by omega)
  rw [pow_add] at h4
  have hj : (0 : ℚ) < 2 ^ j := by positivity
  generalize (2 : ℚ) ^ j = a at *
  generalize (2 : ℚ) ^ (k - 52) = b at *
  linarith

/-! ## Values of results -/

theorem mag_rounded (s : Bool) (x : ℚ) : (Double.rounded s x).mag.val = nearestBits |x| := by
  have := nearestBits_le |x|
  show nearestBits |x| % 2 ^ 63 = _
  exact Nat.mod_eq_of_lt (by omega)

/-- The value of a rounded number. -/
theorem val_rounded (s : Bool) {x : ℚ} (h : |x| < overflow) : Double.val (Double.rounded s x) = .fin (rnd x) := by
  unfold Double.val
  rw [mag_rounded, if_pos (nearestBits_spec (abs_nonneg x) h).1]
  congr 1
  unfold Double.rounded rnd
  simp only
  rcases lt_trichotomy x 0 with hx | rfl | hx
  · simp [hx.ne, hx, abs_of_neg hx]
  · have : nearestBits 0 = 0 := by
      have := nearestBits_value (b := 0) (by norm_num)
      rwa [value_zero] at this
    simp [this, value_zero]
  · simp [hx.ne', not_lt.2 hx.le, abs_of_pos hx]

theorem val_rounded_top (s : Bool) {x : ℚ} (h : overflow ≤ x) : Double.val (Double.rounded s x) = .top := by
  have hx := overflow_pos.trans_le h
  unfold Double.val
  rw [mag_rounded, abs_of_pos hx, nearestBits_overflow h, if_neg (lt_irrefl _), if_pos rfl, if_neg]
  simp [Double.rounded, hx.ne', not_lt.2 hx.le]

theorem val_rounded_bot (s : Bool) {x : ℚ} (h : x ≤ -overflow) : Double.val (Double.rounded s x) = .bot := by
  have hx : x < 0 := h.trans_lt (neg_neg_of_pos overflow_pos)
  unfold Double.val
  rw [mag_rounded, abs_of_neg hx, nearestBits_overflow (le_neg_of_le_neg h), if_neg (lt_irrefl _), if_pos rfl, if_pos]
  simp [Double.rounded, hx.ne, hx]

/-- The value of a double with the opposite sign. -/
theorem val_opposite (d : Double) : Double.val (Double.opposite d) = Ext.neg (Double.val d) := by
  unfold Double.val Double.opposite
  simp only
  split
  · cases d.neg <;> simp [Ext.neg]
  · split
    · cases d.neg <;> simp [Ext.neg]
    · rfl

theorem Mag.opposite {k : Nat} {d : Double} (h : Double.Mag k d) : Double.Mag k (Double.opposite d) := by
  obtain ⟨x, hx, hk⟩ := h
  exact ⟨-x, by rw [val_opposite, hx]; rfl, by rwa [abs_neg]⟩

theorem small {x : ℚ} {k : Nat} (hk : k ≤ 1023) (h : |x| ≤ 2 ^ k) : |x| < overflow :=
  (h.trans (pow_le_pow_right₀ (by norm_num) hk)).trans_lt pow_lt_overflow

theorem mag_of_rounded (s : Bool) {x : ℚ} {k : Nat} (hk : k ≤ 1023) (h : |x| ≤ 2 ^ k) : Double.Mag k (Double.rounded s x) :=
  ⟨_, val_rounded s (small hk h), abs_rnd_pow hk h⟩

theorem pos_of_rounded (s : Bool) {x : ℚ} {k : Nat} (hk : k ≤ 1022) (h1 : 1 / 2 ^ k ≤ x) (h2 : x ≤ 2 ^ k) : Double.Pos k (Double.rounded s x) := by
  have h0 : |x| ≤ 2 ^ k := by rwa [abs_of_nonneg (le_trans (by positivity) h1)]
  exact ⟨_, val_rounded s (small (by omega) h0), le_rnd_pow hk h1, (abs_le.1 (abs_rnd_pow (by omega) h0)).2⟩

theorem add_val {a b : Double} {x y : ℚ} (ha : Double.val a = .fin x) (hb : Double.val b = .fin y) :
    Double.add a b = Double.rounded (a.neg && b.neg) (x + y) := by
  unfold Double.add
  rw [ha, hb]

theorem mul_val {a b : Double} {x y : ℚ} (ha : Double.val a = .fin x) (hb : Double.val b = .fin y) :
    Double.mul a b = Double.rounded (a.neg ^^ b.neg) (x * y) := by
  unfold Double.mul
  rw [ha, hb]

theorem div_val {a b : Double} {x y : ℚ} (ha : Double.val a = .fin x) (hb : Double.val b = .fin y) (hy : y ≠ 0) :
    Double.div a b = Double.rounded (a.neg ^^ b.neg) (x / y) := by
  unfold Double.div
  rw [ha, hb]
  exact if_neg hy

/-! ## Magnitudes -/

theorem Mag.mono {j k : Nat} {d : Double} (h : j ≤ k) : Double.Mag j d → Double.Mag k d := fun ⟨x, hx, hk⟩ =>
  ⟨x, hx, hk.trans (pow_le_pow_right₀ (by norm_num) h)⟩

theorem Pos.mono {j k : Nat} {d : Double} (h : j ≤ k) : Double.Pos j d → Double.Pos k d := fun ⟨x, hx, h1, h2⟩ =>
  ⟨x, hx, le_trans (one_div_le_one_div_of_le (by positivity) (pow_le_pow_right₀ (by norm_num) h)) h1, h2.trans (pow_le_pow_right₀ (by norm_num) h)⟩

theorem Pos.mag {k : Nat} {d : Double} : Double.Pos k d → Double.Mag k d := fun ⟨x, hx, h1, h2⟩ =>
  ⟨x, hx, by rwa [abs_of_nonneg (le_trans (by positivity) h1)]⟩

theorem Mag.add {k : Nat} {a b : Double} (hk : k < 1000) (ha : Double.Mag k a) (hb : Double.Mag k b) : Double.Mag (k + 1) (Double.add a b) := by
  obtain ⟨x, hx, h1⟩ := ha
  obtain ⟨y, hy, h2⟩ := hb
  rw [add_val hx hy]
  refine mag_of_rounded _ (by omega) ((abs_add_le x y).trans ?_)
  rw [pow_succ]
  linarith

theorem Mag.absorb {j k : Nat} {a b : Double} (h : j + 60 ≤ k) (hk : k ≤ 1000) (ha : Double.Mag k a) (hb : Double.Mag j b) : Double.Mag k (Double.add a b) := by
  obtain ⟨x, hx, h1⟩ := ha
  obtain ⟨y, hy, h2⟩ := hb
  have hs : |x + y| ≤ 2 ^ k + 2 ^ j := (abs_add_le x y).trans (add_le_add h1 h2)
  have hs' : |x + y| ≤ 2 ^ (k + 1) := by
    refine hs.trans ?_
    have : (2 : ℚ) ^ j ≤ 2 ^ k := pow_le_pow_right₀ (by norm_num) (by omega)
    rw [pow_succ]
    linarith
  rw [add_val hx hy]
  exact ⟨_, val_rounded _ (small (by omega) hs'), abs_rnd_absorb h hk hs⟩

theorem Mag.mul {j k : Nat} {a b : Double} (hk : j + k ≤ 1000) (ha : Double.Mag j a) (hb : Double.Mag k b) : Double.Mag (j + k) (Double.mul a b) := by
  obtain ⟨x, hx, h1⟩ := ha
  obtain ⟨y, hy, h2⟩ := hb
  rw [mul_val hx hy]
  refine mag_of_rounded _ (by omega) ?_
  rw [abs_mul, pow_add]
  exact mul_le_mul h1 h2 (abs_nonneg _) (by positivity)

theorem Mag.div {j k : Nat} {a b : Double} (hk : j + k ≤ 1000) (ha : Double.Mag j a) (hb : Double.Pos k b) : Double.Mag (j + k) (Double.div a b) := by
  obtain ⟨x, hx, h1⟩ := ha
  obtain ⟨y, hy, h2, _⟩ := hb
  have hp : (0 : ℚ) < 2 ^ k := by positivity
  have h0 : 0 < y := lt_of_lt_of_le (by positivity) h2
  rw [div_val hx hy h0.ne']
  refine mag_of_rounded _ (by omega) ?_
  rw [abs_div, abs_of_pos h0, div_le_iff₀ h0, pow_add]
  have h3 : 1 ≤ 2 ^ k * y := by rwa [div_le_iff₀' hp] at h2
  calc |x| ≤ 2 ^ j * 1 := by rwa [mul_one]
    _ ≤ 2 ^ j * (2 ^ k * y) := mul_le_mul_of_nonneg_left h3 (by positivity)
    _ = _ := by ring

theorem Pos.add {k : Nat} {a b : Double} (hk : k < 1000) (ha : Double.Pos k a) (hb : Double.Pos k b) : Double.Pos (k + 1) (Double.add a b) := by
  obtain ⟨x, hx, h1, h1'⟩ := ha
  obtain ⟨y, hy, h2, h2'⟩ := hb
  have hp : (0 : ℚ) < 2 ^ k := by positivity
  have h0 : (0 : ℚ) < 1 / 2 ^ k := by positivity
  rw [add_val hx hy]
  have e : (1 : ℚ) / 2 ^ (k + 1) = 1 / 2 ^ k / 2 := by rw [pow_succ]; field_simp
  refine pos_of_rounded _ (by omega) ?_ ?_
  · rw [e]
    linarith
  · rw [pow_succ]
    linarith

theorem Pos.mul {j k : Nat} {a b : Double} (hk : j + k ≤ 1000) (ha : Double.Pos j a) (hb : Double.Pos k b) : Double.Pos (j + k) (Double.mul a b) := by
  obtain ⟨x, hx, h1, h1'⟩ := ha
  obtain ⟨y, hy, h2, h2'⟩ := hb
  have hx0 : 0 < x := lt_of_lt_of_le (by positivity) h1
  have hy0 : 0 < y := lt_of_lt_of_le (by positivity) h2
  rw [mul_val hx hy]
  refine pos_of_rounded _ (by omega) ?_ ?_
  · rw [pow_add, ← div_div, div_eq_mul_one_div (1 / 2 ^ j)]
    exact mul_le_mul h1 h2 (by positivity) hx0.le
  · rw [pow_add]
    exact mul_le_mul h1' h2' hy0.le (by positivity)

theorem Pos.div {j k : Nat} {a b : Double} (hk : j + k ≤ 1000) (ha : Double.Pos j a) (hb : Double.Pos k b) : Double.Pos (j + k) (Double.div a b) := by
  obtain ⟨x, hx, h1, h1'⟩ := ha
  obtain ⟨y, hy, h2, h2'⟩ := hb
  have hj : (0 : ℚ) < 2 ^ j := by positivity
  have hp : (0 : ℚ) < 2 ^ k := by positivity
  have hx0 : 0 < x := lt_of_lt_of_le (by positivity) h1
  have hy0 : 0 < y := lt_of_lt_of_le (by positivity) h2
  rw [div_val hx hy hy0.ne']
  refine pos_of_rounded _ (by omega) ?_ ?_
  · rw [pow_add, ← div_div]
    exact div_le_div₀ hx0.le h1 hy0 h2'
  · rw [div_le_iff₀ hy0, pow_add]
    have h3 : 1 ≤ 2 ^ k * y := by rwa [div_le_iff₀' hp] at h2
    calc x ≤ 2 ^ j * 1 := by rwa [mul_one]
      _ ≤ 2 ^ j * (2 ^ k * y) := mul_le_mul_of_nonneg_left h3 (by positivity)
      _ = _ := by ring

/-! ## Integers -/

theorem clamp_abs (n : Int) : |((clamp n : Int) : ℚ)| ≤ 2 ^ 64 := by
  have h : |clamp n| ≤ 2 ^ 64 := by
    unfold clamp
    rw [abs_le]
    omega
  exact_mod_cast h

theorem int_mag (log : Double → Double) (n : Int) : Double.Mag 64 ((Double.ops log).ofInt n) := mag_of_rounded _ (by omega) (clamp_abs n)

/-- Positive integers are converted to numbers from 1 to `2^64`. -/
theorem int_range (log : Double → Double) {n : Int} (h : 1 ≤ n) : ∃ x : ℚ, Double.val ((Double.ops log).ofInt n) = .fin x ∧ 1 ≤ x ∧ x ≤ 2 ^ 64 := by
  obtain ⟨x, hx, hk⟩ := int_mag log n
  refine ⟨x, hx, ?_, (abs_le.1 hk).2⟩
  have e := val_rounded false (small (k := 64) (by omega) (clamp_abs n))
  have hx' : Double.val (Double.rounded false (clamp n)) = .fin x := hx
  rw [e] at hx'
  cases hx'
  have h1 : (1 : ℚ) ≤ clamp n := by
    have : 1 ≤ clamp n := by
      unfold clamp
      omega
    exact_mod_cast this
  have := rnd_mono h1
  have e1 := rnd_pow (k := 0) (by omega)
  rw [pow_zero] at e1
  rwa [e1] at this

theorem int_zero (log : Double → Double) : Double.val ((Double.ops log).ofInt 0) = .fin 0 := by
  have : (Double.ops log).ofInt 0 = ⟨false, 0⟩ := by
    show Double.rounded false _ = _
    have h : clamp 0 = 0 := rfl
    rw [h]
    have hn : nearestBits 0 = 0 := by
      have := nearestBits_value (b := 0) (by norm_num)
      rwa [value_zero] at this
    simp [Double.rounded, hn]
  rw [this]
  simp [Double.val, value_zero]

theorem rnd_int_nonneg (log : Double → Double) {n : Int} (h : 0 ≤ n) : ∃ x : ℚ, Double.val ((Double.ops log).ofInt n) = .fin x ∧ 0 ≤ x ∧ x ≤ 2 ^ 64 := by
  rcases h.lt_or_eq with h | rfl
  · obtain ⟨x, hx, h1, h2⟩ := int_range log h
    exact ⟨x, hx, by linarith, h2⟩
  · exact ⟨0, int_zero log, le_rfl, by positivity⟩

/-! ## The greatest and the lowest double -/

/-- The greatest double. -/
def greatest : ℚ := value (2047 * 2 ^ 52 - 1)

theorem greatest_eq : greatest = (2 ^ 53 - 1) * 2 ^ 971 := by
  unfold greatest
  rw [Grisu.value_eq]
  have h1 : Grisu.sig (2047 * 2 ^ 52 - 1) = 2 ^ 53 - 1 := by decide +kernel
  have h2 : Grisu.ex (2047 * 2 ^ 52 - 1) = 971 := by decide +kernel
  rw [h1, h2]
  norm_num

theorem greatest_large : (2 : ℚ) ^ 1001 ≤ greatest := by
  rw [greatest_eq, show (1001 : ℕ) = 30 + 971 by norm_num, pow_add]
  exact mul_le_mul_of_nonneg_right (by norm_num) (by positivity)

theorem greatest_pos : 0 < greatest := lt_of_lt_of_le (by positivity) greatest_large

theorem overflow_eq : overflow = greatest + 2 ^ 970 := by
  have h6 : (2 : ℚ) ^ 971 = 2 ^ 970 * 2 := pow_succ 2 970
  rw [greatest_eq, h6]
  unfold overflow
  generalize (2 : ℚ) ^ 970 = a
  ring

theorem val_max (log : Double → Double) : Double.val (Double.ops log).maxVal = .fin greatest := by
  have h : ((2047 * 2 ^ 52 - 1 : Fin (2 ^ 63))).val = 2047 * 2 ^ 52 - 1 := by decide +kernel
  simp only [Double.val, Double.ops, h]
  rw [if_pos (by norm_num)]
  rfl

theorem val_lowest (log : Double → Double) : Double.val (Double.ops log).lowest = .fin (-greatest) := by
  have h : ((2047 * 2 ^ 52 - 1 : Fin (2 ^ 63))).val = 2047 * 2 ^ 52 - 1 := by decide +kernel
  simp only [Double.val, Double.ops, h]
  rw [if_pos (by norm_num)]
  rfl

theorem rnd_greatest : rnd greatest = greatest := rnd_value (by norm_num)

/-- A number within half the distance to the double before is rounded up. -/
theorem le_rnd_stay {b : Nat} {x : ℚ} (h0 : 0 ≤ x) (hx : x < overflow) (h : (value (b - 1) + value b) / 2 < x) : value b ≤ rnd x := by
  have n := (nearestBits_spec h0 hx).2 b
  unfold rnd
  rw [if_neg (not_lt.2 h0)]
  by_contra hn
  have hlt : nearestBits x < b := by
    by_contra hle
    exact hn (Grisu.value_strictMono.monotone (not_lt.1 hle))
  have h3 : value (nearestBits x) ≤ value (b - 1) := Grisu.value_strictMono.monotone (by omega)
  have h4 : value (b - 1) < value b := Grisu.value_strictMono (by omega)
  generalize value (nearestBits x) = r at *
  generalize value (b - 1) = p at *
  generalize value b = q at *
  rcases abs_cases (x - r) with ⟨e1, _⟩ | ⟨e1, _⟩ <;> rcases abs_cases (x - q) with ⟨e2, _⟩ | ⟨e2, _⟩ <;> rw [e1, e2] at n <;> linarith

/-- The lowest double absorbs the addition of small numbers. -/
theorem lowest_absorb {l : ℚ} (h : |l| ≤ 2 ^ 11) : |-greatest + l| < overflow ∧ rnd (-greatest + l) = -greatest := by
  obtain ⟨h1, h2⟩ := abs_le.1 h
  have h3 : (2 : ℚ) ^ 11 < 2 ^ 970 := pow_lt_pow_right₀ (by norm_num) (by norm_num)
  have h4 := greatest_large
  have h5 : (2 : ℚ) ^ 970 < 2 ^ 1001 := pow_lt_pow_right₀ (by norm_num) (by norm_num)
  have hb : value (2047 * 2 ^ 52 - 1 - 1) = greatest - 2 ^ 971 := by
    rw [greatest_eq, Grisu.value_eq]
    have h1 : Grisu.sig (2047 * 2 ^ 52 - 1 - 1) = 2 ^ 53 - 2 := by decide +kernel
    have h2 : Grisu.ex (2047 * 2 ^ 52 - 1 - 1) = ((971 : ℕ) : ℤ) := by decide +kernel
    rw [h1, h2, zpow_natCast]
    generalize (2 : ℚ) ^ 971 = a
    norm_num
    ring
  have h6 : (2 : ℚ) ^ 971 = 2 ^ 970 * 2 := pow_succ 2 970
  have e : -greatest + l = -(greatest - l) := by ring
  have hov := overflow_eq
  have hg : value (2047 * 2 ^ 52 - 1) = greatest := rfl
  have hs := half_top
  have hlt : greatest - l < overflow := by
    rw [hov]
    clear hs hb hov h6
    generalize (2 : ℚ) ^ 970 = a at *
    generalize (2 : ℚ) ^ 11 = b at *
    generalize (2 : ℚ) ^ 1001 = c at *
    generalize greatest = g at *
    linarith
  have h0 : 0 ≤ greatest - l := by
    clear hs hb hov h6
    generalize (2 : ℚ) ^ 970 = a at *
    generalize (2 : ℚ) ^ 11 = b at *
    generalize (2 : ℚ) ^ 1001 = c at *
    generalize greatest = g at *
    linarith
  refine ⟨by rw [e, abs_neg, abs_of_nonneg h0]; exact hlt, ?_⟩
  rw [e, rnd_neg, neg_inj]
  apply le_antisymm
  · refine (rnd_stay (b := 2047 * 2 ^ 52 - 1) (by norm_num) ?_).trans_eq hg
    rw [Nat.sub_add_cancel (by norm_num), hs]
    exact hlt
  · refine hg.symm.trans_le (le_rnd_stay h0 hlt ?_)
    rw [hb, hg, h6]
    clear hs hb hov h6
    generalize (2 : ℚ) ^ 970 = a at *
    generalize (2 : ℚ) ^ 11 = b at *
    generalize (2 : ℚ) ^ 1001 = c at *
    generalize greatest = g at *
    linarith

/-! ## The laws -/

theorem lp_mag {log : Double → Double} (hl : LogLaw log) {lp : Double} (h : IsLp (Double.ops log) lp) : Double.Mag 11 lp := by
  have pos : ∀ n : Int, 1 ≤ n → Double.Mag 10 (log ((Double.ops log).ofInt n)) := by
    intro n hn
    obtain ⟨x, hx, h1, h2⟩ := int_range log hn
    exact hl _ x hx (by linarith)
  obtain ⟨t, ht, rfl | ⟨f, hf, rfl⟩⟩ := h
  · exact Mag.add (k := 10) (by omega) ⟨0, int_zero log, by rw [abs_zero]; positivity⟩ (Mag.opposite (pos t ht))
  · exact Mag.add (k := 10) (by omega) (pos _ (by omega)) (Mag.opposite (pos t ht))

theorem lt_fin {log : Double → Double} {a b : Double} {x y : ℚ} (ha : Double.val a = .fin x) (hb : Double.val b = .fin y) :
    (Double.ops log).lt a b = decide (x < y) := by
  show Ext.lt (Double.val a) (Double.val b) = _
  rw [ha, hb]
  rfl

theorem below_greatest {k : Nat} (hk : k ≤ 1000) {x : ℚ} (h : |x| ≤ 2 ^ k) : |x| < greatest :=
  (h.trans (pow_le_pow_right₀ (by norm_num) hk)).trans_lt ((pow_lt_pow_right₀ (by norm_num) (by norm_num)).trans_le greatest_large)

/-- The laws of scores hold for doubles. -/
def doubleScoreLaws {log : Double → Double} (hl : LogLaw log) : ScoreLaws (Double.ops log) where
  Good := Double.Mag 900
  zero := Mag.mono (by omega) (int_mag log 0)
  step x lp hx h := Mag.absorb (by omega) (by omega) hx (lp_mag hl h)
  above := by
    rintro d ⟨x, hx, h⟩
    rw [lt_fin (val_lowest log) hx, decide_eq_true_iff]
    exact (abs_lt.1 (below_greatest (by omega) h)).1
  notGood := by
    rintro ⟨x, hx, h⟩
    rw [val_lowest] at hx
    cases hx
    have := below_greatest (by omega) h
    rw [abs_neg, abs_of_pos greatest_pos] at this
    exact lt_irrefl _ this
  dead := by
    intro d lp hd h
    obtain ⟨l, hlv, hlm⟩ := lp_mag hl h
    obtain ⟨h1, h2⟩ := lowest_absorb hlm
    obtain ⟨x, hx, hge⟩ : ∃ x, Double.val d = .fin x ∧ -greatest ≤ x := by
      rcases hd with rfl | ⟨x, hx, hk⟩
      · exact ⟨_, val_lowest log, le_rfl⟩
      · exact ⟨x, hx, (abs_lt.1 (below_greatest (by omega) hk)).1.le⟩
    have e : Double.val ((Double.ops log).add (Double.ops log).lowest lp) = .fin (-greatest) := by
      show Double.val (Double.add _ _) = _
      rw [add_val (val_lowest log) hlv, val_rounded _ h1, h2]
    rw [lt_fin hx e, decide_eq_false_iff_not]
    exact not_lt.2 hge

/-- The value of an exact result. -/
theorem val_rounded_cases (s : Bool) (x : ℚ) : Double.val (Double.rounded s x) = .top ∧ overflow ≤ x ∨ Double.val (Double.rounded s x) = .bot ∧ x ≤ -overflow ∨
    Double.val (Double.rounded s x) = .fin (rnd x) ∧ |x| < overflow := by
  by_cases h1 : overflow ≤ x
  · exact Or.inl ⟨val_rounded_top s h1, h1⟩
  · by_cases h2 : x ≤ -overflow
    · exact Or.inr (Or.inl ⟨val_rounded_bot s h2, h2⟩)
    · have h : |x| < overflow := abs_lt.2 ⟨not_le.1 h2, not_le.1 h1⟩
      exact Or.inr (Or.inr ⟨val_rounded s h, h⟩)

theorem val_rounded_ne_nan (s : Bool) (x : ℚ) : Double.val (Double.rounded s x) ≠ .nan := by
  rcases val_rounded_cases s x with h | h | h <;> rw [h.1] <;> simp

theorem val_rounded_mono (s t : Bool) {x y : ℚ} (h : x ≤ y) : Ext.lt (Double.val (Double.rounded t y)) (Double.val (Double.rounded s x)) = false := by
  have h0 := overflow_pos
  rcases val_rounded_cases s x with ⟨h1, h2⟩ | ⟨h1, h2⟩ | ⟨h1, h2⟩ <;> rcases val_rounded_cases t y with ⟨h3, h4⟩ | ⟨h3, h4⟩ | ⟨h3, h4⟩ <;> rw [h1, h3] <;>
    simp only [Ext.lt, decide_eq_false_iff_not, not_lt]
  · exfalso; linarith
  · rw [abs_lt] at h4; exfalso; linarith
  · rw [abs_lt] at h2; exfalso; linarith
  · exact rnd_mono h

/-- The laws of order hold for doubles. -/
def doubleOrderLaws {log : Double → Double} (hl : LogLaw log) : OrderLaws (Double.ops log) where
  Ok d := Double.val d ≠ .nan
  lowest := by rw [val_lowest]; simp
  zero := by rw [int_zero]; simp
  step := by
    intro d lp hd h
    obtain ⟨l, hlv, _⟩ := lp_mag hl h
    show Double.val (Double.add d lp) ≠ _
    cases e : Double.val d with
    | fin x => rw [add_val e hlv]; exact val_rounded_ne_nan _ _
    | nan => exact absurd e hd
    | top => unfold Double.add; rw [e, hlv]; simp [e]
    | bot => unfold Double.add; rw [e, hlv]; simp [e]
  asymm := by
    intro a b ha hb h
    have h : Ext.lt (Double.val a) (Double.val b) = true := h
    show Ext.lt (Double.val b) (Double.val a) = false
    revert ha hb h
    generalize Double.val a = x
    generalize Double.val b = y
    rcases x with _ | x | _ | _ <;> rcases y with _ | y | _ | _ <;> simp [Ext.lt]
    exact fun h => h.le
  leTrans := by
    intro a b c ha hb hc h h'
    have h : Ext.lt (Double.val b) (Double.val a) = false := h
    have h' : Ext.lt (Double.val c) (Double.val b) = false := h'
    show Ext.lt (Double.val c) (Double.val a) = false
    revert ha hb hc h h'
    generalize Double.val a = x
    generalize Double.val b = y
    generalize Double.val c = z
    rcases x with _ | x | _ | _ <;> rcases y with _ | y | _ | _ <;> rcases z with _ | z | _ | _ <;> simp [Ext.lt]
    exact fun h h' => h.trans h'
  mono := by
    intro a b lp ha hb hlp h
    obtain ⟨l, hlv, _⟩ := lp_mag hl hlp
    have h : Ext.lt (Double.val b) (Double.val a) = false := h
    show Ext.lt (Double.val (Double.add b lp)) (Double.val (Double.add a lp)) = false
    have sum : ∀ d, (∃ x, Double.val d = .fin x ∧ Double.add d lp = Double.rounded (d.neg && lp.neg) (x + l)) ∨
        (Double.val d = .top ∧ Double.val (Double.add d lp) = .top) ∨ (Double.val d = .bot ∧ Double.val (Double.add d lp) = .bot) ∨ Double.val d = .nan := by
      intro d
      cases e : Double.val d with
      | fin x => exact Or.inl ⟨x, rfl, add_val e hlv⟩
      | nan => simp
      | top => right; left; refine ⟨rfl, ?_⟩; unfold Double.add; rw [e, hlv]; exact e
      | bot => right; right; left; refine ⟨rfl, ?_⟩; unfold Double.add; rw [e, hlv]; exact e
    rcases sum a with ⟨x, x1, x2⟩ | ⟨x1, x2⟩ | ⟨x1, x2⟩ | x1
    · rcases sum b with ⟨y, y1, y2⟩ | ⟨y1, y2⟩ | ⟨y1, y2⟩ | y1
      · rw [x1, y1] at h
        have h : x ≤ y := by simpa [Ext.lt] using h
        rw [x2, y2]
        exact val_rounded_mono _ _ (by linarith)
      · rw [y2]
        cases Double.val (Double.add a lp) <;> rfl
      · rw [x1, y1] at h
        exact absurd h (by simp [Ext.lt])
      · exact absurd y1 hb
    · rcases sum b with ⟨y, y1, y2⟩ | ⟨y1, y2⟩ | ⟨y1, y2⟩ | y1
      · rw [x1, y1] at h
        exact absurd h (by simp [Ext.lt])
      · rw [x2, y2]; rfl
      · rw [x1, y1] at h
        exact absurd h (by simp [Ext.lt])
      · exact absurd y1 hb
    · rw [x2]
      cases Double.val (Double.add b lp) <;> rfl
    · exact absurd x1 ha

theorem isFinite_of_fin {d : Double} {x : ℚ} (h : Double.val d = .fin x) : d.isFinite = true := by
  unfold Double.val at h
  unfold Double.isFinite
  split at h
  · next hc => exact decide_eq_true hc
  · split at h
    · split at h <;> cases h
    · cases h

theorem fin_of_isFinite {d : Double} (h : d.isFinite = true) : ∃ x, Double.val d = .fin x := by
  unfold Double.isFinite at h
  unfold Double.val
  rw [if_pos (of_decide_eq_true h)]
  exact ⟨_, rfl⟩

theorem lit_val (log : Double → Double) (m : Int) (e : Nat) : ∃ x : ℚ, Double.val ((Double.ops log).lit m e) = .fin x ∧ (0 ≤ m → 0 ≤ x) := by
  have h1 := clamp_abs m
  have h2 : |((clamp m : Int) : ℚ) / 10 ^ e| ≤ 2 ^ 64 := by
    rw [abs_div, abs_of_pos (by positivity : (0 : ℚ) < 10 ^ e)]
    exact (div_le_self (abs_nonneg _) (one_le_pow₀ (by norm_num))).trans h1
  refine ⟨_, val_rounded false (small (by omega) h2), fun hm => rnd_nonneg ?_⟩
  have : (0 : ℚ) ≤ (clamp m : Int) := by
    have : 0 ≤ clamp m := by unfold clamp; omega
    exact_mod_cast this
  positivity

/-- The laws of the environment hold for doubles. -/
def doubleEnvLaws {log : Double → Double} {srt : List (StatItem Double) → List (StatItem Double)} {ord : PairMap → PairMap} {gam : List Double → Nat → Double}
    (H : LibraryLaws log srt ord gam) : EnvLaws (Double.env log srt ord gam) where
  Mag := Double.Mag
  Pos := Double.Pos
  mono h := Mag.mono h
  monoPos h := Pos.mono h
  posMag := Pos.mag
  int n := int_mag log n
  intPos n h := by
    obtain ⟨x, hx, h1, h2⟩ := int_range log h
    refine ⟨x, hx, le_trans ?_ h1, h2⟩
    rw [div_le_one (by positivity)]
    exact one_le_pow₀ (by norm_num)
  one := by
    refine ⟨1, ?_, by norm_num, by norm_num⟩
    have e := val_rounded false (small (x := ((clamp 1 : Int) : ℚ)) (k := 64) (by omega) (clamp_abs 1))
    have e1 := rnd_pow (k := 0) (by omega)
    rw [pow_zero] at e1
    have e2 : ((clamp 1 : Int) : ℚ) = 1 := by
      have : clamp 1 = 1 := by decide
      rw [this]
      rfl
    rw [e2, e1] at e
    show Double.val (Double.rounded false ((clamp 1 : Int) : ℚ)) = _
    rw [e2]
    exact e
  add hk hx hy := Mag.add hk hx hy
  sub hk hx hy := Mag.add hk hx (Mag.opposite hy)
  absorbAdd h hk hx hy := Mag.absorb h hk hx hy
  absorbSub h hk hx hy := Mag.absorb h hk hx (Mag.opposite hy)
  mul hk hx hy := Mag.mul hk hx hy
  div hk hx hy := Mag.div hk hx hy
  log := fun ⟨x, hx, h1, _⟩ => H.log _ x hx (lt_of_lt_of_le (by positivity) h1)
  addPos hk hx hy := Pos.add hk hx hy
  addZero := by
    rintro k d hk ⟨x, hx, h1, h2⟩
    show Double.Pos k (Double.add ((Double.ops log).ofInt 0) d)
    rw [add_val (int_zero log) hx, zero_add]
    exact pos_of_rounded _ (by omega) h1 h2
  mulPos hk hx hy := Pos.mul hk hx hy
  divPos hk hx hy := Pos.div hk hx hy
  gamma ns hn h i hi := by
    refine H.gamma _ (by simpa using hn) ?_ i hi
    intro p hp
    obtain ⟨n, hn, rfl⟩ := List.mem_map.1 hp
    exact int_range log (h n hn)
  below := by
    rintro d ⟨x, hx, h⟩
    show (Double.ops log).lt (Double.opposite _) (Double.opposite d) = true
    rw [lt_fin (x := -greatest) (y := -x), decide_eq_true_iff]
    · exact neg_lt_neg (abs_lt.1 (below_greatest (by omega) h)).2
    · rw [val_opposite]
      show Ext.neg (Double.val (Double.ops log).maxVal) = _
      rw [val_max]
      rfl
    · rw [val_opposite, hx]
      rfl
  top := by
    show (Double.ops log).lt (Double.ops log).maxVal ((Double.ops log).ofInt 0) = false
    rw [lt_fin (val_max log) (int_zero log), decide_eq_false_iff_not]
    exact not_lt.2 greatest_pos.le
  factor n := by
    obtain ⟨x, hx, h1, _⟩ := rnd_int_nonneg log (Int.natCast_nonneg n)
    obtain ⟨y, hy, h2⟩ := lit_val log 13 1
    show 0 ≤ (Double.ops log).trunc (Double.mul ((Double.ops log).ofInt n) ((Double.ops log).lit 13 1))
    rw [mul_val hx hy]
    have h0 : 0 ≤ x * y := mul_nonneg h1 (h2 (by norm_num))
    show 0 ≤ (match Double.val _ with | .fin x => if 0 ≤ x then ⌊x⌋ else ⌈x⌉ | _ => 0 : Int)
    rcases val_rounded_cases (((Double.ops log).ofInt n).neg ^^ ((Double.ops log).lit 13 1).neg) (x * y) with h | h | h
    · rw [h.1]; exact le_rfl
    · rw [h.1]; exact le_rfl
    · rw [h.1]
      simp only [if_pos (rnd_nonneg h0)]
      exact Int.floor_nonneg.2 (rnd_nonneg h0)
  order := H.order
  sort l h := H.sort l fun a ha => by
    rcases h a ha with h | ⟨x, hx, _⟩
    · rw [h]
      exact isFinite_of_fin (val_max log)
    · exact isFinite_of_fin hx

theorem divides_finite (log : Double → Double) {a b : Int} (ha : 0 ≤ a) (hb : 1 ≤ b) :
    ∃ x : ℚ, Double.val ((Double.ops log).div ((Double.ops log).ofInt a) ((Double.ops log).ofInt b)) = .fin x := by
  obtain ⟨x, hx, h1, h2⟩ := rnd_int_nonneg log ha
  obtain ⟨y, hy, h3, h4⟩ := int_range log hb
  have hy0 : 0 < y := by linarith
  have : |x / y| ≤ 2 ^ 64 := by
    rw [abs_of_nonneg (by positivity), div_le_iff₀ hy0]
    nlinarith
  refine ⟨rnd (x / y), ?_⟩
  show Double.val (Double.div _ _) = _
  rw [div_val hx hy hy0.ne']
  exact val_rounded _ (small (by omega) this)

/-- `1. / 0` is infinite. -/
theorem inv_zero (log : Double → Double) : Double.val ((Double.ops log).div ((Double.ops log).ofInt 1) ((Double.ops log).ofInt 0)) = .top := by
  obtain ⟨x, hx, h1, _⟩ := int_range log (le_refl 1)
  have n0 : ∀ n : Int, 0 ≤ n → ((Double.ops log).ofInt n).neg = false := by
    intro n hn
    have : 0 ≤ clamp n := by unfold clamp; omega
    have : (0 : ℚ) ≤ (clamp n : Int) := by exact_mod_cast this
    show (if _ then false else decide (((clamp n : Int) : ℚ) < 0)) = false
    split
    · rfl
    · simpa using this
  show Double.val (Double.div _ _) = _
  unfold Double.div
  rw [hx, int_zero]
  simp only [if_true, if_neg (by linarith : ¬ x = 0), n0 1 (by omega), n0 0 (by omega)]
  decide +kernel

/-- The laws of probabilities hold for doubles. -/
def doubleProbLaws {log : Double → Double} (hl : LogLaw log) : ProbLaws (Double.ops log) where
  Ok d := Double.val d ≠ .nan
  div a b ha hb := by
    obtain ⟨x, hx⟩ := divides_finite log ha hb
    rw [hx]
    simp
  inv b hb := by
    rcases hb.lt_or_eq with h | rfl
    · obtain ⟨x, hx⟩ := divides_finite log (show (0 : Int) ≤ 1 by omega) (show 1 ≤ b by omega)
      rw [hx]
      simp
    · rw [inv_zero]
      simp
  lit m e := by
    obtain ⟨x, hx, _⟩ := lit_val log m e
    rw [hx]
    simp
  int n := by
    obtain ⟨x, hx, _⟩ := int_mag log n
    rw [hx]
    simp
  asymm := (doubleOrderLaws hl).asymm
  leTrans := (doubleOrderLaws hl).leTrans

/-- The laws of finite results hold for doubles. -/
theorem doubleFiniteLaws (log : Double → Double) : FiniteLaws (Double.ops log) where
  div a b ha hb := isFinite_of_fin (divides_finite log ha hb).choose_spec
  inv b x hb hx := by
    rcases hb.lt_or_eq with h | rfl
    · exact min_finite (isFinite_of_fin (divides_finite log (show (0 : Int) ≤ 1 by omega) (show 1 ≤ b by omega)).choose_spec) hx
    · obtain ⟨y, hy⟩ := fin_of_isFinite hx
      unfold FloatOps.min
      rw [if_pos]
      · exact hx
      · show Ext.lt (Double.val x) (Double.val _) = true
        rw [hy, inv_zero]
        rfl
  lit m e := isFinite_of_fin (lit_val log m e).choose_spec.1
  int n := isFinite_of_fin (int_mag log n).choose_spec.1

/-! ## Ties -/

theorem nearestBits_tie {v : ℚ} {c : Nat} (h0 : 0 ≤ v) (h : v < overflow) (hc : c ≠ nearestBits v) (he : |v - value c| = |v - value (nearestBits v)|) :
    nearestBits v % 2 = 0 := by
  have sm := Grisu.value_strictMono
  have m := sm.monotone
  have htop : v < value (2047 * 2 ^ 52) := by
    rw [value_top]
    refine h.trans ?_
    unfold overflow
    rw [show (1024 : ℕ) = 54 + 970 by norm_num, pow_add]
    exact mul_lt_mul_of_pos_right (by norm_num) (by positivity)
  have h63 : v < value (0 + 2 ^ 63) := lt_of_lt_of_le htop (m (by norm_num))
  obtain ⟨f1, f2⟩ := floorBits_spec 63 0 (by rw [value_zero]; exact h0) h63
  have hlt : floorBits v 63 0 < 2047 * 2 ^ 52 := by
    by_contra hn
    have := m (not_lt.1 hn)
    linarith
  unfold nearestBits at *
  simp only [if_neg (not_le.2 hlt)] at *
  clear h h63 htop hlt
  generalize floorBits v 63 0 = n at *
  have e1 : |v - value n| = v - value n := abs_of_nonneg (by linarith)
  have e2 : |v - value (n + 1)| = value (n + 1) - v := by rw [abs_of_neg (by linarith)]; ring
  split
  · next hd =>
    rw [if_pos hd, e1] at he
    rw [if_pos hd] at hc
    rcases hd with hd | hd
    · exfalso
      rcases Nat.lt_or_ge n c with hnc | hnc
      · have := m hnc
        rw [abs_of_neg (by linarith [m hnc, f2])] at he
        have : value (n + 1) ≤ value c := m hnc
        linarith
      · have := sm (lt_of_le_of_ne hnc hc)
        rw [abs_of_nonneg (by linarith)] at he
        linarith
    · exact hd.2
  · next hd =>
    rw [if_neg hd, e2] at he
    rw [if_neg hd] at hc
    push Not at hd
    by_contra ho
    have h1 : value n + value (n + 1) < 2 * v := lt_of_le_of_ne hd.1 fun e => by
      have := hd.2 e.symm
      omega
    rcases Nat.lt_or_ge c (n + 1) with hnc | hnc
    · have := m (Nat.le_of_lt_succ hnc)
      rw [abs_of_nonneg (by linarith)] at he
      linarith
    · have h2 := sm (lt_of_le_of_ne hnc hc.symm)
      rw [abs_of_neg (by linarith)] at he
      linarith

/-! ## Libraries for running the model -/

theorem roughLog_law : LogLaw roughLog := by
  intro d x hx h0
  unfold roughLog
  rw [hx]
  simp only [if_pos h0]
  refine mag_of_rounded _ (by omega) ?_
  have hp : 0 < 100 * (x + 1) := by linarith
  rw [abs_le, le_div_iff₀ hp, div_le_iff₀ hp]
  constructor <;> nlinarith

private theorem opp_lt {a b : Double} {x y : ℚ} (ha : Double.val a = .fin x) (hb : Double.val b = .fin y) :
    Ext.lt (Double.val (Double.opposite b)) (Double.val (Double.opposite a)) = decide (x < y) := by
  rw [val_opposite, val_opposite, ha, hb]
  simp [Ext.neg, Ext.lt]

private theorem insItem_doubles (log : Double → Double) {a : StatItem Double} {l : List (StatItem Double)} (ha : a.score.isFinite = true)
    (hl : ∀ b ∈ l, b.score.isFinite = true)
    (h : l.Pairwise fun a b => Ext.lt (Double.val (Double.opposite b.score)) (Double.val (Double.opposite a.score)) = false) :
    (insItem (Double.ops log) a l).Pairwise fun a b => Ext.lt (Double.val (Double.opposite b.score)) (Double.val (Double.opposite a.score)) = false := by
  obtain ⟨x, hx⟩ := fin_of_isFinite ha
  induction l with
  | nil => simp [insItem]
  | cons b l ih =>
    rw [List.pairwise_cons] at h
    obtain ⟨y, hy⟩ := fin_of_isFinite (hl b (by simp))
    unfold insItem
    show List.Pairwise _ (if Ext.lt (Double.val (Double.opposite b.score)) (Double.val (Double.opposite a.score)) = true then _ else _)
    rw [opp_lt hx hy]
    split
    · next hlt =>
      rw [List.pairwise_cons]
      refine ⟨fun c hc => ?_, ih (fun c hc => hl c (by simp [hc])) h.2⟩
      rcases List.mem_cons.1 ((insItem_perm _ a l).mem_iff.1 hc) with rfl | hc
      · rw [opp_lt hy hx]
        simp only [decide_eq_true_eq] at hlt
        simp [hlt.le]
      · exact h.1 c hc
    · next hlt =>
      rw [List.pairwise_cons]
      refine ⟨fun c hc => ?_, List.pairwise_cons.2 h⟩
      simp only [decide_eq_true_eq, not_lt] at hlt
      rcases List.mem_cons.1 hc with rfl | hc
      · rw [opp_lt hx hy]
        simp [hlt]
      · obtain ⟨z, hz⟩ := fin_of_isFinite (hl c (by simp [hc]))
        have h1 := h.1 c hc
        rw [opp_lt hy hz] at h1
        rw [opp_lt hx hz]
        simp only [decide_eq_false_iff_not, not_lt] at h1 ⊢
        exact h1.trans hlt

theorem sampleEnv_laws : LibraryLaws roughLog (insSort (Double.ops roughLog)) (fun p => p) plainGamma where
  log := roughLog_law
  sort l hl := by
    refine ⟨insSort_perm _ l, ?_⟩
    induction l with
    | nil => exact List.Pairwise.nil
    | cons a l ih =>
      refine insItem_doubles _ (hl a (by simp)) (fun b hb => hl b ?_) (ih fun b hb => hl b (by simp [hb]))
      simp [(insSort_perm _ l).mem_iff.1 hb]
  order p := .refl p
  gamma params _ h i _ := by
    unfold plainGamma
    rw [List.getD_eq_getElem?_getD]
    cases e : params[i]? with
    | none =>
      refine ⟨1, ?_, ?_, one_le_pow₀ (by norm_num)⟩
      · show Double.val ⟨false, 1023 * 2 ^ 52⟩ = _
        decide +kernel
      · rw [div_le_one (by positivity)]
        exact one_le_pow₀ (by norm_num)
    | some p =>
      obtain ⟨x, hx, h1, h2⟩ := h p (List.mem_of_getElem? e)
      refine ⟨x, hx, le_trans ?_ h1, h2.trans (pow_le_pow_right₀ (by norm_num) (by omega))⟩
      rw [div_le_one (by positivity)]
      exact one_le_pow₀ (by norm_num)

end VGram
