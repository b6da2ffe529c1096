import Mathlib.Tactic.Linarith
import Mathlib.Tactic.NormNum
import Mathlib.Tactic.Ring
import Verif.Proofs.Ieee
import Verif.Spec.Gamma

/-!
# Lemmas for the random variates of libstdc++
-/

namespace VGram

open Spec

variable {log sqrt : Double → Double} {pow : Double → Double → Double}

/-- A double has a value from `lo` to `hi`. -/
def Within (d : Double) (lo hi : ℚ) : Prop := ∃ x, Double.val d = .fin x ∧ lo ≤ x ∧ x ≤ hi

/-- The computed form of `Within`. -/
def within (d : Double) (lo hi : ℚ) : Bool :=
  match Double.val d with
  | .fin x => decide (lo ≤ x) && decide (x ≤ hi)
  | _ => false

theorem Within.of {d : Double} {lo hi : ℚ} (h : within d lo hi = true) : Within d lo hi := by
  unfold within at h
  split at h
  · next x e => exact ⟨x, e, by simpa using h⟩
  · simp at h

theorem rnd_between {x lo hi : ℚ} (h1 : lo ≤ x) (h2 : x ≤ hi) (e1 : rnd lo = lo) (e2 : rnd hi = hi) : lo ≤ rnd x ∧ rnd x ≤ hi :=
  ⟨e1 ▸ rnd_mono h1, e2 ▸ rnd_mono h2⟩

theorem abs_small {x lo hi : ℚ} (h1 : lo ≤ x) (h2 : x ≤ hi) (e1 : -2 ^ 200 ≤ lo) (e2 : hi ≤ 2 ^ 200) : |x| < overflow :=
  small (k := 200) (by omega) (abs_le.2 ⟨by linarith, by linarith⟩)

theorem within_rounded (s : Bool) {x lo hi : ℚ} (h1 : lo ≤ x) (h2 : x ≤ hi) (e1 : rnd lo = lo) (e2 : rnd hi = hi)
    (b1 : -2 ^ 200 ≤ lo) (b2 : hi ≤ 2 ^ 200) : Within (Double.rounded s x) lo hi :=
  ⟨_, val_rounded s (abs_small h1 h2 b1 b2), rnd_between h1 h2 e1 e2⟩

theorem within_mul {a b : Double} {x y lo hi : ℚ} (ha : Double.val a = .fin x) (hb : Double.val b = .fin y) (h1 : lo ≤ x * y) (h2 : x * y ≤ hi)
    (e1 : rnd lo = lo) (e2 : rnd hi = hi) (b1 : -2 ^ 200 ≤ lo) (b2 : hi ≤ 2 ^ 200) : Within (Double.mul a b) lo hi := by
  rw [mul_val ha hb]
  exact within_rounded _ h1 h2 e1 e2 b1 b2

theorem within_add {a b : Double} {x y lo hi : ℚ} (ha : Double.val a = .fin x) (hb : Double.val b = .fin y) (h1 : lo ≤ x + y) (h2 : x + y ≤ hi)
    (e1 : rnd lo = lo) (e2 : rnd hi = hi) (b1 : -2 ^ 200 ≤ lo) (b2 : hi ≤ 2 ^ 200) : Within (Double.add a b) lo hi := by
  rw [add_val ha hb]
  exact within_rounded _ h1 h2 e1 e2 b1 b2

theorem within_div {a b : Double} {x y lo hi : ℚ} (ha : Double.val a = .fin x) (hb : Double.val b = .fin y) (hy : y ≠ 0) (h1 : lo ≤ x / y) (h2 : x / y ≤ hi)
    (e1 : rnd lo = lo) (e2 : rnd hi = hi) (b1 : -2 ^ 200 ≤ lo) (b2 : hi ≤ 2 ^ 200) : Within (Double.div a b) lo hi := by
  rw [div_val ha hb hy]
  exact within_rounded _ h1 h2 e1 e2 b1 b2

theorem rnd_zero : rnd 0 = 0 := by decide +kernel

theorem rnd_opp {x : ℚ} (h : rnd x = x) : rnd (-x) = -x := by rw [rnd_neg, h]

/-! ## The normal variate -/

/-- The normal variate of a point `(x, y)` of the disc. -/
def bell (log sqrt : Double → Double) (y r2 : Double) : Double :=
  let O := Double.ops log
  O.add (O.mul (O.mul y (sqrt (O.div (O.mul (O.ofInt (-2)) (log r2)) r2))) (O.ofInt 1)) (O.ofInt 0)

theorem int_one (log : Double → Double) : Double.val ((Double.ops log).ofInt 1) = .fin 1 := by
  show Double.val (Double.rounded false (clamp 1 : Int)) = _
  decide +kernel

theorem int_neg_two (log : Double → Double) : Double.val ((Double.ops log).ofInt (-2)) = .fin (-2) := by
  show Double.val (Double.rounded false (clamp (-2) : Int)) = _
  decide +kernel

theorem root_within (hl : LogLaws log) (hs : SqrtLaw sqrt) {r2 : Double} {r B B' : ℚ} (hr : Double.val r2 = .fin r) (h0 : 0 < r) (h1 : r < 1)
    (hB : 4 * (1 / r - 1) ≤ B) (eB : rnd B = B) (hB' : B / r ≤ B') (eB' : rnd B' = B') (bB : B ≤ 2 ^ 200) (bB' : B' ≤ 2 ^ 200) :
    ∃ s : ℚ, Double.val (sqrt ((Double.ops log).div ((Double.ops log).mul ((Double.ops log).ofInt (-2)) (log r2)) r2)) = .fin s ∧ 0 ≤ s ∧ s ^ 2 ≤ 3 / 2 * B' := by
  obtain ⟨l, el, l1, l2⟩ := hl.unit r2 r hr h0 h1
  obtain ⟨m, em, m1, m2⟩ := within_mul (lo := 0) (hi := B) (int_neg_two log) el (by linarith) (by linarith) rnd_zero eB (by norm_num) bB
  obtain ⟨q, eq, q1, q2⟩ := within_div (lo := 0) (hi := B') em hr h0.ne' (div_nonneg m1 h0.le) ((div_le_div_of_nonneg_right m2 h0.le).trans hB') rnd_zero eB'
    (by norm_num) bB'
  obtain ⟨s, es, s1, s2⟩ := hs _ q eq q1
  refine ⟨s, es, s1, ?_⟩
  have := (abs_le.1 s2).2
  linarith

theorem bell_within (hl : LogLaws log) (hs : SqrtLaw sqrt) {yd r2 : Double} {y r B B' : ℚ} (hy : Double.val yd = .fin y) (hr : Double.val r2 = .fin r) (h0 : 0 < r) (h1 : r < 1)
    (hB : 4 * (1 / r - 1) ≤ B) (eB : rnd B = B) (hB' : B / r ≤ B') (eB' : rnd B' = B') (bB : B ≤ 2 ^ 200) (bB' : B' ≤ 2 ^ 200)
    (hn : y ^ 2 * (3 / 2 * B') ≤ (7 / 8) ^ 2) :
    (0 ≤ y → Within (bell log sqrt yd r2) 0 (7 / 8)) ∧ (y ≤ 0 → Within (bell log sqrt yd r2) (-(7 / 8)) 0) := by
  obtain ⟨s, es, s1, s2⟩ := root_within hl hs hr h0 h1 hB eB hB' eB' bB bB'
  have e78 : rnd (7 / 8) = 7 / 8 := by decide +kernel
  have hsq : (y * s) ^ 2 ≤ (7 / 8) ^ 2 := by
    rw [mul_pow]
    exact (mul_le_mul_of_nonneg_left s2 (sq_nonneg y)).trans hn
  have habs := abs_le_of_sq_le_sq' hsq (by norm_num)
  have rest : ∀ {lo hi : ℚ}, lo ≤ y * s → y * s ≤ hi → rnd lo = lo → rnd hi = hi → -2 ^ 200 ≤ lo → hi ≤ 2 ^ 200 → Within (bell log sqrt yd r2) lo hi := by
    intro lo hi k1 k2 k3 k4 k5 k6
    obtain ⟨a, ea, a1, a2⟩ := within_mul hy es k1 k2 k3 k4 k5 k6
    obtain ⟨b, eb, b1, b2⟩ := within_mul (lo := lo) (hi := hi) ea (int_one log) (by linarith) (by linarith) k3 k4 k5 k6
    exact within_add (lo := lo) (hi := hi) eb (int_zero log) (by linarith) (by linarith) k3 k4 k5 k6
  constructor
  · intro h
    exact rest (mul_nonneg h s1) habs.2 rnd_zero e78 (by norm_num) (by norm_num)
  · intro h
    exact rest habs.1 (mul_nonpos_of_nonpos_of_nonneg h s1) (rnd_opp e78) rnd_zero (by norm_num) (by norm_num)

/-! ## The gamma variate -/

theorem rnd_of_val {d : Double} {x : ℚ} (h : Double.val d = .fin x) : rnd x = x := by
  unfold Double.val at h
  split at h
  · next hb =>
    cases h
    split
    · exact rnd_opp (rnd_value hb)
    · exact rnd_value hb
  · split at h
    · split at h <;> cases h
    · cases h

theorem third_within (log : Double → Double) : Within ((Double.ops log).div ((Double.ops log).ofInt 1) ((Double.ops log).ofInt 3)) (1 / 4) (1 / 2) := by
  show Within (Double.div (Double.rounded false (clamp 1 : Int)) (Double.rounded false (clamp 3 : Int))) _ _
  exact Within.of (by decide +kernel)

theorem int_nine (log : Double → Double) : Double.val ((Double.ops log).ofInt 9) = .fin 9 := by
  show Double.val (Double.rounded false (clamp 9 : Int)) = _
  decide +kernel

/-- `__a1`, between any two doubles around `x - 1/4` and `x - 1/2`. -/
theorem a1_within {p : Double} {x lo hi : ℚ} (hp : Double.val p = .fin x) (h1 : lo ≤ x - 1 / 2) (h2 : x - 1 / 4 ≤ hi) (e1 : rnd lo = lo) (e2 : rnd hi = hi)
    (b1 : -2 ^ 200 ≤ lo) (b2 : hi ≤ 2 ^ 200) :
    Within ((Double.ops log).sub p ((Double.ops log).div ((Double.ops log).ofInt 1) ((Double.ops log).ofInt 3))) lo hi := by
  obtain ⟨t, et, t1, t2⟩ := third_within log
  exact within_add hp (y := -t) (by rw [val_opposite, et]; rfl) (by linarith) (by linarith) e1 e2 b1 b2

/-- `_M_a2`. -/
theorem a2_within (hs : SqrtLaw sqrt) {a : Double} {a1 : ℚ} (ha : Double.val a = .fin a1) (h1 : 1 / 2 ≤ a1) (h2 : a1 ≤ 2 ^ 64) :
    Within ((Double.ops log).div ((Double.ops log).ofInt 1) (sqrt ((Double.ops log).mul ((Double.ops log).ofInt 9) a))) 0 (3 / 4) := by
  have e4 : rnd 4 = 4 := by decide +kernel
  have e68 : rnd (2 ^ 68) = 2 ^ 68 := rnd_pow (by omega)
  have e1 : rnd (3 / 4) = 3 / 4 := by decide +kernel
  obtain ⟨m, em, m1, m2⟩ := within_mul (lo := 4) (hi := 2 ^ 68) (int_nine log) ha (by linarith) (by norm_num at h2 ⊢; linarith) e4 e68 (by norm_num) (by norm_num)
  obtain ⟨s, es, s1, s2⟩ := hs _ m em (by linarith)
  have hs1 : 4 / 3 ≤ s := by
    have := (abs_le.1 s2).1
    nlinarith
  exact within_div (int_one log) es (by linarith) (by positivity) ((div_le_iff₀ (by linarith)).2 (by linarith)) rnd_zero e1 (by norm_num) (by norm_num)

/-- `1 + a2 * n`: from 11/32 to 53/32, and on the same side of 1 as `n` of 0. -/
theorem v_within {a n : Double} {a2 x : ℚ} (ha : Double.val a = .fin a2) (h1 : 0 ≤ a2) (h2 : a2 ≤ 3 / 4) (hn : Double.val n = .fin x) (n1 : -(7 / 8) ≤ x) (n2 : x ≤ 7 / 8) :
    ∃ v, Double.val ((Double.ops log).add ((Double.ops log).ofInt 1) ((Double.ops log).mul a n)) = .fin v ∧ 11 / 32 ≤ v ∧ v ≤ 53 / 32 ∧ (x ≤ 0 → v ≤ 1) ∧ (0 ≤ x → 1 ≤ v) := by
  have e78 : rnd (21 / 32) = 21 / 32 := by decide +kernel
  have e18 : rnd (11 / 32) = 11 / 32 := by decide +kernel
  have e1 : rnd 1 = 1 := by decide +kernel
  have e2 : rnd (53 / 32) = 53 / 32 := by decide +kernel
  rcases le_total x 0 with hx | hx
  · obtain ⟨m, em, m1, m2⟩ := within_mul (lo := -(21 / 32)) (hi := 0) ha hn (by nlinarith) (by nlinarith) (rnd_opp e78) rnd_zero (by norm_num) (by norm_num)
    obtain ⟨v, ev, v1, v2⟩ := within_add (lo := 11 / 32) (hi := 1) (int_one log) em (by linarith) (by linarith) e18 e1 (by norm_num) (by norm_num)
    refine ⟨v, ev, v1, by linarith, fun _ => v2, fun h => ?_⟩
    obtain rfl : x = 0 := le_antisymm hx h
    obtain ⟨m', em', m1', m2'⟩ := within_mul (lo := 0) (hi := 0) ha hn (by simp) (by simp) rnd_zero rnd_zero (by norm_num) (by norm_num)
    obtain ⟨v', ev', v1', v2'⟩ := within_add (lo := 1) (hi := 1) (int_one log) em' (by linarith) (by linarith) e1 e1 (by norm_num) (by norm_num)
    have : v = v' := by
      have := ev.symm.trans ev'
      cases this
      rfl
    linarith
  · obtain ⟨m, em, m1, m2⟩ := within_mul (lo := 0) (hi := 21 / 32) ha hn (by positivity) (by nlinarith) rnd_zero e78 (by norm_num) (by norm_num)
    obtain ⟨v, ev, v1, v2⟩ := within_add (lo := 1) (hi := 53 / 32) (int_one log) em (by linarith) (by linarith) e1 e2 (by norm_num) (by norm_num)
    refine ⟨v, ev, by linarith, v2, fun h => ?_, fun _ => v1⟩
    obtain rfl : x = 0 := le_antisymm h hx
    obtain ⟨m', em', m1', m2'⟩ := within_mul (lo := 0) (hi := 0) ha hn (by simp) (by simp) rnd_zero rnd_zero (by norm_num) (by norm_num)
    obtain ⟨v', ev', v1', v2'⟩ := within_add (lo := 1) (hi := 1) (int_one log) em' (by linarith) (by linarith) e1 e1 (by norm_num) (by norm_num)
    have : v = v' := by
      have := ev.symm.trans ev'
      cases this
      rfl
    linarith

/-- `v * v * v`. -/
theorem cube_within {d : Double} {v : ℚ} (hv : Double.val d = .fin v) (h1 : 11 / 32 ≤ v) (h2 : v ≤ 53 / 32) :
    ∃ w, Double.val ((Double.ops log).mul ((Double.ops log).mul d d) d) = .fin w ∧ 1 / 32 ≤ w ∧ w ≤ 5 ∧ (v ≤ 1 → w ≤ 1) ∧ (1 ≤ v → 1 ≤ w) := by
  have k : ∀ {lo hi lo2 hi2 lo3 hi3 : ℚ}, 0 ≤ lo → lo ≤ v → v ≤ hi → lo2 ≤ lo * lo → hi * hi ≤ hi2 → lo3 ≤ lo2 * lo → hi2 * hi ≤ hi3 → 0 ≤ lo2 → 0 ≤ lo3 → rnd lo2 = lo2 → rnd hi2 = hi2 →
      rnd lo3 = lo3 → rnd hi3 = hi3 → hi2 ≤ 2 ^ 200 → hi3 ≤ 2 ^ 200 → Within ((Double.ops log).mul ((Double.ops log).mul d d) d) lo3 hi3 := by
    intro lo hi lo2 hi2 lo3 hi3 g0 g1 g2 g3 g4 g5 g6 g7 g8 r1 r2 r3 r4 b2 b3
    have hv0 : 0 ≤ v := g0.trans g1
    obtain ⟨m, em, m1, m2⟩ := within_mul (lo := lo2) (hi := hi2) hv hv (g3.trans (mul_le_mul g1 g1 g0 hv0)) ((mul_le_mul g2 g2 hv0 (hv0.trans g2)).trans g4) r1 r2
      (by have : (0 : ℚ) ≤ 2 ^ 200 := by positivity
          linarith) b2
    have hm0 : 0 ≤ m := g7.trans m1
    exact within_mul em hv (g5.trans (mul_le_mul m1 g1 g0 hm0)) ((mul_le_mul m2 g2 hv0 (hm0.trans m2)).trans g6) r3 r4
      (by have : (0 : ℚ) ≤ 2 ^ 200 := by positivity
          linarith) b3
  have e1 : rnd 1 = 1 := by decide +kernel
  have e4 : rnd (11 / 4) = 11 / 4 := by decide +kernel
  have e8 : rnd 5 = 5 := by decide +kernel
  have e64 : rnd (7 / 64) = 7 / 64 := by decide +kernel
  have e512 : rnd (1 / 32) = 1 / 32 := by decide +kernel
  obtain ⟨w, ew, w1, w2⟩ := k (lo := 11 / 32) (hi := 53 / 32) (lo2 := 7 / 64) (hi2 := 11 / 4) (lo3 := 1 / 32) (hi3 := 5) (by norm_num) h1 h2 (by norm_num) (by norm_num) (by norm_num)
    (by norm_num) (by norm_num) (by norm_num) e64 e4 e512 e8 (by norm_num) (by norm_num)
  refine ⟨w, ew, w1, w2, fun h => ?_, fun h => ?_⟩
  · obtain ⟨w', ew', _, w2'⟩ := k (lo := 11 / 32) (hi := 1) (lo2 := 7 / 64) (hi2 := 1) (lo3 := 1 / 32) (hi3 := 1) (by norm_num) h1 h (by norm_num) (by norm_num) (by norm_num)
      (by norm_num) (by norm_num) (by norm_num) e64 e1 e512 e1 (by norm_num) (by norm_num)
    rw [ew] at ew'
    cases ew'
    exact w2'
  · obtain ⟨w', ew', w1', _⟩ := k (lo := 1) (hi := 53 / 32) (lo2 := 1) (hi2 := 11 / 4) (lo3 := 1) (hi3 := 5) (by norm_num) h h2 (by norm_num) (by norm_num) (by norm_num)
      (by norm_num) (by norm_num) (by norm_num) e1 e4 e1 e8 (by norm_num) (by norm_num)
    rw [ew] at ew'
    cases ew'
    exact w1'

/-- The squeeze accepts numbers up to 15/16. -/
theorem not_rejected {a n v u : Double} {x y : ℚ} (hn : Double.val n = .fin x) (n1 : -(7 / 8) ≤ x) (n2 : x ≤ 7 / 8) (hu : Double.val u = .fin y) (hy : y ≤ 15 / 16) :
    Gamma.rejected (Double.math log sqrt pow) a n v u = false := by
  have e16 : rnd (1 / 16) = 1 / 16 := by decide +kernel
  have e15 : rnd (15 / 16) = 15 / 16 := by decide +kernel
  have e2 : rnd 2 = 2 := by decide +kernel
  have step : ∀ {d : Double}, Within d (-(1 / 16)) (1 / 16) → Within (Double.mul d n) (-(1 / 16)) (1 / 16) := by
    rintro d ⟨z, ez, z1, z2⟩
    exact within_mul ez hn (by nlinarith) (by nlinarith) (rnd_opp e16) e16 (by norm_num) (by norm_num)
  have h0 : Within ((Double.ops log).lit 331 4) (-(1 / 16)) (1 / 16) := by
    show Within (Double.rounded false ((clamp 331 : Int) / 10 ^ 4)) _ _
    exact Within.of (by decide +kernel)
  obtain ⟨z, ez, z1, z2⟩ := step (step (step (step h0)))
  obtain ⟨w, ew, w1, _⟩ := within_add (lo := 15 / 16) (hi := 2) (int_one log) (b := Double.opposite _) (y := -z) (by rw [val_opposite, ez]; rfl) (by linarith) (by linarith) e15 e2
    (by norm_num) (by norm_num)
  have : (Double.ops log).lt ((Double.ops log).sub ((Double.ops log).ofInt 1) (Double.mul (Double.mul (Double.mul (Double.mul ((Double.ops log).lit 331 4) n) n) n) n)) u = false := by
    rw [lt_fin (show Double.val ((Double.ops log).sub _ _) = _ from ew) hu]
    simp
    linarith
  unfold Gamma.rejected
  exact Bool.and_eq_false_iff.2 (Or.inl this)

/-! ## Running the sampler -/

theorem bell_eq (log sqrt : Double → Double) (y r : Double) : Double.bell log sqrt y r = bell log sqrt y r := by
  have h0 : clamp 0 = 0 := by decide
  have h1 : clamp 1 = 1 := by decide
  have h2 : clamp (-2) = -2 := by decide
  simp only [Double.bell, bell, Double.ops, h0, h1, h2]

theorem math_le {a b : Double} {x y : ℚ} (ha : Double.val a = .fin x) (hb : Double.val b = .fin y) : (Double.math log sqrt pow).le a b = decide (x ≤ y) := by
  show (Ext.lt (Double.val a) (Double.val b) || Double.eq a b) = _
  unfold Double.eq
  rw [ha, hb]
  simp [Ext.lt, le_iff_lt_or_eq]

theorem shape_eq (log sqrt : Double → Double) (p n : Double) : Double.shape sqrt p n =
    let O := Double.ops log
    let a := O.sub p (O.div (O.ofInt 1) (O.ofInt 3))
    let v := O.add (O.ofInt 1) (O.mul (O.div (O.ofInt 1) (sqrt (O.mul (O.ofInt 9) a))) n)
    O.mul (O.mul a (O.mul (O.mul v v) v)) (O.ofInt 1) := by
  have h1 : clamp 1 = 1 := by decide
  have h3 : clamp 3 = 3 := by decide
  have h9 : clamp 9 = 9 := by decide
  simp only [Double.shape, Double.ops, h1, h3, h9]

theorem times_within {A W : Double} {a w l h : ℚ} (ea : Double.val A = .fin a) (ew : Double.val W = .fin w) (k1 : l ≤ a * w) (k2 : a * w ≤ h) (k3 : rnd l = l) (k4 : rnd h = h)
    (k5 : 0 ≤ l) (k6 : h ≤ 2 ^ 200) : Within ((Double.ops log).mul ((Double.ops log).mul A W) ((Double.ops log).ofInt 1)) l h := by
  have k7 : (-2 ^ 200 : ℚ) ≤ l := le_trans (by norm_num) k5
  obtain ⟨m, em, m1, m2⟩ := within_mul ea ew k1 k2 k3 k4 k7 k6
  exact within_mul em (int_one log) (by linarith) (by linarith) k3 k4 k7 k6

/-- The bounds of a variate. -/
theorem shape_within (hs : SqrtLaw sqrt) {p n : Double} {x y lo hi : ℚ} (hp : Double.val p = .fin x) (hx : x ≤ 2 ^ 64) (h1 : lo ≤ x - 1 / 2) (h2 : x - 1 / 4 ≤ hi)
    (h3 : 1 / 2 ≤ lo) (h4 : hi ≤ 2 ^ 64) (e1 : rnd lo = lo) (e2 : rnd hi = hi) (hn : Double.val n = .fin y) (n1 : -(7 / 8) ≤ y) (n2 : y ≤ 7 / 8) :
    ∃ g, Double.val (Double.shape sqrt p n) = .fin g ∧ 1 / 2 ^ 10 ≤ g ∧ g ≤ 2 ^ 67 ∧ (y ≤ 0 → g ≤ hi) ∧ (0 ≤ y → lo ≤ g) ∧
      (∀ h, 5 * hi ≤ h → h ≤ 2 ^ 200 → rnd h = h → g ≤ h) ∧ ∀ l, 0 ≤ l → 32 * l ≤ lo → rnd l = l → l ≤ g := by
  rw [shape_eq (fun d => d)]
  obtain ⟨a, ea, a1, a2⟩ := a1_within (log := fun d => d) (lo := lo) (hi := hi) hp h1 h2 e1 e2 (by norm_num; linarith) (h4.trans (by norm_num))
  obtain ⟨b, eb, b1, b2⟩ := a2_within (log := fun d => d) hs ea (h3.trans a1) (a2.trans h4)
  obtain ⟨v, ev, v1, v2, v3, v4⟩ := v_within (log := fun d => d) eb b1 b2 hn n1 n2
  obtain ⟨w, ew, w1, w2, w3, w4⟩ := cube_within (log := fun d => d) ev v1 v2
  have ha0 : 1 / 2 ≤ a := h3.trans a1
  have ha1 : a ≤ 2 ^ 64 := a2.trans h4
  have key := fun {l h : ℚ} => times_within (log := fun d => d) (l := l) (h := h) ea ew
  have e10 : rnd (1 / 2 ^ 10) = 1 / 2 ^ 10 := rnd_inv_pow (by omega)
  have e67 : rnd (2 ^ 67) = 2 ^ 67 := rnd_pow (by omega)
  obtain ⟨g, eg, g1, g2⟩ := key (l := 1 / 2 ^ 10) (h := 2 ^ 67) (by nlinarith) (by norm_num at ha1 ⊢; nlinarith) e10 e67 (by norm_num) (by norm_num)
  refine ⟨g, eg, g1, g2, fun hy => ?_, fun hy => ?_, fun h q1 q2 q3 => ?_, fun l q1 q2 q3 => ?_⟩
  · obtain ⟨g', eg', _, g2'⟩ := key (l := 1 / 2 ^ 10) (h := hi) (by nlinarith) (by have := w3 (v3 hy); nlinarith) e10 e2 (by norm_num) (h4.trans (by norm_num))
    rw [eg] at eg'
    cases eg'
    exact g2'
  · obtain ⟨g', eg', g1', _⟩ := key (l := lo) (h := 2 ^ 67) (by have := w4 (v4 hy); nlinarith) (by norm_num at ha1 ⊢; nlinarith) e1 e67 (by linarith) (by norm_num)
    rw [eg] at eg'
    cases eg'
    exact g1'
  · obtain ⟨g', eg', _, g2'⟩ := key (l := 1 / 2 ^ 10) (h := h) (by nlinarith) (by nlinarith) e10 q3 (by norm_num) q2
    rw [eg] at eg'
    cases eg'
    exact g2'
  · obtain ⟨g', eg', g1', _⟩ := key (l := l) (h := 2 ^ 67) (by nlinarith) (by norm_num at ha1 ⊢; nlinarith) q3 e67 q1 (by norm_num)
    rw [eg] at eg'
    cases eg'
    exact g1'

theorem variate_eq (hs : SqrtLaw sqrt) {p : Double} {x : ℚ} (hp : Double.val p = .fin x) (h1 : 1 ≤ x) (h2 : x ≤ 2 ^ 64) {s s1 s2 : Nat} {px py r2 u : Double}
    (hpt : Gamma.point (Double.math log sqrt pow) s = ((px, py, r2), s1)) (hin : Within r2 (1 / 2) 1)
    (hcan : Gamma.canonical (Double.math log sqrt pow) s1 = (u, s2)) (hn : Within (bell log sqrt py r2) (-(7 / 8)) (7 / 8)) (hu : Within u 0 (15 / 16)) (fuel : Nat) :
    Gamma.variate (Double.math log sqrt pow) (fuel + 1) p s = some (Double.shape sqrt p (bell log sqrt py r2), s2) := by
  obtain ⟨r, er, r1, r2'⟩ := hin
  have c1 : ((Double.math log sqrt pow).ops.lt ((Double.math log sqrt pow).ops.ofInt 1) r2 ||
      (Double.math log sqrt pow).eq r2 ((Double.math log sqrt pow).ops.ofInt 0)) = false := by
    rw [Bool.or_eq_false_iff]
    constructor
    · exact (lt_fin (int_one log) er).trans (by simpa using r2')
    · show Double.eq r2 ((Double.ops log).ofInt 0) = false
      unfold Double.eq
      rw [er, int_zero]
      simp
      linarith
  have hpol : Gamma.polar (Double.math log sqrt pow) (fuel + 1) s = some ((px, py, r2), s1) := by
    unfold Gamma.polar
    rw [hpt]
    simp only [c1]
    simp
  have hnorm : Gamma.normal (Double.math log sqrt pow) (fuel + 1) none s = some (bell log sqrt py r2,
      some (Double.mul px (sqrt ((Double.ops log).div ((Double.ops log).mul ((Double.ops log).ofInt (-2)) (log r2)) r2))), s1) := by
    unfold Gamma.normal
    simp only [hpol]
    rfl
  obtain ⟨y, ey, y1, y2⟩ := hn
  obtain ⟨a, ea, a1, a2⟩ := a1_within (log := log) (lo := 1 / 2) (hi := 2 ^ 64) hp (by linarith) (by linarith) (by decide +kernel) (rnd_pow (by omega)) (by norm_num) (by norm_num)
  obtain ⟨b, eb, b1, b2⟩ := a2_within (log := log) hs ea a1 a2
  obtain ⟨v, ev, v1, v2, v3, v4⟩ := v_within (log := log) eb b1 b2 ey y1 y2
  obtain ⟨z, ez, z1, z2⟩ := hu
  have hlt : (Double.math log sqrt pow).ops.lt p ((Double.math log sqrt pow).ops.ofInt 1) = false :=
    (lt_fin hp (int_one log)).trans (by simpa using h1)
  have hle : (Double.math log sqrt pow).le ((Double.ops log).add ((Double.ops log).ofInt 1) ((Double.ops log).mul
      ((Double.ops log).div ((Double.ops log).ofInt 1) (sqrt ((Double.ops log).mul ((Double.ops log).ofInt 9)
        ((Double.ops log).sub p ((Double.ops log).div ((Double.ops log).ofInt 1) ((Double.ops log).ofInt 3)))))) (bell log sqrt py r2)))
      ((Double.math log sqrt pow).ops.ofInt 0) = false := by
    show (Ext.lt (Double.val _) (Double.val ((Double.ops log).ofInt 0)) || Double.eq _ ((Double.ops log).ofInt 0)) = false
    unfold Double.eq
    rw [ev, int_zero]
    simp [Ext.lt]
    constructor
    · linarith
    · intro h
      linarith
  have heq : (Double.math log sqrt pow).eq p p = true := by
    show Double.eq p p = true
    unfold Double.eq
    rw [hp]
    simp
  unfold Gamma.variate
  simp only [hlt, heq, Bool.false_eq_true, if_false, if_true]
  unfold Gamma.cube Gamma.positive
  rw [hnorm]
  simp only [show (Double.math log sqrt pow).ops = Double.ops log from rfl, show (Double.math log sqrt pow).sqrt = sqrt from rfl] at hle ⊢
  simp only [hle, hcan, not_rejected ey y1 y2 ez z2, Bool.false_eq_true, if_false]
  rw [shape_eq log]

/-! ## The four draws -/

/-- The points of the square and the uniform numbers do not depend on the mathematical functions. -/
def rawMath : MathOps Double := Double.math (fun d => d) (fun d => d) (fun d _ => d)

theorem point_raw (s : Nat) : Gamma.point (Double.math log sqrt pow) s = Gamma.point rawMath s := rfl

theorem canonical_raw (s : Nat) : Gamma.canonical (Double.math log sqrt pow) s = Gamma.canonical rawMath s := rfl

/-- The conditions of `bell_within`, computed. -/
def goodPoint (neg : Bool) (B B' : ℚ) (pt : Double × Double × Double) : Bool :=
  match Double.val pt.2.1, Double.val pt.2.2 with
  | .fin y, .fin r => decide (1 / 2 ≤ r) && decide (r < 1) && decide (4 * (1 / r - 1) ≤ B) && decide (B / r ≤ B') && decide (y ^ 2 * (3 / 2 * B') ≤ (7 / 8) ^ 2) &&
      (if neg then decide (y ≤ 0) else decide (0 ≤ y))
  | _, _ => false

theorem goodPoint.bell (hl : LogLaws log) (hs : SqrtLaw sqrt) {neg : Bool} {B B' : ℚ} {pt : Double × Double × Double} (h : goodPoint neg B B' pt = true) (eB : rnd B = B)
    (eB' : rnd B' = B') (bB : B ≤ 2 ^ 200) (bB' : B' ≤ 2 ^ 200) :
    Within pt.2.2 (1 / 2) 1 ∧ Within (bell log sqrt pt.2.1 pt.2.2) (if neg then -(7 / 8) else 0) (if neg then 0 else 7 / 8) := by
  unfold goodPoint at h
  split at h
  · next y r ey er =>
    simp only [Bool.and_eq_true, decide_eq_true_eq] at h
    obtain ⟨⟨⟨⟨⟨h1, h2⟩, h3⟩, h4⟩, h5⟩, h6⟩ := h
    refine ⟨⟨r, er, h1, h2.le⟩, ?_⟩
    obtain ⟨k1, k2⟩ := bell_within hl hs ey er (by linarith) h2 h3 eB h4 eB' bB bB' h5
    cases neg
    · simp only [Bool.false_eq_true, if_false, decide_eq_true_eq] at h6 ⊢
      exact k1 h6
    · simp only [if_true, decide_eq_true_eq] at h6 ⊢
      exact k2 h6
  · simp at h

/-- The state of the engine before the `i`-th variate. -/
def drawState : Nat → Nat
  | 0 => 1
  | 1 => 470211272
  | 2 => 1115438165
  | 3 => 16531729
  | _ => 1998097157

/-- The `i`-th normal variate. -/
def draw (log sqrt : Double → Double) (i : Nat) : Double :=
  bell log sqrt (Gamma.point rawMath (drawState i)).1.2.1 (Gamma.point rawMath (drawState i)).1.2.2

theorem drawn_points : ∀ i : Fin 4, drawnPoint i = (Gamma.point rawMath (drawState i)).1.2 := by
  decide +kernel

theorem draw_eq (log sqrt : Double → Double) (i : Fin 4) : Double.bell log sqrt (drawnPoint i).1 (drawnPoint i).2 = draw log sqrt i := by
  rw [bell_eq, drawn_points]
  rfl

theorem points_good : goodPoint true 4 8 (Gamma.point rawMath 1).1 = true ∧ goodPoint false (17 / 32) (39 / 64) (Gamma.point rawMath 470211272).1 = true ∧
    goodPoint false (5 / 8) (3 / 4) (Gamma.point rawMath 1115438165).1 = true ∧ goodPoint false (1 / 2) (5 / 8) (Gamma.point rawMath 16531729).1 = true := by
  decide +kernel

theorem uniforms_good : ∀ i < 4, within (Gamma.canonical rawMath (Gamma.point rawMath (drawState i)).2).1 0 (15 / 16) = true ∧
    (Gamma.canonical rawMath (Gamma.point rawMath (drawState i)).2).2 = drawState (i + 1) := by
  decide +kernel

theorem draw_good (hl : LogLaws log) (hs : SqrtLaw sqrt) : ∀ i < 4, Within (Gamma.point rawMath (drawState i)).1.2.2 (1 / 2) 1 ∧
    Within (draw log sqrt i) (if i = 0 then -(7 / 8) else 0) (if i = 0 then 0 else 7 / 8) := by
  obtain ⟨p0, p1, p2, p3⟩ := points_good
  intro i hi
  match i, hi with
  | 0, _ => exact goodPoint.bell hl hs p0 (by decide +kernel) (by decide +kernel) (by norm_num) (by norm_num)
  | 1, _ => exact goodPoint.bell hl hs p1 (by decide +kernel) (by decide +kernel) (by norm_num) (by norm_num)
  | 2, _ => exact goodPoint.bell hl hs p2 (by decide +kernel) (by decide +kernel) (by norm_num) (by norm_num)
  | 3, _ => exact goodPoint.bell hl hs p3 (by decide +kernel) (by decide +kernel) (by norm_num) (by norm_num)

theorem draw_variate (hl : LogLaws log) (hs : SqrtLaw sqrt) {i : Nat} (hi : i < 4) {p : Double} {x : ℚ} (hp : Double.val p = .fin x) (h1 : 1 ≤ x) (h2 : x ≤ 2 ^ 64) (fuel : Nat) :
    Gamma.variate (Double.math log sqrt pow) (fuel + 1) p (drawState i) = some (Double.shape sqrt p (draw log sqrt i), drawState (i + 1)) := by
  obtain ⟨g1, x', ex, x1, x2⟩ := draw_good hl hs i hi
  obtain ⟨u1, u2⟩ := uniforms_good i hi
  rw [← u2]
  refine variate_eq hs hp h1 h2 (px := (Gamma.point rawMath (drawState i)).1.1) (s1 := (Gamma.point rawMath (drawState i)).2) (point_raw _) g1 (canonical_raw _)
    ⟨x', ex, le_trans ?_ x1, x2.trans ?_⟩ (Within.of u1) fuel
  · split <;> norm_num
  · split <;> norm_num

end VGram
