import Mathlib.Tactic.IntervalCases
import Verif.Proofs.Gamma
import Verif.Props.IeeeBest

/-!
# C100: the random numbers behind pair scores

`next_dirichlet` constructs its random engine in every call, so all calls see the same random numbers.  With libstdc++ each of the four gamma variates of a pair is
accepted at once, for all parameters: the "random" sample of a pair is a fixed function of its four counts, made of four fixed normal variates.
-/

namespace VGram.Props

open Spec

variable {log sqrt : Double → Double} {pow : Double → Double → Double}

/-- Multiples of `2^-j` with a numerator below `2^53` are exact. -/
theorem rnd_frac {n j : Nat} (h : n < 2 ^ 53) (hj : j ≤ 900) : rnd ((n : ℚ) / 2 ^ j) = n / 2 ^ j := by
  rcases Nat.eq_zero_or_pos n with rfl | h0
  · simp [rnd_zero]
  · set k := Nat.log 2 n
    have h1 : 2 ^ k ≤ n := Nat.pow_log_le_self 2 h0.ne'
    have h2 : n < 2 ^ (k + 1) := Nat.lt_pow_succ_log_self (by norm_num) n
    have hk : k ≤ 52 := by
      by_contra hn
      have : 2 ^ 53 ≤ 2 ^ k := Nat.pow_le_pow_right (by norm_num) (by omega)
      omega
    have e1 : 2 ^ k * 2 ^ (52 - k) = 2 ^ 52 := by rw [← pow_add, Nat.add_sub_cancel' hk]
    have g1 : 2 ^ 52 ≤ n * 2 ^ (52 - k) := e1 ▸ Nat.mul_le_mul_right _ h1
    have g2 : n * 2 ^ (52 - k) < 2 ^ 53 := by
      have := Nat.mul_lt_mul_of_pos_right h2 (show 0 < 2 ^ (52 - k) by positivity)
      rw [pow_succ, mul_right_comm, e1] at this
      omega
    have hv : value ((k + (1023 - j)) * 2 ^ 52 + (n * 2 ^ (52 - k) - 2 ^ 52)) = n / 2 ^ j := by
      have q1 : ((k + (1023 - j)) * 2 ^ 52 + (n * 2 ^ (52 - k) - 2 ^ 52)) / 2 ^ 52 = k + (1023 - j) := by omega
      have q2 : ((k + (1023 - j)) * 2 ^ 52 + (n * 2 ^ (52 - k) - 2 ^ 52)) % 2 ^ 52 = n * 2 ^ (52 - k) - 2 ^ 52 := by omega
      unfold value
      rw [q1, q2, if_neg (by omega), Nat.cast_sub g1]
      have q3 : (((k + (1023 - j) : ℕ) : ℤ) - 1075) = -((52 - k + j : ℕ) : ℤ) := by omega
      rw [q3, zpow_neg, zpow_natCast, pow_add]
      push_cast
      field_simp
      ring
    rw [← hv]
    exact rnd_value (by omega)

theorem variates_chain {F : Type} {G : MathOps F} {fuel : Nat} {p0 p1 p2 p3 g0 g1 g2 g3 : F} {s0 s1 s2 s3 s4 : Nat} (e0 : Gamma.variate G fuel p0 s0 = some (g0, s1))
    (e1 : Gamma.variate G fuel p1 s1 = some (g1, s2)) (e2 : Gamma.variate G fuel p2 s2 = some (g2, s3)) (e3 : Gamma.variate G fuel p3 s3 = some (g3, s4)) :
    Gamma.variates G fuel [p0, p1, p2, p3] s0 = some [g0, g1, g2, g3] := by
  simp only [Gamma.variates, e0, e1, e2, e3]

theorem variates_four (hl : LogLaws log) (hs : SqrtLaw sqrt) (fuel : Nat) {p0 p1 p2 p3 : Double} {x0 x1 x2 x3 : ℚ} (h0 : Double.val p0 = .fin x0) (h1 : Double.val p1 = .fin x1)
    (h2 : Double.val p2 = .fin x2) (h3 : Double.val p3 = .fin x3) (a0 : 1 ≤ x0 ∧ x0 ≤ 2 ^ 64) (a1 : 1 ≤ x1 ∧ x1 ≤ 2 ^ 64) (a2 : 1 ≤ x2 ∧ x2 ≤ 2 ^ 64) (a3 : 1 ≤ x3 ∧ x3 ≤ 2 ^ 64) :
    Gamma.variates (Double.math log sqrt pow) (fuel + 1) [p0, p1, p2, p3] Gamma.seed = some [Double.shape sqrt p0 (draw log sqrt 0), Double.shape sqrt p1 (draw log sqrt 1),
      Double.shape sqrt p2 (draw log sqrt 2), Double.shape sqrt p3 (draw log sqrt 3)] := by
  exact variates_chain (draw_variate hl hs (i := 0) (by omega) h0 a0.1 a0.2 fuel) (draw_variate hl hs (i := 1) (by omega) h1 a1.1 a1.2 fuel)
    (draw_variate hl hs (i := 2) (by omega) h2 a2.1 a2.2 fuel) (draw_variate hl hs (i := 3) (by omega) h3 a3.1 a3.2 fuel)

/-- C100: the four normal variates of four fixed points, the first one not positive and the others not negative, are all that a call of `next_dirichlet` makes its gamma
variates of, whatever the parameters are.  No sample is ever rejected (one round of each loop is enough), so the call returns. -/
theorem C100_fixed_draws (hl : LogLaws log) (hs : SqrtLaw sqrt) :
    (∀ i, ∃ x : ℚ, Double.val (Double.bell log sqrt (drawnPoint i).1 (drawnPoint i).2) = .fin x ∧ |x| ≤ 7 / 8 ∧ (i = 0 → x ≤ 0) ∧ (i ≠ 0 → 0 ≤ x)) ∧
    ∀ (fuel : Nat) (p : Fin 4 → Double), (∀ i, ∃ x : ℚ, Double.val (p i) = .fin x ∧ 1 ≤ x ∧ x ≤ 2 ^ 64) →
      Gamma.variates (Double.math log sqrt pow) (fuel + 1) (List.ofFn p) Gamma.seed =
        some (List.ofFn fun i => Double.shape sqrt (p i) (Double.bell log sqrt (drawnPoint i).1 (drawnPoint i).2)) := by
  simp only [draw_eq]
  refine ⟨fun i => ?_, fun fuel p hp => ?_⟩
  · obtain ⟨_, x, ex, x1, x2⟩ := draw_good hl hs i i.2
    refine ⟨x, ex, abs_le.2 ⟨le_trans ?_ x1, x2.trans ?_⟩, fun h => ?_, fun h => ?_⟩
    · split <;> norm_num
    · split <;> norm_num
    · subst h
      simpa using x2
    · have : (i : Nat) ≠ 0 := by
        intro e
        exact h (Fin.ext e)
      simpa [this] using x1
  · obtain ⟨x0, e0, a0⟩ := hp 0
    obtain ⟨x1, e1, a1⟩ := hp 1
    obtain ⟨x2, e2, a2⟩ := hp 2
    obtain ⟨x3, e3, a3⟩ := hp 3
    simp only [List.ofFn_succ, List.ofFn_zero]
    exact variates_four hl hs fuel e0 e1 e2 e3 a0 a1 a2 a3

/-- C100: the sample is slanted against the pair.  For the counts `ab`, `ay`, `xb`, `xy` of the pair and its alternatives, the parameters of the distributions (and
their means) are one more; the variate of the pair is at most `ab + 3/4` and the others are at least `ay + 1/2`, `xb + 1/2` and `xy + 1/2`.  All are at least a 32nd of the count plus 1/2 and
at most five times the count plus 3/4. -/
theorem C100_slant (hl : LogLaws log) (hs : SqrtLaw sqrt) (fuel : Nat) (c : Fin 4 → Int) (hc : ∀ i, 0 ≤ c i ∧ c i < 2 ^ 50) :
    ∃ g : Fin 4 → ℚ, (∀ i : Fin 4, Double.val (Gamma.gammas (Double.math log sqrt pow) (fuel + 1) (List.ofFn fun i => (Double.ops log).ofInt (c i + 1)) i) = .fin (g i)) ∧
      (∀ i, 0 < g i) ∧ g 0 ≤ c 0 + 3 / 4 ∧ (∀ i, i ≠ 0 → c i + 1 / 2 ≤ g i) ∧ ∀ i, c i < 2 ^ 48 → (c i + 1 / 2) / 32 ≤ g i ∧ g i ≤ 5 * (c i + 3 / 4) := by
  obtain ⟨hn, hv⟩ := C100_fixed_draws (pow := pow) hl hs
  have hex : ∀ i, Double.val ((Double.ops log).ofInt (c i + 1)) = .fin ((c i + 1 : Int) : ℚ) := fun i => int_exact (by have := hc i; omega) (by have := hc i; omega)
  have key : ∀ i, ∃ g : ℚ, Double.val (Double.shape sqrt ((Double.ops log).ofInt (c i + 1)) (Double.bell log sqrt (drawnPoint i).1 (drawnPoint i).2)) = .fin g ∧ 0 < g ∧
      (i = 0 → g ≤ c i + 3 / 4) ∧ (i ≠ 0 → c i + 1 / 2 ≤ g) ∧ (c i < 2 ^ 48 → (c i + 1 / 2) / 32 ≤ g ∧ g ≤ 5 * (c i + 3 / 4)) := by
    intro i
    obtain ⟨y, ey, hy, h0, h1⟩ := hn i
    obtain ⟨k1, k2⟩ := hc i
    obtain ⟨m, hm⟩ := Int.eq_ofNat_of_zero_le k1
    have hex := hex i
    rw [hm] at k2 hex ⊢
    push_cast at hex k2 ⊢
    have b1 : (m : ℚ) + 1 ≤ 2 ^ 50 := by exact_mod_cast (by omega : (m : Int) + 1 ≤ 2 ^ 50)
    have r1 : rnd ((m : ℚ) + 3 / 4) = m + 3 / 4 := by
      have := rnd_frac (n := 4 * m + 3) (j := 2) (by omega) (by omega)
      push_cast at this
      rw [show (m : ℚ) + 3 / 4 = (4 * m + 3) / 2 ^ 2 by ring]
      exact this
    have r0 : rnd ((m : ℚ) + 1 / 2) = m + 1 / 2 := by
      have := rnd_frac (n := 4 * m + 2) (j := 2) (by omega) (by omega)
      push_cast at this
      rw [show (m : ℚ) + 1 / 2 = (4 * m + 2) / 2 ^ 2 by ring]
      exact this
    have hm0 : (0 : ℚ) ≤ m := by positivity
    have p5064 : (2 : ℚ) ^ 50 ≤ 2 ^ 64 := by norm_num
    obtain ⟨g, eg, g1, g2, g3, g4, g5, g6⟩ := shape_within hs (lo := m + 1 / 2) (hi := m + 3 / 4) hex (by linarith) (by linarith) (by linarith) (by linarith) (by linarith) r0
      r1 ey (abs_le.1 hy).1 (abs_le.1 hy).2
    refine ⟨g, eg, lt_of_lt_of_le (by norm_num) g1, fun h => g3 (h0 h), fun h => g4 (h1 h), fun k3 => ⟨g6 _ (by positivity) (by linarith) ?_, g5 _ le_rfl ?_ ?_⟩⟩
    · have := rnd_frac (n := 2 * m + 1) (j := 6) (by omega) (by omega)
      push_cast at this
      rw [show ((m : ℚ) + 1 / 2) / 32 = (2 * m + 1) / 2 ^ 6 by ring]
      exact this
    · norm_num at b1 ⊢
      linarith
    · have := rnd_frac (n := 20 * m + 15) (j := 2) (by omega) (by omega)
      push_cast at this
      rw [show 5 * ((m : ℚ) + 3 / 4) = (20 * m + 15) / 2 ^ 2 by ring]
      exact this
  choose g hg using key
  refine ⟨g, fun i => ?_, fun i => (hg i).2.1, (hg 0).2.2.1 rfl, fun i h => (hg i).2.2.2.1 h, fun i => (hg i).2.2.2.2⟩
  unfold Gamma.gammas
  rw [hv fuel _ fun i => ⟨_, hex i, by exact_mod_cast (by have := hc i; omega : (1 : Int) ≤ c i + 1), by
    have h1 : ((c i + 1 : Int) : ℚ) ≤ 2 ^ 50 := by exact_mod_cast (by have := hc i; omega : c i + 1 ≤ 2 ^ 50)
    exact h1.trans (by norm_num)⟩]
  rw [Option.getD_some, List.getD_eq_getElem?_getD, List.getElem?_eq_getElem (by simp), Option.getD_some, List.getElem_ofFn]
  exact (hg i).1

/-- C100: with libstdc++ nothing has to be assumed about random numbers: the libraries do what the theorems about doubles ask for. -/
theorem C100_library (hl : LogLaws log) (hs : SqrtLaw sqrt) {srt : List (StatItem Double) → List (StatItem Double)} {ord : PairMap → PairMap}
    (hsort : ∀ l : List (StatItem Double), (∀ a ∈ l, a.score.isFinite = true) → (srt l).Perm l ∧
      (srt l).Pairwise fun a b => Ext.lt (Double.val (Double.opposite b.score)) (Double.val (Double.opposite a.score)) = false)
    (hord : ∀ p, (ord p).Perm p) (fuel : Nat) : LibraryLaws log srt ord (Gamma.gammas (Double.math log sqrt pow) (fuel + 1)) where
  log := hl.size
  sort := hsort
  order := hord
  gamma params hlen hp i hi := by
    obtain ⟨hn, hv⟩ := C100_fixed_draws (pow := pow) hl hs
    have hps : params = List.ofFn fun k : Fin 4 => params[k]'(by omega) := by
      refine List.ext_getElem (by simp [hlen]) fun k h1 h2 => ?_
      rw [List.getElem_ofFn]
      rfl
    have hv' := hv fuel (fun k : Fin 4 => params[k]'(by omega)) fun k => hp _ (List.getElem_mem _)
    rw [← hps] at hv'
    unfold Gamma.gammas
    rw [hv', Option.getD_some, List.getD_eq_getElem?_getD, List.getElem?_eq_getElem (by simpa using hi), Option.getD_some, List.getElem_ofFn]
    obtain ⟨x, ex, x1, x2⟩ := hp (params[i]'(by omega)) (List.getElem_mem _)
    obtain ⟨y, ey, hy, _⟩ := hn ⟨i, hi⟩
    obtain ⟨g, eg, g1, g2, _⟩ := shape_within hs (lo := 1 / 2) (hi := 2 ^ 64) ex x2 (by linarith) (by linarith) le_rfl le_rfl (by decide +kernel) (rnd_pow (by omega)) ey
      (abs_le.1 hy).1 (abs_le.1 hy).2
    refine ⟨g, eg, le_trans ?_ g1, g2.trans (pow_le_pow_right₀ (by norm_num) (by omega))⟩
    exact div_le_div_of_nonneg_left (by norm_num) (by norm_num) (pow_le_pow_right₀ (by norm_num) (by omega))

/-! ## The engine -/

/-- C100: the engine never gets stuck at 0, and the uniform numbers are at least 0 and below 1, whatever its state is. -/
theorem C100_engine (s : Nat) (h : 1 ≤ s ∧ s ≤ 2147483646) : (1 ≤ Gamma.next s ∧ Gamma.next s ≤ 2147483646) ∧
    ∃ x : ℚ, Double.val (Gamma.canonical (Double.math log sqrt pow) s).1 = .fin x ∧ 0 ≤ x ∧ x < 1 := by
  have step : ∀ s : Nat, 1 ≤ s ∧ s ≤ 2147483646 → 1 ≤ Gamma.next s ∧ Gamma.next s ≤ 2147483646 := by
    rintro s ⟨h1, h2⟩
    unfold Gamma.next
    refine ⟨Nat.pos_of_ne_zero fun e => ?_, by omega⟩
    have hd := Nat.dvd_of_mod_eq_zero e
    have hc : Nat.Coprime 2147483647 16807 := by decide +kernel
    have := Nat.le_of_dvd (by omega) (hc.dvd_of_dvd_mul_left hd)
    omega
  refine ⟨step s h, ?_⟩
  have h1 := step s h
  have h2 := step _ h1
  generalize hs1 : Gamma.next s = s1 at h1 h2
  generalize hs2 : Gamma.next s1 = s2 at h2
  have exact1 : Double.val ((Double.ops log).ofInt ((s1 : Int) - 1)) = .fin (((s1 : Int) - 1 : Int) : ℚ) := int_exact (by omega) (by omega)
  have exact2 : Double.val ((Double.ops log).ofInt ((s2 : Int) - 1)) = .fin (((s2 : Int) - 1 : Int) : ℚ) := int_exact (by omega) (by omega)
  have exactr : Double.val ((Double.ops log).ofInt 2147483646) = .fin ((2147483646 : Int) : ℚ) := int_exact (by omega) (by omega)
  have b1 : (0 : ℚ) ≤ ((s1 : Int) - 1 : Int) ∧ (((s1 : Int) - 1 : Int) : ℚ) ≤ 2 ^ 31 := ⟨by exact_mod_cast (by omega : (0 : Int) ≤ (s1 : Int) - 1), by exact_mod_cast (by omega : (s1 : Int) - 1 ≤ 2 ^ 31)⟩
  have b2 : (0 : ℚ) ≤ ((s2 : Int) - 1 : Int) ∧ (((s2 : Int) - 1 : Int) : ℚ) ≤ 2 ^ 31 := ⟨by exact_mod_cast (by omega : (0 : Int) ≤ (s2 : Int) - 1), by exact_mod_cast (by omega : (s2 : Int) - 1 ≤ 2 ^ 31)⟩
  have p31 : rnd (2 ^ 31) = 2 ^ 31 := rnd_pow (by omega)
  have p62 : rnd (2 ^ 62) = 2 ^ 62 := rnd_pow (by omega)
  have p63 : rnd (2 ^ 63) = 2 ^ 63 := rnd_pow (by omega)
  have p1 : rnd 1 = 1 := by decide +kernel
  obtain ⟨m1, em1, m11, m12⟩ := within_mul (lo := 0) (hi := 2 ^ 31) exact1 (int_one log) (by linarith) (by linarith) rnd_zero p31 (by norm_num) (by norm_num)
  obtain ⟨q1, eq1, q11, q12⟩ := within_add (lo := 0) (hi := 2 ^ 31) (int_zero log) em1 (by linarith) (by linarith) rnd_zero p31 (by norm_num) (by norm_num)
  obtain ⟨t1, et1, t11, t12⟩ := within_mul (lo := 1) (hi := 2 ^ 31) (int_one log) exactr (by norm_num) (by norm_num) p1 p31 (by norm_num) (by norm_num)
  obtain ⟨m2, em2, m21, m22⟩ := within_mul (lo := 0) (hi := 2 ^ 62) exact2 et1 (mul_nonneg b2.1 (by linarith))
    ((mul_le_mul b2.2 t12 (by linarith) (by positivity)).trans (by norm_num)) rnd_zero p62 (by norm_num) (by norm_num)
  obtain ⟨q2, eq2, q21, q22⟩ := within_add (lo := 0) (hi := 2 ^ 63) eq1 em2 (by linarith) (by norm_num at q12 m22 ⊢; linarith) rnd_zero p63 (by norm_num) (by norm_num)
  obtain ⟨t2, et2, t21, t22⟩ := within_mul (lo := 1) (hi := 2 ^ 62) et1 exactr (by push_cast; linarith) (by push_cast; norm_num at t12 ⊢; linarith) p1 p62 (by norm_num) (by norm_num)
  obtain ⟨r, er, r1, r2⟩ := within_div (lo := 0) (hi := 2 ^ 63) eq2 et2 (by linarith) (div_nonneg q21 (by linarith)) ((div_le_self q21 t21).trans q22) rnd_zero p63 (by norm_num) (by norm_num)
  unfold Gamma.canonical
  simp only [hs1, hs2]
  split
  · have : ∃ x : ℚ, Double.val ((Double.ops log).div ((Double.ops log).ofInt (2 ^ 53 - 1)) ((Double.ops log).ofInt (2 ^ 53))) = .fin x ∧ 0 ≤ x ∧ x ≤ 1 - 1 / 2 ^ 53 := by
      show Within (Double.div (Double.rounded false (clamp (2 ^ 53 - 1) : Int)) (Double.rounded false (clamp (2 ^ 53) : Int))) _ _
      exact Within.of (by decide +kernel)
    obtain ⟨x, ex, x1, x2⟩ := this
    exact ⟨x, ex, x1, lt_of_le_of_lt x2 (by norm_num)⟩
  · next hle =>
    refine ⟨r, er, r1, ?_⟩
    by_contra hr
    refine hle ?_
    exact (math_le (int_one log) er).trans (by simpa using hr)

/-! ## The libraries of the examples -/

/-- The greatest double below 1. -/
theorem below_one {d : Double} {x : ℚ} (hx : Double.val d = .fin x) (h0 : 0 < x) (h1 : x < 1) : x ≤ 1 - 1 / 2 ^ 53 := by
  have hd := hx
  unfold Double.val at hd
  split at hd
  · next hb =>
    cases hd
    split at h0
    · have := value_nonneg d.mag.val
      linarith
    · next hneg =>
      rw [if_neg hneg] at h1 ⊢
      have e1 : value (1023 * 2 ^ 52) = 1 := by decide +kernel
      have e2 : value (1023 * 2 ^ 52 - 1) = 1 - 1 / 2 ^ 53 := by decide +kernel
      rw [← e1] at h1
      rw [← e2]
      have := Grisu.value_strictMono.lt_iff_lt.1 h1
      exact Grisu.value_strictMono.monotone (by omega)
  · split at hd
    · split at hd <;> cases hd
    · cases hd

theorem roughLog_laws : LogLaws roughLog where
  size := roughLog_law
  unit d x hx h0 h1 := by
    have hv : roughLog d = Double.rounded false ((x - 1) / (100 * (x + 1))) := by
      unfold roughLog
      rw [hx]
      simp [h0]
    have hle := below_one hx h0 h1
    set y := (1 - x) / (100 * (x + 1)) with hy
    have ey : (x - 1) / (100 * (x + 1)) = -y := by
      rw [hy, ← neg_div]
      ring
    have y1 : 1 / 2 ^ 61 ≤ y := by
      rw [hy, div_le_div_iff₀ (by positivity) (by positivity)]
      norm_num at hle ⊢
      linarith
    have y2 : y ≤ (1 - x) / 2 := by
      rw [hy, div_le_div_iff₀ (by positivity) (by positivity)]
      nlinarith
    have habs : |y| < overflow := small (k := 1) (by omega) (by rw [abs_of_pos (lt_of_lt_of_le (by positivity) y1)]; linarith)
    have hr := rnd_normal (x := y) (by
      rw [abs_of_pos (lt_of_lt_of_le (by positivity) y1)]
      exact le_trans (div_le_div_of_nonneg_left (by norm_num) (by positivity) (pow_le_pow_right₀ (by norm_num) (by omega))) y1) habs
    rw [abs_of_pos (lt_of_lt_of_le (by positivity) y1)] at hr
    have hy0 : 0 ≤ y := le_trans (by positivity) y1
    have hr2 := (abs_le.1 hr).2
    refine ⟨-rnd y, ?_, ?_, ?_⟩
    · rw [hv, ey, val_rounded _ (by rwa [abs_neg]), rnd_neg]
    · have k1 : y / 2 ^ 53 ≤ y := div_le_self hy0 (by norm_num)
      have k2 : 1 - x ≤ 1 / x - 1 := by
        have : 1 / x - 1 = (1 - x) / x := by field_simp
        rw [this, le_div_iff₀ h0]
        nlinarith
      linarith
    · have := rnd_nonneg hy0
      linarith

theorem plainSqrt_law : SqrtLaw plainSqrt := by
  intro d x hx h0
  have hv : plainSqrt d = Double.rounded false ((Nat.sqrt (⌊x * 4 ^ (Nat.log 2 x.den + 60)⌋.toNat) : ℚ) / 2 ^ (Nat.log 2 x.den + 60)) := by
    unfold plainSqrt
    rw [hx]
    simp [not_lt.2 h0]
  rw [hv]
  rcases h0.lt_or_eq with hpos | rfl
  swap
  · refine ⟨0, ?_, le_rfl, by simp⟩
    simp only [zero_mul, Int.floor_zero, Int.toNat_zero, Nat.sqrt_zero, Nat.cast_zero, zero_div]
    decide +kernel
  generalize hk : Nat.log 2 x.den + 60 = k
  -- the number whose root is taken is large
  have hden : (x.den : ℚ) < 2 ^ (k - 59) := by
    have := Nat.lt_pow_succ_log_self (b := 2) (by norm_num) x.den
    rw [show k - 59 = Nat.log 2 x.den + 1 by omega]
    exact_mod_cast this
  have hk60 : 60 ≤ k := by omega
  have hbig : (2 : ℚ) ^ 59 ≤ x * 4 ^ k := by
    have hx1 : 1 ≤ x * x.den := by
      rw [Rat.mul_den_eq_num]
      have : 0 < x.num := Rat.num_pos.2 hpos
      exact_mod_cast this
    have h4 : (4 : ℚ) ^ k = 2 ^ (k - 59) * 2 ^ 59 * 2 ^ k := by
      rw [← pow_add, ← pow_add, show k - 59 + 59 + k = 2 * k by omega, pow_mul]
      norm_num
    rw [h4]
    have g1 : 1 ≤ x * 2 ^ (k - 59) := hx1.trans (mul_le_mul_of_nonneg_left hden.le hpos.le)
    have g2 : (1 : ℚ) ≤ 2 ^ k := one_le_pow₀ (by norm_num)
    calc (2 : ℚ) ^ 59 = 1 * 2 ^ 59 * 1 := by ring
      _ ≤ (x * 2 ^ (k - 59)) * 2 ^ 59 * 2 ^ k := by gcongr
      _ = _ := by ring
  obtain ⟨N, hN⟩ : ∃ N : Nat, ⌊x * 4 ^ k⌋ = N := Int.eq_ofNat_of_zero_le (Int.floor_nonneg.2 (by positivity))
  have hN1 : (N : ℚ) ≤ x * 4 ^ k := by
    have := Int.floor_le (x * 4 ^ k)
    rw [hN] at this
    exact_mod_cast this
  have hN2 : x * 4 ^ k < N + 1 := by
    have := Int.lt_floor_add_one (x * 4 ^ k)
    rw [hN] at this
    exact_mod_cast this
  rw [hN, Int.toNat_natCast]
  generalize hm : Nat.sqrt N = m
  have hm1 : m * m ≤ N := hm ▸ Nat.sqrt_le N
  have hm2 : N < (m + 1) * (m + 1) := hm ▸ Nat.lt_succ_sqrt N
  have hX1 : (m : ℚ) ^ 2 ≤ x * 4 ^ k := le_trans (by rw [sq]; exact_mod_cast hm1) hN1
  have hX2 : x * 4 ^ k < (m + 1 : ℚ) ^ 2 := by
    refine lt_of_lt_of_le hN2 ?_
    rw [sq]
    exact_mod_cast hm2
  have hm16 : (16 : ℚ) ≤ m := by
    by_contra hlt
    have : (m : ℚ) + 1 < 17 := by linarith
    have : (m + 1 : ℚ) ^ 2 < 17 ^ 2 := pow_lt_pow_left₀ this (by positivity) (by norm_num)
    norm_num at hbig this
    linarith
  have h4k : (0 : ℚ) < 4 ^ k := by positivity
  set q : ℚ := m / 2 ^ k with hq
  have hq0 : 0 ≤ q := by positivity
  have hq2 : q ^ 2 = (m : ℚ) ^ 2 / 4 ^ k := by
    rw [hq, div_pow, ← pow_mul, mul_comm k 2, pow_mul]
    norm_num
  have q1 : q ^ 2 ≤ x := by
    rw [hq2, div_le_iff₀ h4k]
    exact hX1
  have q2 : 7 / 8 * x ≤ q ^ 2 := by
    rw [hq2, le_div_iff₀ h4k]
    nlinarith
  have hx1 : 1 / 2 ^ 1074 ≤ x ∧ x ≤ 2 ^ 1024 := by
    have hd := hx
    unfold Double.val at hd
    split at hd
    · next hb =>
      cases hd
      split at hpos
      · have := value_nonneg d.mag.val
        linarith
      · next hneg =>
        rw [if_neg hneg]
        have e1 : value 1 = 1 / 2 ^ 1074 := by decide +kernel
        have e0 := value_zero
        rw [← e0] at hpos
        have := Grisu.value_strictMono.lt_iff_lt.1 hpos
        exact ⟨e1 ▸ Grisu.value_strictMono.monotone (by omega), value_top ▸ Grisu.value_strictMono.monotone (by omega)⟩
    · split at hd
      · split at hd <;> cases hd
      · cases hd
  have n1 : 1 / 2 ^ 1022 ≤ q := by
    refine le_of_sq_le_sq ?_ hq0
    refine le_trans ?_ q2
    have : (1 / 2 ^ 1022 : ℚ) ^ 2 ≤ 7 / 8 * (1 / 2 ^ 1074) := by decide +kernel
    linarith [hx1.1]
  have n2 : q ≤ 2 ^ 512 := by
    refine le_of_sq_le_sq (q1.trans (hx1.2.trans ?_)) (by positivity)
    rw [← pow_mul]
  have hsm : |q| < overflow := small (k := 512) (by omega) (by rwa [abs_of_nonneg hq0])
  have n1' : 1 / 2 ^ 1022 ≤ |q| := (abs_of_nonneg hq0).symm ▸ n1
  have hr := rnd_normal n1' hsm
  rw [abs_of_nonneg hq0] at hr
  have h8 : q / 2 ^ 53 ≤ q / 8 := div_le_div_of_nonneg_left hq0 (by norm_num) (by norm_num)
  obtain ⟨r1, r2⟩ := abs_le.1 (hr.trans h8)
  refine ⟨rnd q, val_rounded _ hsm, rnd_nonneg hq0, abs_le.2 ⟨?_, ?_⟩⟩
  · have : (7 / 8 * q) ^ 2 ≤ rnd q ^ 2 := pow_le_pow_left₀ (by positivity) (by linarith) 2
    nlinarith
  · have : rnd q ^ 2 ≤ (9 / 8 * q) ^ 2 := pow_le_pow_left₀ (rnd_nonneg hq0) (by linarith) 2
    nlinarith

/-- C100: there are libraries that do what is asked. -/
theorem C100_libraries_exist : LogLaws roughLog ∧ SqrtLaw plainSqrt := ⟨roughLog_laws, plainSqrt_law⟩

/-- The numbers of the first variate: the point of the disc is about (-0.737, -0.083), the uniform number about 0.219, and the engine has made six steps. -/
example : within (Gamma.point rawMath 1).1.1 (-0.7371) (-0.7369) = true ∧ within (Gamma.point rawMath 1).1.2.1 (-0.0828) (-0.0826) = true ∧
    within (Gamma.canonical rawMath (Gamma.point rawMath 1).2).1 0.2189 0.2190 = true ∧
    (Gamma.canonical rawMath (Gamma.point rawMath 1).2).2 = (Gamma.next^[6]) 1 := by decide +kernel

/-- Variates for a pair that occurs 4 times, its first word 6 more times, its second word once more, among 100 pairs; one round of every loop is enough. -/
example : let G := Double.math roughLog plainSqrt (fun d _ => d)
    let ps := [4 + 1, 6 + 1, 1 + 1, 89 + 1].map (Double.ops roughLog).ofInt
    Gamma.variates G 1 ps Gamma.seed = Gamma.variates G 3 ps Gamma.seed ∧ within (Gamma.gammas G 1 ps 0) 4.64 4.66 = true ∧ within (Gamma.gammas G 1 ps 1) 6.75 6.76 = true ∧
      within (Gamma.gammas G 1 ps 2) 1.66 1.68 = true ∧ within (Gamma.gammas G 1 ps 3) 89.79 89.80 = true := by decide +kernel

/-- A parameter below 1, which never occurs, takes the branch with `std::pow`: one more uniform number is drawn. -/
example : let G := Double.math roughLog plainSqrt (fun d _ => d)
    ((Gamma.variate G 1 (Double.rounded false (1 / 2)) 1).map (·.2)) = some ((Gamma.next^[8]) 1) ∧
    ((Gamma.variate G 1 (Double.rounded false 1) 1).map (·.2)) = some ((Gamma.next^[6]) 1) := by decide +kernel

end VGram.Props
