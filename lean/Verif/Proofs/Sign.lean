import Verif.Spec.Sign
import Verif.Proofs.Gamma
import Verif.Props.IeeeBest

/-!
# Relative errors of positive doubles, and the sign of a pair score
-/

namespace VGram.Props

open VGram Spec

/-- One rounding changes a number at most by this factor. -/
def slack : ℚ := 1 + 1 / 2 ^ 52

theorem slack_pos : 0 < slack := by unfold slack; norm_num
theorem one_le_slack : 1 ≤ slack := by unfold slack; norm_num
theorem slack_pow_pos (k : Nat) : 0 < slack ^ k := pow_pos slack_pos k

/-- The double `d` is a number from `2^-n` to `2^n`, and `x` up to `k` roundings. -/
def Near (n k : Nat) (d : Double) (x : ℚ) : Prop := ∃ q : ℚ, Double.val d = .fin q ∧ 1 / 2 ^ n ≤ q ∧ q ≤ 2 ^ n ∧ x ≤ q * slack ^ k ∧ q ≤ x * slack ^ k

theorem Near.pos {n k : Nat} {d : Double} {x : ℚ} (h : Near n k d x) : Double.Pos n d := by
  obtain ⟨q, h1, h2, h3, _⟩ := h
  exact ⟨q, h1, h2, h3⟩

theorem Near.exact {n : Nat} {d : Double} {x : ℚ} (h : Double.val d = .fin x) (h1 : 1 / 2 ^ n ≤ x) (h2 : x ≤ 2 ^ n) : Near n 0 d x :=
  ⟨x, h, h1, h2, by simp, by simp⟩

theorem Near.gt {n k : Nat} {d : Double} {x : ℚ} (h : Near n k d x) : 0 < x := by
  obtain ⟨q, _, h2, _, _, h5⟩ := h
  have hq : 0 < q := lt_of_lt_of_le (by positivity) h2
  by_contra hx
  have := mul_nonpos_of_nonpos_of_nonneg (not_lt.1 hx) (slack_pow_pos k).le
  linarith

theorem Near.mono {n m k j : Nat} {d : Double} {x : ℚ} (h : Near n k d x) (hn : n ≤ m) (hk : k ≤ j) : Near m j d x := by
  have hx := h.gt
  obtain ⟨q, h1, h2, h3, h4, h5⟩ := h
  have hq : 0 < q := lt_of_lt_of_le (by positivity) h2
  have hs : slack ^ k ≤ slack ^ j := pow_le_pow_right₀ one_le_slack hk
  obtain ⟨q', e, b1, b2⟩ := Pos.mono hn ⟨q, h1, h2, h3⟩
  rw [h1] at e
  cases e
  exact ⟨q, h1, b1, b2, h4.trans (mul_le_mul_of_nonneg_left hs hq.le), h5.trans (mul_le_mul_of_nonneg_left hs hx.le)⟩

theorem rnd_slack {n : Nat} {x : ℚ} (hn : n ≤ 1022) (h1 : 1 / 2 ^ n ≤ x) (h2 : x ≤ 2 ^ n) : x ≤ rnd x * slack ∧ rnd x ≤ x * slack := by
  have hx : 0 < x := lt_of_lt_of_le (by positivity) h1
  have h0 : |x| ≤ 2 ^ n := by rwa [abs_of_pos hx]
  have hb : (1 : ℚ) / 2 ^ 1022 ≤ |x| := by
    rw [abs_of_pos hx]
    exact (div_le_div_of_nonneg_left (by norm_num) (by positivity) (pow_le_pow_right₀ (by norm_num) hn)).trans h1
  have h := abs_le.1 (rnd_normal hb (small (by omega) h0))
  rw [abs_of_pos hx] at h
  unfold slack
  constructor <;> norm_num at h ⊢ <;> linarith [h.1, h.2]

theorem Near.rounded (s : Bool) {n k : Nat} {y x : ℚ} (hn : n ≤ 1022) (h1 : 1 / 2 ^ n ≤ y) (h2 : y ≤ 2 ^ n) (h3 : x ≤ y * slack ^ k) (h4 : y ≤ x * slack ^ k) :
    Near n (k + 1) (Double.rounded s y) x := by
  have hy : 0 < y := lt_of_lt_of_le (by positivity) h1
  obtain ⟨q, e, b1, b2⟩ := pos_of_rounded s hn h1 h2
  have e' := val_rounded s (small (k := n) (by omega) (by rwa [abs_of_pos hy]))
  rw [e] at e'
  cases e'
  obtain ⟨r1, r2⟩ := rnd_slack hn h1 h2
  have hp := slack_pow_pos k
  refine ⟨_, e, b1, b2, ?_, ?_⟩
  · calc x ≤ y * slack ^ k := h3
      _ ≤ rnd y * slack * slack ^ k := mul_le_mul_of_nonneg_right r1 hp.le
      _ = _ := by ring
  · calc rnd y ≤ y * slack := r2
      _ ≤ x * slack ^ k * slack := mul_le_mul_of_nonneg_right h4 slack_pos.le
      _ = _ := by ring

theorem Near.add {n k : Nat} {a b : Double} {x y : ℚ} (hn : n < 1000) (ha : Near n k a x) (hb : Near n k b y) : Near (n + 1) (k + 1) (Double.add a b) (x + y) := by
  obtain ⟨p, ea, p1, p2, p3, p4⟩ := ha
  obtain ⟨q, eb, q1, q2, q3, q4⟩ := hb
  rw [add_val ea eb]
  have h0 : (0 : ℚ) < 1 / 2 ^ n := by positivity
  have e : (1 : ℚ) / 2 ^ (n + 1) = 1 / 2 ^ n / 2 := by rw [pow_succ]; field_simp
  refine Near.rounded _ (by omega) ?_ ?_ ?_ ?_
  · rw [e]; linarith
  · rw [pow_succ]; linarith
  · rw [add_mul]; linarith
  · rw [add_mul]; linarith

theorem Near.mul {m n j k : Nat} {a b : Double} {x y : ℚ} (hn : m + n ≤ 1000) (ha : Near m j a x) (hb : Near n k b y) : Near (m + n) (j + k + 1) (Double.mul a b) (x * y) := by
  have hx := ha.gt
  have hy := hb.gt
  obtain ⟨p, ea, p1, p2, p3, p4⟩ := ha
  obtain ⟨q, eb, q1, q2, q3, q4⟩ := hb
  have hp0 : 0 < p := lt_of_lt_of_le (by positivity) p1
  have hq0 : 0 < q := lt_of_lt_of_le (by positivity) q1
  have hj := slack_pow_pos j
  have hk := slack_pow_pos k
  rw [mul_val ea eb]
  refine Near.rounded _ (by omega) ?_ ?_ ?_ ?_
  · rw [pow_add, ← div_div, div_eq_mul_one_div (1 / 2 ^ m)]
    exact mul_le_mul p1 q1 (by positivity) hp0.le
  · rw [pow_add]
    exact mul_le_mul p2 q2 hq0.le (by positivity)
  · calc x * y ≤ (p * slack ^ j) * (q * slack ^ k) := mul_le_mul p3 q3 hy.le (by positivity)
      _ = _ := by rw [pow_add]; ring
  · calc p * q ≤ (x * slack ^ j) * (y * slack ^ k) := mul_le_mul p4 q4 hq0.le (by positivity)
      _ = _ := by rw [pow_add]; ring

theorem Near.div {m n j k : Nat} {a b : Double} {x y : ℚ} (hn : m + n ≤ 1000) (ha : Near m j a x) (hb : Near n k b y) : Near (m + n) (j + k + 1) (Double.div a b) (x / y) := by
  have hx := ha.gt
  have hy := hb.gt
  obtain ⟨p, ea, p1, p2, p3, p4⟩ := ha
  obtain ⟨q, eb, q1, q2, q3, q4⟩ := hb
  have hp0 : 0 < p := lt_of_lt_of_le (by positivity) p1
  have hq0 : 0 < q := lt_of_lt_of_le (by positivity) q1
  have hj := slack_pow_pos j
  have hk := slack_pow_pos k
  rw [div_val ea eb hq0.ne']
  refine Near.rounded _ (by omega) ?_ ?_ ?_ ?_
  · rw [pow_add, ← div_div]
    exact div_le_div₀ hp0.le p1 hq0 q2
  · rw [div_le_iff₀ hq0, pow_add]
    have h3 : 1 ≤ 2 ^ n * q := by rwa [div_le_iff₀' (by positivity)] at q1
    calc p ≤ 2 ^ m * 1 := by rwa [mul_one]
      _ ≤ 2 ^ m * (2 ^ n * q) := mul_le_mul_of_nonneg_left h3 (by positivity)
      _ = _ := by ring
  · rw [div_le_iff₀ hy]
    calc x ≤ p * slack ^ j := p3
      _ = p / q * slack ^ j * q := by field_simp
      _ ≤ p / q * slack ^ j * (y * slack ^ k) := mul_le_mul_of_nonneg_left q4 (by positivity)
      _ = _ := by rw [pow_add]; ring
  · rw [div_le_iff₀ hq0]
    calc p ≤ x * slack ^ j := p4
      _ = x / y * slack ^ j * y := by field_simp
      _ ≤ x / y * slack ^ j * (q * slack ^ k) := mul_le_mul_of_nonneg_left q3 (by positivity)
      _ = _ := by rw [pow_add]; ring

/-- Adding to zero is exact. -/
theorem Near.zero_add {n k : Nat} {z a : Double} {x : ℚ} (hz : Double.val z = .fin 0) (hn : n ≤ 1000) (ha : Near n k a x) : Near n k (Double.add z a) x := by
  obtain ⟨p, ea, p1, p2, p3, p4⟩ := ha
  have hp0 : 0 < p := lt_of_lt_of_le (by positivity) p1
  refine ⟨p, ?_, p1, p2, p3, p4⟩
  rw [add_val hz ea, _root_.zero_add, val_rounded _ (small (k := n) (by omega) (by rwa [abs_of_pos hp0])), rnd_of_val ea]

/-! ## Ten equal terms -/

variable {log : Double → Double}

theorem fold_neg {d : Double} {t : ℚ} (hd : Double.val d = .fin t) (ht : t ≤ 0) : ∀ (l : List Nat) (acc : Double) (a : ℚ) (m : Nat), m + l.length ≤ 1000 → Double.val acc = .fin a →
    a ≤ t → |a| ≤ 2 ^ m → |t| ≤ 2 ^ m → ∃ r, Double.val (l.foldl (fun s _ => Double.add s d) acc) = .fin r ∧ r ≤ t
  | [], acc, a, m, _, ha, h1, _, _ => ⟨a, ha, h1⟩
  | x :: l, acc, a, m, hm, ha, h1, h2, h3 => by
    rw [List.length_cons] at hm
    have hs : |a + t| ≤ 2 ^ (m + 1) := (abs_add_le a t).trans (by rw [pow_succ]; linarith)
    have e := val_rounded (acc.neg && d.neg) (small (by omega) hs)
    rw [← add_val ha hd] at e
    rw [List.foldl_cons]
    refine fold_neg hd ht l _ _ (m + 1) (by omega) e ?_ (abs_rnd_pow (by omega) hs) (h3.trans (pow_le_pow_right₀ (by norm_num) (by omega)))
    exact (rnd_mono (by linarith : a + t ≤ t)).trans (rnd_of_val hd).le

theorem fold_nonneg {d : Double} {t : ℚ} (hd : Double.val d = .fin t) (ht : 0 ≤ t) : ∀ (l : List Nat) (acc : Double) (a : ℚ) (m : Nat), m + l.length ≤ 1000 → Double.val acc = .fin a →
    0 ≤ a → |a| ≤ 2 ^ m → |t| ≤ 2 ^ m → ∃ r, Double.val (l.foldl (fun s _ => Double.add s d) acc) = .fin r ∧ 0 ≤ r
  | [], acc, a, m, _, ha, h1, _, _ => ⟨a, ha, h1⟩
  | x :: l, acc, a, m, hm, ha, h1, h2, h3 => by
    rw [List.length_cons] at hm
    have hs : |a + t| ≤ 2 ^ (m + 1) := (abs_add_le a t).trans (by rw [pow_succ]; linarith)
    have e := val_rounded (acc.neg && d.neg) (small (by omega) hs)
    rw [← add_val ha hd] at e
    rw [List.foldl_cons]
    exact fold_nonneg hd ht l _ _ (m + 1) (by omega) e (rnd_nonneg (by linarith)) (abs_rnd_pow (by omega) hs) (h3.trans (pow_le_pow_right₀ (by norm_num) (by omega)))

/-! ## The sign of a score -/

/-- A positive double times a number, divided by ten. -/
theorem tenth {q w ten : Double} {l : ℚ} (hq : Double.Pos 800 q) (hw : Double.val w = .fin l) (hl : |l| ≤ 2 ^ 10) (h10 : Double.val ten = .fin 10) :
    ∃ t, Double.val (Double.div (Double.mul q w) ten) = .fin t ∧ |t| ≤ 2 ^ 820 ∧ (0 ≤ l → 0 ≤ t) ∧ (l ≤ -(1 / 2 ^ 63) → t < 0) := by
  obtain ⟨x, ex, x1, x2⟩ := hq
  have hx0 : 0 < x := lt_of_lt_of_le (by positivity) x1
  have b1 : |x * l| ≤ 2 ^ 810 := by
    rw [abs_mul, abs_of_pos hx0, show (2 : ℚ) ^ 810 = 2 ^ 800 * 2 ^ 10 from (pow_add 2 800 10)]
    exact mul_le_mul x2 hl (abs_nonneg _) (by positivity)
  have e1 := val_rounded (q.neg ^^ w.neg) (small (by omega) b1)
  rw [← mul_val ex hw] at e1
  have c1 := abs_rnd_pow (k := 810) (by omega) b1
  have b2 : |rnd (x * l) / 10| ≤ 2 ^ 810 := by
    rw [abs_div, abs_of_pos (by norm_num : (0 : ℚ) < 10)]
    exact (div_le_self (abs_nonneg _) (by norm_num)).trans c1
  have e2 := val_rounded ((Double.mul q w).neg ^^ ten.neg) (small (by omega) b2)
  rw [← div_val e1 h10 (by norm_num)] at e2
  refine ⟨_, e2, (abs_rnd_pow (k := 810) (by omega) b2).trans (pow_le_pow_right₀ (by norm_num) (by omega)), fun h => ?_, fun h => ?_⟩
  · exact rnd_nonneg (div_nonneg (rnd_nonneg (mul_nonneg hx0.le h)) (by norm_num))
  · have d1 : 1 / 2 ^ 863 ≤ -(x * l) := by
      rw [show (1 : ℚ) / 2 ^ 863 = 1 / 2 ^ 800 * (1 / 2 ^ 63) by rw [show (2 : ℚ) ^ 863 = 2 ^ 800 * 2 ^ 63 from pow_add 2 800 63]; field_simp, ← mul_neg]
      exact mul_le_mul x1 (by linarith) (by positivity) hx0.le
    have d2 := le_rnd_pow (k := 863) (by omega) d1
    rw [rnd_neg] at d2
    have d3 : 1 / 2 ^ 867 ≤ -(rnd (x * l) / 10) := by
      have : (1 : ℚ) / 2 ^ 867 = 1 / 2 ^ 863 / 16 := by rw [show (2 : ℚ) ^ 867 = 2 ^ 863 * 2 ^ 4 from pow_add 2 863 4]; field_simp; norm_num
      rw [this]
      have hp : (0 : ℚ) < 1 / 2 ^ 863 := by positivity
      linarith
    have d4 := le_rnd_pow (k := 867) (by omega) d3
    rw [rnd_neg] at d4
    have hp : (0 : ℚ) < 1 / 2 ^ 867 := by positivity
    linarith

theorem slack_small : slack ^ 19 < 1 + 1 / 2 ^ 47 := by unfold slack; norm_num

theorem slack_gap : slack ^ 19 / (1 + 1 / 2 ^ 47) ≤ 1 - 1 / 2 ^ 53 := by unfold slack; norm_num

/-- The score of a pair, step by step. -/
theorem pairScore_steps {F : Type} (E : Env F) (f ab ay xb xy : Int) : ∃ g : Nat → F, (∀ i, g i = E.gammas [E.ops.ofInt (ab + 1), E.ops.ofInt (ay + 1), E.ops.ofInt (xb + 1), E.ops.ofInt (xy + 1)] i) ∧
    StatDict.pairScore E f ab ay xb xy =
      let O := E.ops
      let inv := O.div (O.ofInt 1) (O.add (O.add (O.add (O.add (O.ofInt 0) (g 0)) (g 1)) (g 2)) (g 3))
      let p := fun i => O.mul (g i) inv
      let s := O.add (p 1) (p 0)
      .ok ((List.range 10).foldl (fun score _ => O.add score (O.div (O.mul (O.div (O.mul (O.ofInt f) (p 0)) s) (O.log (O.div (O.div (p 0) s) (O.add (p 2) (p 0))))) (O.ofInt 10))) (O.ofInt 0)) :=
  ⟨_, fun _ => rfl, rfl⟩

theorem score_sign (hl : LogLaw log) (hs : LogSign log) {srt : List (StatItem Double) → List (StatItem Double)} {ord : PairMap → PairMap} {gam : List Double → Nat → Double}
    {f ab ay xb xy : Int} (hf : 1 ≤ f) (g : Fin 4 → ℚ)
    (hg : ∀ i : Fin 4, Double.val (gam [(Double.ops log).ofInt (ab + 1), (Double.ops log).ofInt (ay + 1), (Double.ops log).ofInt (xb + 1), (Double.ops log).ofInt (xy + 1)] i) = .fin (g i) ∧
      1 / 2 ^ 160 ≤ g i ∧ g i ≤ 2 ^ 160) :
    ∃ d x, StatDict.pairScore (Double.env log srt ord gam) f ab ay xb xy = .ok d ∧ Double.val d = .fin x ∧
      (g 0 * (g 0 + g 1 + g 2 + g 3) * (1 + 1 / 2 ^ 47) ≤ (g 0 + g 1) * (g 0 + g 2) → x < 0) ∧
      ((g 0 + g 1) * (g 0 + g 2) * (1 + 1 / 2 ^ 47) ≤ g 0 * (g 0 + g 1 + g 2 + g 3) → 0 ≤ x) := by
  obtain ⟨G, hG, e⟩ := pairScore_steps (Double.env log srt ord gam) f ab ay xb xy
  have n0 : Near 160 0 (G 0) (g 0) := by rw [hG]; exact Near.exact (hg 0).1 (hg 0).2.1 (hg 0).2.2
  have n1 : Near 160 0 (G 1) (g 1) := by rw [hG]; exact Near.exact (hg 1).1 (hg 1).2.1 (hg 1).2.2
  have n2 : Near 160 0 (G 2) (g 2) := by rw [hG]; exact Near.exact (hg 2).1 (hg 2).2.1 (hg 2).2.2
  have n3 : Near 160 0 (G 3) (g 3) := by rw [hG]; exact Near.exact (hg 3).1 (hg 3).2.1 (hg 3).2.2
  have g0 := n0.gt
  have g1 := n1.gt
  have g2 := n2.gt
  have g3 := n3.gt
  clear hG hg
  rw [e]
  dsimp only [Double.env, Double.ops]
  have z : Double.val (Double.rounded false (clamp 0)) = .fin 0 := int_zero log
  have u : Double.val (Double.rounded false (clamp 1)) = .fin 1 := int_one log
  have ten : Double.val (Double.rounded false (clamp 10)) = .fin 10 := by have := int_exact (log := log) (n := 10) (by omega) (by omega); exact_mod_cast this
  have hT : Near 163 3 (Double.add (Double.add (Double.add (Double.add (Double.rounded false (clamp 0)) (G 0)) (G 1)) (G 2)) (G 3)) (g 0 + g 1 + g 2 + g 3) :=
    ((((n0.zero_add z (by omega)).add (by omega) n1).add (by omega) (n2.mono (by omega) (by omega))).add (by omega) (n3.mono (by omega) (by omega)))
  have hinv := (Near.exact (n := 0) u (by norm_num) (by norm_num)).div (by omega) hT
  generalize Double.div (Double.rounded false (clamp 1)) _ = inv at hinv
  have p0 := n0.mul (by omega) hinv
  have p1 := n1.mul (by omega) hinv
  have p2 := n2.mul (by omega) hinv
  generalize Double.mul (G 0) inv = P0 at p0
  generalize Double.mul (G 1) inv = P1 at p1
  generalize Double.mul (G 2) inv = P2 at p2
  have s1 := p1.add (by omega) p0
  have s2 := p2.add (by omega) p0
  generalize Double.add P1 P0 = S1 at s1
  generalize Double.add P2 P0 = S2 at s2
  have r := (p0.div (by omega) s1).div (by omega) s2
  generalize Double.div (Double.div P0 S1) S2 = R at r
  obtain ⟨fx, ef, f1, f2⟩ := int_range log hf
  have hq : Double.Pos 800 (Double.div (Double.mul (Double.rounded false (clamp f)) P0) S1) := by
    have hfp : Double.Pos 64 (Double.rounded false (clamp f)) := ⟨fx, ef, le_trans (by norm_num) f1, f2⟩
    exact Pos.mono (by omega) (Pos.div (by omega) (Pos.mul (by omega) hfp p0.pos) s1.pos)
  generalize Double.div (Double.mul (Double.rounded false (clamp f)) P0) S1 = Q at hq
  obtain ⟨ρ, eρ, ρ1, ρ2, ρ3, ρ4⟩ := r
  have hρ : 0 < ρ := lt_of_lt_of_le (by positivity) ρ1
  obtain ⟨l, el, l1, l2⟩ := hs R ρ eρ hρ
  obtain ⟨l', el', l3⟩ := hl R ρ eρ hρ
  rw [el] at el'
  cases el'
  obtain ⟨t, et, t1, t2, t3⟩ := tenth hq el l3 ten
  generalize Double.div (Double.mul Q (log R)) (Double.rounded false (clamp 10)) = D at et
  have hR : g 0 * (1 / (g 0 + g 1 + g 2 + g 3)) / (g 1 * (1 / (g 0 + g 1 + g 2 + g 3)) + g 0 * (1 / (g 0 + g 1 + g 2 + g 3))) /
      (g 2 * (1 / (g 0 + g 1 + g 2 + g 3)) + g 0 * (1 / (g 0 + g 1 + g 2 + g 3))) = g 0 * (g 0 + g 1 + g 2 + g 3) / ((g 0 + g 1) * (g 0 + g 2)) := by
    have hT0 : 0 < g 0 + g 1 + g 2 + g 3 := by positivity
    generalize g 0 + g 1 + g 2 + g 3 = T at hT0
    field_simp
    ring
  rw [hR] at ρ3 ρ4
  have hAB : 0 < (g 0 + g 1) * (g 0 + g 2) := by positivity
  have hsl := slack_pow_pos 19
  -- one fold for both cases
  have zero_fold : ∀ l : List Nat, l.length ≤ 20 → (t < 0 → ∃ x, Double.val (l.foldl (fun s _ => Double.add s D) (Double.rounded false (clamp 0))) = .fin x ∧ (l ≠ [] → x < 0)) ∧
      (0 ≤ t → ∃ x, Double.val (l.foldl (fun s _ => Double.add s D) (Double.rounded false (clamp 0))) = .fin x ∧ 0 ≤ x) := by
    intro l hlen
    refine ⟨fun ht => ?_, fun ht => ?_⟩
    · cases l with
      | nil => exact ⟨0, z, by simp⟩
      | cons y l =>
        rw [List.foldl_cons]
        have e1 : Double.val (Double.add (Double.rounded false (clamp 0)) D) = .fin t := by
          rw [add_val z et, zero_add, val_rounded _ (small (by omega) t1), rnd_of_val et]
        obtain ⟨x, ex, hx⟩ := fold_neg et ht.le l _ t 820 (by rw [List.length_cons] at hlen; omega) e1 le_rfl t1 t1
        exact ⟨x, ex, fun _ => by linarith⟩
    · exact fold_nonneg et ht l _ 0 820 (by omega) z le_rfl (by rw [abs_zero]; positivity) t1
  obtain ⟨z1, z2⟩ := zero_fold (List.range 10) (by simp)
  rcases lt_or_ge t 0 with ht | ht
  · obtain ⟨x, ex, hx⟩ := z1 ht
    refine ⟨_, x, rfl, ex, fun _ => hx (by simp), fun h => ?_⟩
    exfalso
    have h1 : 1 + 1 / 2 ^ 47 ≤ g 0 * (g 0 + g 1 + g 2 + g 3) / ((g 0 + g 1) * (g 0 + g 2)) := by
      rw [le_div_iff₀ hAB]
      linarith
    have h2 : 1 ≤ ρ := by
      by_contra hc
      have := slack_small
      have : ρ * slack ^ 19 ≤ 1 * slack ^ 19 := mul_le_mul_of_nonneg_right (not_le.1 hc).le hsl.le
      linarith
    have := t2 (l2 h2)
    linarith
  · obtain ⟨x, ex, hx⟩ := z2 ht
    refine ⟨_, x, rfl, ex, fun h => ?_, fun _ => hx⟩
    exfalso
    have h1 : g 0 * (g 0 + g 1 + g 2 + g 3) / ((g 0 + g 1) * (g 0 + g 2)) ≤ 1 / (1 + 1 / 2 ^ 47) := by
      rw [div_le_div_iff₀ hAB (by norm_num)]
      linarith
    have h2 : ρ ≤ 1 - 1 / 2 ^ 53 := by
      refine (ρ4.trans (mul_le_mul_of_nonneg_right h1 hsl.le)).trans ?_
      rw [one_div_mul_eq_div]
      exact slack_gap
    have h3 := l1 (by norm_num at h2 ⊢; linarith)
    have := t3 (h3.trans (by norm_num at h2 ⊢; linarith))
    linarith

end VGram.Props
