import Mathlib.Data.Int.Log
import Verif.Spec.Env

/-!
# Rounding arithmetic satisfies the laws

The laws of scores, order, environment and probabilities do not ask for exact arithmetic.  Here they are proved for `Ext K` with every
result rounded by an arbitrary monotone, sign-preserving function, in particular for binary floating-point numbers with 53-bit
mantissas, rounding to nearest, ties to even, and an exponent range wide enough for the values that occur.
-/

namespace VGram.Spec

/-- What the laws need of rounding. -/
structure Rounding {K : Type} [Field K] [LinearOrder K] (rnd : K → K) : Prop where
  mono : ∀ x y, x ≤ y → rnd x ≤ rnd y
  zero : rnd 0 = 0
  pos : ∀ x, 0 < x → 0 < rnd x

theorem Rounding.nonneg {K : Type} [Field K] [LinearOrder K] {rnd : K → K} (h : Rounding rnd) {x : K} (hx : 0 ≤ x) : 0 ≤ rnd x := by
  have := h.mono 0 x hx
  rwa [h.zero] at this

namespace Ext

variable {K : Type} [Field K] [LinearOrder K]

/-- The rounded value of a finite number. -/
def round (rnd : K → K) : Ext K → Ext K
  | fin x => fin (rnd x)
  | x => x

/-- The operations of `Ext K` with every result rounded, also conversions and literals. -/
def rops (rnd : K → K) [FloorRing K] (lg : K → K) : FloatOps (Ext K) where
  ofInt n := fin (rnd (n : K))
  lit m e := fin (rnd ((m : K) / (10 : K) ^ e))
  add x y := round rnd (add x y)
  sub x y := round rnd (add x (neg y))
  mul x y := round rnd (mul x y)
  div x y := round rnd (div x y)
  neg := neg
  log x := round rnd (log lg x)
  lt := lt
  lowest := bot
  maxVal := top
  trunc x := match x with
    | fin x => if 0 ≤ x then ⌊x⌋ else ⌈x⌉
    | _ => 0
  isFinite x := match x with
    | nan => false
    | _ => true

/-- The environment with rounded arithmetic; any sorting function, hash order and positive variates. -/
def renv (rnd : K → K) [FloorRing K] (lg : K → K) (srt : List (StatItem (Ext K)) → List (StatItem (Ext K))) (ord : PairMap → PairMap)
    (gam : List (Ext K) → Nat → Ext K) : Env (Ext K) where
  ops := rops rnd lg
  sortItems := srt
  pairOrder := ord
  gammas := gam

variable [FloorRing K] [IsStrictOrderedRing K] {rnd : K → K} (R : Rounding rnd) (lg : K → K)

include R in
theorem rint_pos {n : Int} (h : 1 ≤ n) : 0 < rnd (n : K) := R.pos _ (by have : (0 : Int) < n := by omega
                                                                        exact_mod_cast this)

include R in
theorem rIsLp_fin {lp : Ext K} (h : IsLp (rops rnd lg) lp) : ∃ x : K, lp = fin x := by
  obtain ⟨t, ht, rfl | ⟨f, hf, rfl⟩⟩ := h
  · have := rint_pos R ht
    exact ⟨_, by simp only [rops, log, this, if_true, neg, add, round]; rfl⟩
  · have h1 := rint_pos R ht
    have h2 := rint_pos R (show 1 ≤ f + 1 by omega)
    exact ⟨_, by simp only [rops, log, h1, h2, if_true, neg, add, round]; rfl⟩

/-- The losslessness laws hold in rounded arithmetic. -/
def rscoreLaws : ScoreLaws (rops rnd lg) where
  Good x := ∃ y : K, x = fin y
  zero := ⟨_, rfl⟩
  step := by
    rintro _ lp ⟨x, rfl⟩ h
    obtain ⟨y, rfl⟩ := rIsLp_fin R lg h
    exact ⟨_, rfl⟩
  above := by rintro _ ⟨x, rfl⟩; rfl
  notGood := by rintro ⟨x, hx⟩; cases hx
  dead := by
    rintro x lp hx h
    obtain ⟨y, rfl⟩ := rIsLp_fin R lg h
    rcases hx with rfl | ⟨x, rfl⟩ <;> rfl

/-- The optimality laws hold in rounded arithmetic. -/
def rorderLaws : OrderLaws (rops rnd lg) where
  Ok x := x = bot ∨ ∃ y : K, x = fin y
  lowest := Or.inl rfl
  zero := Or.inr ⟨_, rfl⟩
  step := by
    rintro x lp hx h
    obtain ⟨y, rfl⟩ := rIsLp_fin R lg h
    rcases hx with rfl | ⟨x, rfl⟩
    · exact Or.inl rfl
    · exact Or.inr ⟨_, rfl⟩
  asymm := by
    rintro _ _ (rfl | ⟨x, rfl⟩) (rfl | ⟨y, rfl⟩) h <;> simp_all [rops, lt, le_of_lt]
  leTrans := by
    rintro _ _ _ (rfl | ⟨x, rfl⟩) (rfl | ⟨y, rfl⟩) (rfl | ⟨z, rfl⟩) h h' <;> simp_all [rops, lt]
    exact le_trans h h'
  mono := by
    rintro x y lp hx hy h hle
    obtain ⟨l, rfl⟩ := rIsLp_fin R lg h
    rcases hx with rfl | ⟨x, rfl⟩ <;> rcases hy with rfl | ⟨y, rfl⟩ <;> simp_all [rops, lt, add, round]
    exact R.mono _ _ (by simpa using hle)

/-- The environment laws hold in rounded arithmetic. -/
def renvLaws (srt : List (StatItem (Ext K)) → List (StatItem (Ext K))) (ord : PairMap → PairMap) (gam : List (Ext K) → Nat → Ext K)
    (hsrt : ∀ l : List (StatItem (Ext K)), (∀ a ∈ l, a.score = top ∨ ∃ x, a.score = fin x) →
      (srt l).Perm l ∧ (srt l).Pairwise fun a b => Ext.lt (Ext.neg b.score) (Ext.neg a.score) = false)
    (hord : ∀ p, (ord p).Perm p) (hgam : ∀ ps i, ∃ x : K, 0 < x ∧ gam ps i = fin x) : EnvLaws (renv rnd lg srt ord gam) where
  Mag _ x := ∃ y : K, x = fin y
  Pos _ x := ∃ y : K, 0 < y ∧ x = fin y
  mono _ h := h
  monoPos _ h := h
  posMag := by rintro _ _ ⟨y, _, rfl⟩; exact ⟨y, rfl⟩
  int n := ⟨_, rfl⟩
  intPos n h := ⟨_, rint_pos R h, rfl⟩
  one := ⟨_, rint_pos R le_rfl, rfl⟩
  add := by rintro _ _ _ _ ⟨x, rfl⟩ ⟨y, rfl⟩; exact ⟨_, rfl⟩
  sub := by rintro _ _ _ _ ⟨x, rfl⟩ ⟨y, rfl⟩; exact ⟨_, rfl⟩
  absorbAdd := by rintro _ _ _ _ _ _ ⟨x, rfl⟩ ⟨y, rfl⟩; exact ⟨_, rfl⟩
  absorbSub := by rintro _ _ _ _ _ _ ⟨x, rfl⟩ ⟨y, rfl⟩; exact ⟨_, rfl⟩
  mul := by rintro _ _ _ _ _ ⟨x, rfl⟩ ⟨y, rfl⟩; exact ⟨_, rfl⟩
  div := by
    rintro _ _ _ _ _ ⟨x, rfl⟩ ⟨y, hy, rfl⟩
    exact ⟨rnd (x / y), by simp [renv, rops, Ext.div, hy.ne', round]⟩
  log := by
    rintro _ ⟨x, hx, rfl⟩
    exact ⟨rnd (lg x), by simp [renv, rops, Ext.log, hx, round]⟩
  addPos := by rintro _ _ _ _ ⟨x, hx, rfl⟩ ⟨y, hy, rfl⟩; exact ⟨rnd (x + y), R.pos _ (by positivity), rfl⟩
  addZero := by rintro _ _ _ ⟨x, hx, rfl⟩; exact ⟨rnd x, R.pos _ hx, by simp [renv, rops, Ext.add, round, R.zero]⟩
  mulPos := by rintro _ _ _ _ _ ⟨x, hx, rfl⟩ ⟨y, hy, rfl⟩; exact ⟨rnd (x * y), R.pos _ (by positivity), rfl⟩
  divPos := by
    rintro _ _ _ _ _ ⟨x, hx, rfl⟩ ⟨y, hy, rfl⟩
    exact ⟨rnd (x / y), R.pos _ (by positivity), by simp [renv, rops, Ext.div, hy.ne', round]⟩
  gamma _ _ _ i _ := hgam _ i
  below := by rintro _ ⟨x, rfl⟩; rfl
  top := rfl
  factor n := by
    have h1 : (0 : K) ≤ rnd (((n : Int) : K)) := R.nonneg (by positivity)
    have h2 : (0 : K) ≤ rnd (((13 : Int) : K) / (10 : K) ^ 1) := R.nonneg (by positivity)
    have h3 := R.nonneg (mul_nonneg h1 h2)
    show 0 ≤ (if (0 : K) ≤ rnd (rnd ((n : Int) : K) * rnd (((13 : Int) : K) / (10 : K) ^ 1)) then _ else _ : Int)
    rw [if_pos h3]
    exact Int.floor_nonneg.2 h3
  order := hord
  sort l h := hsrt l h

/-- The probability laws hold in rounded arithmetic. -/
def rprobLaws : ProbLaws (rops rnd lg) where
  Ok x := x = top ∨ ∃ y : K, x = fin y
  div a b _ hb := Or.inr ⟨_, by simp only [rops, Ext.div, (rint_pos R hb).ne', if_false, round]; rfl⟩
  inv b hb := by
    rcases hb.lt_or_eq with h | rfl
    · exact Or.inr ⟨_, by simp only [rops, Ext.div, (rint_pos R (show 1 ≤ b by omega)).ne', if_false, round]; rfl⟩
    · left
      have := rint_pos R (show (1 : Int) ≤ 1 by omega)
      simp only [Int.cast_one] at this
      simp [rops, Ext.div, R.zero, this, round]
  lit m e := Or.inr ⟨_, rfl⟩
  int n := Or.inr ⟨_, rfl⟩
  asymm := by
    rintro _ _ (rfl | ⟨x, rfl⟩) (rfl | ⟨y, rfl⟩) h <;> simp_all [rops, lt, le_of_lt]
  leTrans := by
    rintro _ _ _ (rfl | ⟨x, rfl⟩) (rfl | ⟨y, rfl⟩) (rfl | ⟨z, rfl⟩) h h' <;> simp_all [rops, lt]
    exact le_trans h h'

end Ext

/-! ## Floating-point numbers -/

section Binary

variable {K : Type} [Field K] [LinearOrder K] [FloorRing K]

/-- Rounding to the nearest integer, ties to the even one. -/
def nearestEven (t : K) : Int :=
  if Int.fract t < 1 / 2 then ⌊t⌋ else if 1 / 2 < Int.fract t then ⌊t⌋ + 1 else if ⌊t⌋ % 2 = 0 then ⌊t⌋ else ⌊t⌋ + 1

/-- The floating-point number with a `p + 1`-bit mantissa nearest to `x`; the exponent is unbounded. -/
def binary (p : Nat) (x : K) : K :=
  if 0 < x then nearestEven (x * 2 ^ ((p : Int) - Int.log 2 x)) * 2 ^ (Int.log 2 x - p)
  else if x < 0 then -(nearestEven (-x * 2 ^ ((p : Int) - Int.log 2 (-x))) * 2 ^ (Int.log 2 (-x) - p))
  else 0

variable [IsStrictOrderedRing K]

omit [IsStrictOrderedRing K] in
theorem nearestEven_bounds (t : K) : ⌊t⌋ ≤ nearestEven t ∧ nearestEven t ≤ ⌊t⌋ + 1 := by
  unfold nearestEven
  split <;> [skip; split <;> [skip; split]] <;> omega

theorem nearestEven_int (n : Int) : nearestEven (n : K) = n := by simp [nearestEven]

theorem nearestEven_mono {s t : K} (h : s ≤ t) : nearestEven s ≤ nearestEven t := by
  rcases (Int.floor_le_floor h).lt_or_eq with hf | hf
  · have := (nearestEven_bounds s).2
    have := (nearestEven_bounds t).1
    omega
  · have hs : Int.fract s ≤ Int.fract t := by
      unfold Int.fract
      rw [hf]
      linarith
    unfold nearestEven
    rw [hf]
    split <;> [skip; split <;> [skip; split]] <;> (try split) <;> (try split) <;> (try split) <;> first | omega | (exfalso; linarith)

/-- A positive number is rounded to something between the powers of two around it. -/
theorem binary_bounds (p : Nat) {x : K} (hx : 0 < x) : (2 : K) ^ Int.log 2 x ≤ binary p x ∧ binary p x ≤ 2 ^ (Int.log 2 x + 1) := by
  have h2 : (0 : K) < 2 := two_pos
  have l1 := Int.zpow_log_le_self (b := 2) one_lt_two hx
  have l2 := Int.lt_zpow_succ_log_self (b := 2) one_lt_two x
  set e := Int.log 2 x
  have hu : (0 : K) < 2 ^ ((p : Int) - e) := zpow_pos h2 _
  have hv : (0 : K) < 2 ^ (e - (p : Int)) := zpow_pos h2 _
  push_cast at l1 l2
  have e1 : (2 : K) ^ e = ((2 ^ p : Int) : K) * 2 ^ (e - p) := by
    push_cast
    rw [← zpow_natCast, ← zpow_add₀ h2.ne']
    congr 1
    omega
  have e2 : (2 : K) ^ (e + 1) = ((2 ^ (p + 1) : Int) : K) * 2 ^ (e - p) := by
    push_cast
    rw [← zpow_natCast, ← zpow_add₀ h2.ne']
    congr 1
    push_cast
    omega
  have c : (2 : K) ^ (e - p) * 2 ^ ((p : Int) - e) = 1 := by
    rw [← zpow_add₀ h2.ne']
    simp
  have b1 : ((2 ^ p : Int) : K) ≤ x * 2 ^ ((p : Int) - e) := by
    calc ((2 ^ p : Int) : K) = 2 ^ e * 2 ^ ((p : Int) - e) := by rw [e1, mul_assoc, c, mul_one]
      _ ≤ _ := mul_le_mul_of_nonneg_right l1 hu.le
  have b2 : x * 2 ^ ((p : Int) - e) ≤ ((2 ^ (p + 1) : Int) : K) := by
    calc _ ≤ 2 ^ (e + 1) * 2 ^ ((p : Int) - e) := mul_le_mul_of_nonneg_right l2.le hu.le
      _ = _ := by rw [e2, mul_assoc, c, mul_one]
  have n1 := nearestEven_mono b1
  have n2 := nearestEven_mono b2
  rw [nearestEven_int] at n1 n2
  unfold binary
  rw [if_pos hx]
  exact ⟨by rw [e1]; exact mul_le_mul_of_nonneg_right (by exact_mod_cast n1) hv.le, by rw [e2]; exact mul_le_mul_of_nonneg_right (by exact_mod_cast n2) hv.le⟩

theorem binary_mono_pos (p : Nat) {x y : K} (hx : 0 < x) (h : x ≤ y) : binary p x ≤ binary p y := by
  have hy := hx.trans_le h
  have h2 : (1 : K) ≤ 2 := one_le_two
  rcases (Int.log_mono_right (b := 2) hx h).lt_or_eq with hl | hl
  · exact (binary_bounds p hx).2.trans ((zpow_le_zpow_right₀ h2 (by omega)).trans (binary_bounds p hy).1)
  · unfold binary
    rw [if_pos hx, if_pos hy, hl]
    refine mul_le_mul_of_nonneg_right ?_ (zpow_pos two_pos _).le
    exact_mod_cast nearestEven_mono (mul_le_mul_of_nonneg_right h (zpow_pos two_pos _).le)

theorem binary_neg (p : Nat) (x : K) : binary p (-x) = -binary p x := by
  rcases lt_trichotomy x 0 with h | rfl | h
  · simp [binary, h, not_lt.2 h.le]
  · simp [binary]
  · simp [binary, h, not_lt.2 h.le]

theorem binary_pos (p : Nat) {x : K} (hx : 0 < x) : 0 < binary p x := (zpow_pos two_pos _).trans_le (binary_bounds p hx).1

/-- Floating-point rounding is a rounding, for every precision. -/
theorem binary_rounding (p : Nat) : Rounding (binary (K := K) p) where
  zero := by simp [binary]
  pos x hx := binary_pos p hx
  mono x y h := by
    rcases lt_trichotomy x 0 with hx | rfl | hx
    · rcases lt_trichotomy y 0 with hy | rfl | hy
      · have := binary_mono_pos p (neg_pos.2 hy) (neg_le_neg h)
        rw [binary_neg, binary_neg] at this
        exact neg_le_neg_iff.1 this
      · have := binary_pos p (neg_pos.2 hx)
        rw [binary_neg] at this
        simpa [binary] using this.le
      · have := binary_pos p (neg_pos.2 hx)
        rw [binary_neg] at this
        exact (neg_pos.1 this).le.trans (binary_pos p hy).le
    · rcases h.lt_or_eq with hy | rfl
      · simpa [binary] using (binary_pos p hy).le
      · exact le_refl _
    · exact binary_mono_pos p hx h

theorem nearestEven_err (t : K) : |(nearestEven t : K) - t| ≤ 1 / 2 := by
  have h0 := Int.fract_nonneg t
  have h1 := Int.fract_lt_one t
  have e : t = ⌊t⌋ + Int.fract t := (Int.floor_add_fract t).symm
  unfold nearestEven
  rw [abs_le]
  split <;> [skip; split <;> [skip; split]] <;> push_cast <;> constructor <;> linarith

/-- The relative error is at most half a unit in the last place. -/
theorem binary_err (p : Nat) (x : K) : |binary p x - x| ≤ |x| / 2 ^ (p + 1) := by
  have pos : ∀ x : K, 0 < x → |binary p x - x| ≤ |x| / 2 ^ (p + 1) := by
    intro x hx
    have h2 : (0 : K) < 2 := two_pos
    have l1 := Int.zpow_log_le_self (b := 2) one_lt_two hx
    push_cast at l1
    have ne := nearestEven_err (x * 2 ^ ((p : Int) - Int.log 2 x))
    unfold binary
    rw [if_pos hx]
    generalize Int.log 2 x = e at l1 ne ⊢
    have hv : (0 : K) < 2 ^ (e - (p : Int)) := zpow_pos h2 _
    have c : (2 : K) ^ ((p : Int) - e) * 2 ^ (e - p) = 1 := by
      rw [← zpow_add₀ h2.ne']
      simp
    have key : (nearestEven (x * 2 ^ ((p : Int) - e)) : K) * 2 ^ (e - p) - x =
        (nearestEven (x * 2 ^ ((p : Int) - e)) - x * 2 ^ ((p : Int) - e)) * 2 ^ (e - p) := by
      rw [sub_mul, mul_assoc x, c, mul_one]
    rw [key, abs_mul, abs_of_pos hv, abs_of_pos hx]
    calc _ ≤ 1 / 2 * (2 : K) ^ (e - p) := mul_le_mul_of_nonneg_right ne hv.le
      _ = 2 ^ e / 2 ^ (p + 1) := by
        rw [zpow_sub₀ h2.ne', zpow_natCast, pow_succ]
        field_simp
      _ ≤ _ := div_le_div_of_nonneg_right l1 (by positivity)
  rcases lt_trichotomy x 0 with h | rfl | h
  · have := pos (-x) (neg_pos.2 h)
    rw [binary_neg, abs_neg] at this
    rwa [neg_sub_neg, abs_sub_comm] at this
  · simp [binary]
  · exact pos x h

/-- Integers up to `2 ^ (p + 1)` are exact. -/
theorem binary_int (p : Nat) (n : Int) (h0 : 0 ≤ n) (h : n ≤ 2 ^ (p + 1)) : binary p (n : K) = n := by
  rcases h0.lt_or_eq with hn | rfl
  · have hx : (0 : K) < (n : K) := by exact_mod_cast hn
    have h2 : (2 : K) ≠ 0 := two_ne_zero
    have l1 := Int.zpow_log_le_self (b := 2) one_lt_two hx
    unfold binary
    rw [if_pos hx]
    push_cast at l1
    generalize Int.log 2 (n : K) = e at l1 ⊢
    have he : e ≤ p + 1 := by
      by_contra hc
      have : (2 : K) ^ ((p + 1 : Nat) : Int) < 2 ^ e := zpow_lt_zpow_right₀ one_lt_two (by push_cast; omega)
      have h' : ((n : Int) : K) ≤ 2 ^ (p + 1) := by exact_mod_cast h
      rw [zpow_natCast] at this
      linarith
    have fin : ∀ k : Int, (n : K) * 2 ^ ((p : Int) - e) = (k : K) → (nearestEven ((n : K) * 2 ^ ((p : Int) - e)) : K) * 2 ^ (e - p) = n := by
      intro k hk
      rw [hk, nearestEven_int, ← hk, mul_assoc, ← zpow_add₀ h2]
      simp
    rcases he.lt_or_eq with h' | rfl
    · obtain ⟨k, hk⟩ := Int.eq_ofNat_of_zero_le (show 0 ≤ (p : Int) - e by omega)
      refine fin (n * 2 ^ k) ?_
      rw [hk]
      push_cast
      rw [zpow_natCast]
    · have e1 : (n : K) = 2 ^ (p + 1) := by
        refine le_antisymm (by exact_mod_cast h) ?_
        rw [← zpow_natCast]
        exact_mod_cast l1
      refine fin (2 ^ p) ?_
      rw [e1]
      push_cast
      rw [show (p : Int) - (p + 1) = -1 by omega, zpow_neg_one, pow_succ]
      field_simp
  · simp [binary]

end Binary

end VGram.Spec
