import Mathlib.Algebra.Order.Field.Rat
import Mathlib.Algebra.Order.Field.Power
import Mathlib.Tactic.FieldSimp
import Mathlib.Tactic.Linarith
import Mathlib.Tactic.Ring
import Mathlib.Tactic.NormNum
import Mathlib.Tactic.Positivity
import Verif.Model.Grisu
import Verif.Spec.Double

/-! # The digits of a double -/

namespace VGram.Grisu

theorem u64_lt {n : Nat} (h : n < 2 ^ 64) : u64 n = n := Nat.mod_eq_of_lt h

theorem sub64_le {a b : Nat} (h : b ≤ a) (ha : a < 2 ^ 64) : sub64 a b = a - b := by
  unfold sub64 u64
  omega

theorem assert_true {b : Bool} (h : b = true) : assert b = .ok () := by
  subst h
  rfl

theorem g_bind {α β : Type} (a : α) (f : α → G β) : ((Except.ok a : G α) >>= f) = f a := rfl

theorem g_pure {α : Type} (a : α) : (pure a : G α) = .ok a := rfl

/-! ## Products -/

theorem mul_f {x y : Diyfp} (hx : x.f < 2 ^ 64) (hy : y.f < 2 ^ 64) : (x.mul y).f = (x.f * y.f + 2 ^ 63) / 2 ^ 64 := by
  obtain ⟨x, xe⟩ := x
  obtain ⟨y, ye⟩ := y
  simp only at hx hy
  simp only [Diyfp.mul]
  set a := x % 2 ^ 32 with ha
  set b := x / 2 ^ 32 with hb
  set c := y % 2 ^ 32 with hc
  set d := y / 2 ^ 32 with hd
  have a1 : a ≤ 2 ^ 32 - 1 := by omega
  have b1 : b ≤ 2 ^ 32 - 1 := by omega
  have c1 : c ≤ 2 ^ 32 - 1 := by omega
  have d1 : d ≤ 2 ^ 32 - 1 := by omega
  have ex : x = a + 2 ^ 32 * b := by omega
  have ey : y = c + 2 ^ 32 * d := by omega
  have key : ∀ p q : Nat, p ≤ 2 ^ 32 - 1 → q ≤ 2 ^ 32 - 1 → p * q ≤ (2 ^ 32 - 1) * (2 ^ 32 - 1) := fun p q hp hq => Nat.mul_le_mul hp hq
  have h0 := key a c a1 c1
  have h1 := key a d a1 d1
  have h2 := key b c b1 c1
  have h3 := key b d b1 d1
  have e : x * y = a * c + 2 ^ 32 * (a * d + b * c) + 2 ^ 64 * (b * d) := by
    rw [ex, ey]
    ring
  rw [e]
  generalize a * c = p0 at *
  generalize a * d = p1 at *
  generalize b * c = p2 at *
  generalize b * d = p3 at *
  clear_value a b c d
  unfold u64
  omega

theorem mul_lt {x y : Nat} (hx : x < 2 ^ 64) (hy : y < 2 ^ 64) : (x * y + 2 ^ 63) / 2 ^ 64 < 2 ^ 64 := by
  have : x * y ≤ (2 ^ 64 - 1) * (2 ^ 64 - 1) := Nat.mul_le_mul (by omega) (by omega)
  omega

/-! ## Normalisation -/

theorem normalizeLoop_eq : ∀ (s k : Nat) (x : Diyfp), 2 ^ 63 ≤ x.f * 2 ^ s → x.f * 2 ^ s < 2 ^ 64 →
    Diyfp.normalizeLoop (s + 1 + k) x = .ok ⟨x.f * 2 ^ s, x.e - s⟩
  | 0, k, ⟨f, e⟩, h1, h2 => by
    simp only [Nat.pow_zero, Nat.mul_one] at h1 h2
    rw [show 0 + 1 + k = k + 1 by omega, Diyfp.normalizeLoop, if_neg (by simp only; omega)]
    simp
  | s + 1, k, ⟨f, e⟩, h1, h2 => by
    simp only at h1 h2 ⊢
    have hp : 1 ≤ 2 ^ s := Nat.one_le_two_pow
    have hf : f * 2 < 2 ^ 64 := by
      have : f * 2 * 1 ≤ f * 2 * 2 ^ s := Nat.mul_le_mul_left _ hp
      have e : f * 2 * 2 ^ s = f * 2 ^ (s + 1) := by ring
      omega
    rw [show s + 1 + 1 + k = (s + 1 + k) + 1 by omega, Diyfp.normalizeLoop, if_pos (by simp only; omega), u64_lt hf]
    have e' : f * 2 * 2 ^ s = f * 2 ^ (s + 1) := by ring
    rw [normalizeLoop_eq s k ⟨f * 2, e - 1⟩ (by simp only; omega) (by simp only; omega)]
    simp only [e']
    congr 2
    push_cast
    ring

theorem exists_shift {f : Nat} (h0 : 0 < f) (h : f < 2 ^ 64) : ∃ s, s ≤ 63 ∧ 2 ^ 63 ≤ f * 2 ^ s ∧ f * 2 ^ s < 2 ^ 64 := by
  have h1 : 2 ^ Nat.log2 f ≤ f := Nat.log2_self_le (by omega)
  have h2 : f < 2 ^ (Nat.log2 f + 1) := Nat.lt_log2_self
  have h3 : Nat.log2 f < 64 := (Nat.log2_lt (by omega)).2 h
  generalize Nat.log2 f = l at *
  obtain ⟨s, hs⟩ : ∃ s, 63 = l + s := ⟨63 - l, by omega⟩
  refine ⟨s, by omega, ?_, ?_⟩
  · rw [hs, Nat.pow_add]
    exact Nat.mul_le_mul_right _ h1
  · rw [show 64 = (l + 1) + s by omega, Nat.pow_add]
    exact Nat.mul_lt_mul_of_pos_right h2 (by positivity)

theorem normalize_eq {x : Diyfp} {s : Nat} (hs : s ≤ 63) (h1 : 2 ^ 63 ≤ x.f * 2 ^ s) (h2 : x.f * 2 ^ s < 2 ^ 64) :
    x.normalize = .ok ⟨x.f * 2 ^ s, x.e - s⟩ := by
  have h0 : x.f ≠ 0 := by
    intro h
    rw [h] at h1
    omega
  rw [Diyfp.normalize, assert_true (by simpa using h0), g_bind]
  obtain ⟨k, hk⟩ : ∃ k, 65 = s + 1 + k := ⟨64 - s, by omega⟩
  rw [hk]
  exact normalizeLoop_eq s k x h1 h2

theorem normalizeTo_eq {x : Diyfp} {target : Int} {s : Nat} (ht : x.e - target = s) (h : x.f * 2 ^ s < 2 ^ 64) :
    x.normalizeTo target = .ok ⟨x.f * 2 ^ s, target⟩ := by
  have hp : 0 < 2 ^ s := by positivity
  simp only [Diyfp.normalizeTo, ht, Int.toNat_natCast, u64_lt h, Nat.mul_div_cancel _ hp]
  rw [assert_true (by simp), assert_true (by simp)]
  rfl

/-! ## Digits -/

/-- The number with the given digits, last one first. -/
def dval : List Nat → Nat
  | [] => 0
  | d :: ds => d + 10 * dval ds

/-- Decimal digits without a leading zero, last one first. -/
structure Lead (buf : List Nat) : Prop where
  digits : ∀ d ∈ buf, d ≤ 9
  lead : ∀ d, buf.getLast? = some d → 1 ≤ d

theorem Lead.nil : Lead [] := ⟨by simp, by simp⟩

theorem Lead.cons {d : Nat} {buf : List Nat} (h : Lead buf) (hd : d ≤ 9) (h0 : buf = [] → 1 ≤ d) : Lead (d :: buf) := by
  refine ⟨by simpa using ⟨hd, h.digits⟩, fun x hx => ?_⟩
  cases buf with
  | nil =>
    cases hx
    exact h0 rfl
  | cons y l =>
    rw [List.getLast?_cons_cons] at hx
    exact h.lead x hx

theorem Lead.ge : ∀ {buf : List Nat}, Lead buf → buf ≠ [] → 10 ^ (buf.length - 1) ≤ dval buf
  | [d], h, _ => by
    have := h.lead d rfl
    simp [dval]
    omega
  | d :: e :: l, h, _ => by
    have hl : Lead (e :: l) := ⟨fun x hx => h.digits x (by simp [hx]), fun x hx => h.lead x (by rw [List.getLast?_cons_cons]; exact hx)⟩
    have := hl.ge (by simp)
    simp only [List.length_cons, Nat.add_sub_cancel, dval] at this ⊢
    rw [Nat.pow_succ]
    omega

theorem dval_lt : ∀ {buf : List Nat}, (∀ d ∈ buf, d ≤ 9) → dval buf < 10 ^ buf.length
  | [], _ => by simp [dval]
  | d :: l, h => by
    have h1 := dval_lt (buf := l) fun x hx => h x (by simp [hx])
    have h2 := h d (by simp)
    simp only [dval, List.length_cons, Nat.pow_succ]
    omega

theorem len_bound {A delta unit : Nat} {buf : List Nat} (h : Lead buf) (h1 : dval buf * unit ≤ A) (h2 : A < 10 ^ 16 * delta) (h3 : delta < unit) :
    buf.length ≤ 16 := by
  by_contra hn
  have h4 := h.ge (by rintro rfl; simp at hn)
  have h5 : 10 ^ 16 ≤ 10 ^ (buf.length - 1) := Nat.pow_le_pow_right (by omega) (by omega)
  have h6 : 10 ^ 16 * delta ≤ dval buf * unit := Nat.mul_le_mul (h5.trans h4) h3.le
  omega

/-! ## Rounding -/

/-- `i` steps of `tenK` below `rest` are at least as near to `dist` as any other number of steps. -/
def Nearest (dist delta tenK rest i : Nat) : Prop :=
  ∀ j : Nat, rest + j * tenK ≤ delta → |(dist : ℤ) - (rest + i * tenK : ℕ)| ≤ |(dist : ℤ) - (rest + j * tenK : ℕ)|

theorem abs_le_abs_of {x y : ℤ} (h1 : x ≤ y ∨ x ≤ -y) (h2 : -x ≤ y ∨ -x ≤ -y) : |x| ≤ |y| := by
  rcases abs_cases x with h | h <;> rcases abs_cases y with h' | h' <;> omega

theorem roundLoop_spec {dist delta tenK : Nat} (hδ : delta < 2 ^ 64) (hd : dist ≤ delta) : ∀ (fuel d : Nat) (b : List Nat) (rest : Nat),
    d < fuel → rest ≤ delta → delta < d * tenK + rest →
    ∃ d', roundLoop dist delta tenK fuel (d :: b) rest = .ok (d' :: b) ∧ 1 ≤ d' ∧ d' ≤ d ∧ rest + (d - d') * tenK ≤ delta ∧
      Nearest dist delta tenK rest (d - d')
  | 0, d, b, rest, h, _, _ => by omega
  | fuel + 1, d, b, rest, h, h1, h2 => by
    have d0 : 1 ≤ d := by
      rcases Nat.eq_zero_or_pos d with rfl | h
      · omega
      · exact h
    rw [roundLoop]
    split
    · next hc =>
      obtain ⟨c1, c2, c3⟩ := hc
      rw [sub64_le h1 hδ] at c2
      have hu : u64 (rest + tenK) = rest + tenK := u64_lt (by omega)
      have c3 : rest + tenK < dist ∨ rest + tenK - dist < dist - rest := by
        rw [hu] at c3
        refine c3.imp id fun c3 => ?_
        by_cases hlt : rest + tenK < dist
        · omega
        · rwa [sub64_le (by omega) (by omega), sub64_le (by omega) (by omega)] at c3
      simp only [if_neg (show d ≠ 0 by omega), hu]
      have e : d * tenK = (d - 1) * tenK + tenK := by
        obtain ⟨k, rfl⟩ : ∃ k, d = k + 1 := ⟨d - 1, by omega⟩
        simp only [Nat.add_sub_cancel]
        ring
      obtain ⟨d', r1, r2, r3, r4, r5⟩ := roundLoop_spec (tenK := tenK) hδ hd fuel (d - 1) b (rest + tenK) (by omega) (by omega) (by omega)
      have e' : (d - d') * tenK = (d - 1 - d') * tenK + tenK := by
        obtain ⟨k, hk⟩ : ∃ k, d - d' = k + 1 := ⟨d - d' - 1, by omega⟩
        rw [hk, show d - 1 - d' = k by omega]
        ring
      refine ⟨d', r1, r2, by omega, by omega, fun j hj => ?_⟩
      rw [show rest + (d - d') * tenK = rest + tenK + (d - 1 - d') * tenK by omega]
      rcases j with _ | j
      · refine (r5 0 (by omega)).trans (abs_le_abs_of ?_ ?_) <;> · push_cast; omega
      · have ej : (j + 1) * tenK = j * tenK + tenK := by ring
        rw [show rest + (j + 1) * tenK = rest + tenK + j * tenK by omega]
        exact r5 j (by omega)
    · next hc =>
      refine ⟨d, rfl, d0, le_refl _, by simpa using h1, fun j hj => ?_⟩
      rw [Nat.sub_self, Nat.zero_mul, Nat.add_zero]
      rcases j with _ | j
      · simp
      · have ej : (j + 1) * tenK = j * tenK + tenK := by ring
        by_cases hr : rest < dist
        · have hc' : ¬ (rest + tenK < dist ∨ rest + tenK - dist < dist - rest) := by
            intro h3
            refine hc ⟨hr, by rw [sub64_le h1 hδ]; omega, ?_⟩
            have hu : u64 (rest + tenK) = rest + tenK := u64_lt (by omega)
            rw [hu]
            by_cases hlt : rest + tenK < dist
            · exact Or.inl hlt
            · right
              rw [sub64_le (by omega) (by omega), sub64_le (by omega) (by omega)]
              omega
          refine abs_le_abs_of ?_ ?_ <;> · push_cast [ej]; omega
        · refine abs_le_abs_of ?_ ?_ <;> · push_cast [ej]; omega

theorem round_spec {dist delta tenK : Nat} (hδ : delta < 2 ^ 64) (hd : dist ≤ delta) (hk : 0 < tenK) {d : Nat} {b : List Nat} {rest : Nat}
    (h : d ≤ 9) (h1 : rest ≤ delta) (h2 : delta < d * tenK + rest) :
    ∃ d', round (d :: b) dist delta rest tenK = .ok (d' :: b) ∧ 1 ≤ d' ∧ d' ≤ d ∧ rest + (d - d') * tenK ≤ delta ∧ Nearest dist delta tenK rest (d - d') := by
  simp only [round]
  rw [assert_true (by simp), assert_true (by simpa using hd), assert_true (by simpa using h1), assert_true (by simpa using hk)]
  exact roundLoop_spec hδ hd 11 d b rest (by omega) h1 h2

/-- What the digits that are returned satisfy: `N * unit` is at most `A` and at least `A - delta`, the numbers with fewer digits are not, and those with as
many digits are not nearer to `A - dist`. -/
structure Final (A delta dist unit : Nat) (buf : List Nat) : Prop where
  lead : Lead buf
  len : 1 ≤ buf.length ∧ buf.length ≤ 17
  last : buf.head? ≠ some 0
  le : dval buf * unit ≤ A
  ge : A ≤ dval buf * unit + delta
  short : ∀ x, A ≤ x * (10 * unit) + delta → A < x * (10 * unit)
  big : 2 ≤ buf.length → 10 ^ (buf.length - 1) * unit + delta ≤ A
  near : ∀ x, x * unit ≤ A → A ≤ x * unit + delta → |(A : ℤ) - dist - (dval buf * unit : ℕ)| ≤ |(A : ℤ) - dist - (x * unit : ℕ)|

theorem final_of {A delta dist unit d d' rest : Nat} {b : List Nat} (hb : Lead b) (hl : b.length ≤ 16) (h9 : d ≤ 9) (h1 : 1 ≤ d') (h2 : d' ≤ d)
    (hr : rest + (d - d') * unit ≤ delta) (hA : A = dval (d :: b) * unit + rest) (hu : rest < unit) (hd : delta < d * unit + rest)
    (hn : Nearest dist delta unit rest (d - d')) : Final A delta dist unit (d' :: b) := by
  have e : dval (d :: b) = dval (d' :: b) + (d - d') := by
    simp only [dval]
    omega
  have e2 : dval (d :: b) * unit = dval (d' :: b) * unit + (d - d') * unit := by rw [e, Nat.add_mul]
  have e3 : dval (d :: b) * unit = dval b * (10 * unit) + d * unit := by
    simp only [dval]
    ring
  have e4 : d * unit + unit ≤ 10 * unit := by
    rw [← Nat.succ_mul]
    exact Nat.mul_le_mul_right _ (by omega)
  refine ⟨hb.cons (by omega) fun _ => h1, by simp; omega, by simp; omega, by omega, by omega, fun x hx => ?_, fun hlen => ?_, fun x hx1 hx2 => ?_⟩
  · by_contra hlt
    have : x ≤ dval b := by
      by_contra hgt
      have : (dval b + 1) * (10 * unit) ≤ x * (10 * unit) := Nat.mul_le_mul_right _ (by omega)
      rw [Nat.add_mul] at this
      omega
    have : x * (10 * unit) ≤ dval b * (10 * unit) := Nat.mul_le_mul_right _ this
    omega
  · simp only [List.length_cons] at hlen ⊢
    have h3 := hb.ge (by rintro rfl; simp at hlen)
    obtain ⟨n, hn⟩ : ∃ n, b.length = n + 1 := ⟨b.length - 1, by omega⟩
    rw [hn, Nat.add_sub_cancel] at h3
    rw [hn, Nat.add_sub_cancel, Nat.pow_succ]
    have : 10 ^ n * (10 * unit) ≤ dval b * (10 * unit) := Nat.mul_le_mul_right _ h3
    rw [← Nat.mul_assoc] at this
    omega
  · have hx : x ≤ dval (d :: b) := by
      by_contra hgt
      have : (dval (d :: b) + 1) * unit ≤ x * unit := Nat.mul_le_mul_right _ (by omega)
      rw [Nat.add_mul] at this
      omega
    have e5 : dval (d :: b) * unit = x * unit + (dval (d :: b) - x) * unit := by
      rw [← Nat.add_mul]
      congr 1
      omega
    have := hn (dval (d :: b) - x) (by omega)
    have e6 : (A : ℤ) - dist - (dval (d' :: b) * unit : ℕ) = -((dist : ℤ) - (rest + (d - d') * unit : ℕ)) := by omega
    have e7 : (A : ℤ) - dist - (x * unit : ℕ) = -((dist : ℤ) - (rest + (dval (d :: b) - x) * unit : ℕ)) := by omega
    rw [e6, e7, abs_neg, abs_neg]
    exact this

/-! ## The integral part -/

theorem integral_spec {sh p2 delta dist A : Nat} (hA : A < 2 ^ 64) (hδ : delta < 2 ^ 64) (hd : dist ≤ delta) (h2 : p2 < 2 ^ sh) (h16 : A < 10 ^ 16 * delta) :
    ∀ (n p1 pow10 : Nat) (buf : List Nat) (dexp : Int), (1 ≤ n → pow10 = 10 ^ (n - 1)) → p1 < 10 ^ n →
      A = dval buf * (10 ^ n * 2 ^ sh) + (p1 * 2 ^ sh + p2) → delta < p1 * 2 ^ sh + p2 → Lead buf → (buf = [] → 1 ≤ n ∧ pow10 ≤ p1) →
      (∃ buf' j, integralLoop sh p2 delta dist n p1 pow10 buf dexp = .ok (.inl (buf', dexp + (j : Nat))) ∧ Final A delta dist (10 ^ j * 2 ^ sh) buf') ∨
      (∃ buf', integralLoop sh p2 delta dist n p1 pow10 buf dexp = .ok (.inr buf') ∧ delta < p2 ∧ A = dval buf' * 2 ^ sh + p2 ∧ Lead buf' ∧ buf' ≠ [])
  | 0, p1, pow10, buf, dexp, _, h1, hA', hδ', hb, hn => by
    simp only [Nat.pow_zero, Nat.lt_one_iff] at h1
    subst h1
    refine Or.inr ⟨buf, rfl, by simpa using hδ', by simpa using hA', hb, fun h => ?_⟩
    have := (hn h).1
    omega
  | n + 1, p1, pow10, buf, dexp, hpow, h1, hA', hδ', hb, hn => by
    have hpow := hpow (by omega)
    simp only [Nat.add_sub_cancel] at hpow
    subst hpow
    have hp : 0 < 10 ^ n := by positivity
    have hs : 0 < 2 ^ sh := by positivity
    have hdiv : p1 = 10 ^ n * (p1 / 10 ^ n) + p1 % 10 ^ n := (Nat.div_add_mod _ _).symm
    have hr : p1 % 10 ^ n < 10 ^ n := Nat.mod_lt _ hp
    have hd9 : p1 / 10 ^ n ≤ 9 := by
      have : p1 / 10 ^ n < 10 := by
        rw [Nat.div_lt_iff_lt_mul hp]
        rw [Nat.pow_succ] at h1
        omega
      omega
    have hlead : buf = [] → 1 ≤ p1 / 10 ^ n := fun h => (Nat.one_le_div_iff hp).2 (hn h).2
    generalize hdd : p1 / 10 ^ n = d at *
    generalize hrr : p1 % 10 ^ n = r at *
    have eA : A = dval (d :: buf) * (10 ^ n * 2 ^ sh) + (r * 2 ^ sh + p2) := by
      rw [hA', hdiv]
      simp only [dval]
      ring
    have hrest : r * 2 ^ sh + p2 ≤ A := by
      rw [eA]
      exact Nat.le_add_left _ _
    have hle : r * 2 ^ sh ≤ r * 2 ^ sh + p2 := Nat.le_add_right _ _
    have eu : u64 (u64 (r * 2 ^ sh) + p2) = r * 2 ^ sh + p2 := by
      rw [u64_lt (n := r * 2 ^ sh) (by omega), u64_lt (by omega)]
    have hunit : r * 2 ^ sh + p2 < 10 ^ n * 2 ^ sh := by
      have : (r + 1) * 2 ^ sh ≤ 10 ^ n * 2 ^ sh := Nat.mul_le_mul_right _ (by omega)
      rw [Nat.add_mul] at this
      omega
    have hlen : buf.length ≤ 16 := by
      refine len_bound (unit := 10 ^ (n + 1) * 2 ^ sh) hb (by rw [hA']; exact Nat.le_add_right _ _) h16 ?_
      have : (p1 + 1) * 2 ^ sh ≤ 10 ^ (n + 1) * 2 ^ sh := Nat.mul_le_mul_right _ (by omega)
      rw [Nat.add_mul] at this
      omega
    simp only [integralLoop, hdd, hrr, eu]
    rw [assert_true (by simpa using hd9), g_bind]
    split
    · next hle' =>
      have hten : u64 (10 ^ n * 2 ^ sh) = 10 ^ n * 2 ^ sh := by
        apply u64_lt
        have : 1 * (10 ^ n * 2 ^ sh) ≤ dval (d :: buf) * (10 ^ n * 2 ^ sh) := by
          refine Nat.mul_le_mul_right _ ?_
          have := (hb.cons hd9 hlead).ge (by simp)
          exact (Nat.one_le_pow _ _ (by omega)).trans this
        omega
      have hk : delta < d * (10 ^ n * 2 ^ sh) + (r * 2 ^ sh + p2) := by
        have : p1 * 2 ^ sh = d * (10 ^ n * 2 ^ sh) + r * 2 ^ sh := by
          rw [hdiv]
          ring
        omega
      obtain ⟨d', r1, r2, r3, r4, r5⟩ := round_spec (b := buf) hδ hd (Nat.mul_pos hp hs) hd9 hle' hk
      rw [hten, r1, g_bind]
      exact Or.inl ⟨d' :: buf, n, rfl, final_of hb hlen hd9 r2 r3 r4 eA hunit hk r5⟩
    · next hgt =>
      exact integral_spec hA hδ hd h2 h16 n r (10 ^ n / 10) (d :: buf) dexp
        (fun hn1 => by
          obtain ⟨k, rfl⟩ : ∃ k, n = k + 1 := ⟨n - 1, by omega⟩
          rw [Nat.pow_succ, Nat.mul_div_cancel _ (by omega)]
          rfl) hr eA (by omega) (hb.cons hd9 hlead) (by simp)

/-! ## The fractional part -/

theorem fractional_spec {sh : Nat} (hsh : sh ≤ 60) : ∀ (fuel A p2 delta dist : Nat) (buf : List Nat) (dexp : Int),
    A = dval buf * 2 ^ sh + p2 → p2 < 2 ^ sh → delta < p2 → dist ≤ delta → A < 10 ^ 16 * delta → Lead buf → buf ≠ [] → 2 ^ 60 ≤ delta * 10 ^ fuel →
    ∃ buf' m, 1 ≤ m ∧ fractionalLoop sh fuel p2 delta dist buf dexp = .ok (buf', dexp - (m : Nat)) ∧ Final (A * 10 ^ m) (delta * 10 ^ m) (dist * 10 ^ m) (2 ^ sh) buf'
  | 0, A, p2, delta, dist, buf, dexp, _, h2, h3, _, _, _, _, hf => by
    have : 2 ^ sh ≤ 2 ^ 60 := Nat.pow_le_pow_right (by omega) hsh
    simp only [Nat.pow_zero, Nat.mul_one] at hf
    omega
  | fuel + 1, A, p2, delta, dist, buf, dexp, hA, h2, h3, h4, h16, hb, hne, hf => by
    have hs : 0 < 2 ^ sh := by positivity
    have h60 : 2 ^ sh ≤ 2 ^ 60 := Nat.pow_le_pow_right (by omega) hsh
    have hdiv : p2 * 10 = 2 ^ sh * (p2 * 10 / 2 ^ sh) + p2 * 10 % 2 ^ sh := (Nat.div_add_mod _ _).symm
    have hr : p2 * 10 % 2 ^ sh < 2 ^ sh := Nat.mod_lt _ hs
    have hd9 : p2 * 10 / 2 ^ sh ≤ 9 := by
      have : p2 * 10 / 2 ^ sh < 10 := by
        rw [Nat.div_lt_iff_lt_mul hs]
        omega
      omega
    have hu : u64 (p2 * 10) = p2 * 10 := u64_lt (by omega)
    have hu1 : u64 (delta * 10) = delta * 10 := u64_lt (by omega)
    have hu2 : u64 (dist * 10) = dist * 10 := u64_lt (by omega)
    have hu3 : u64 (2 ^ sh) = 2 ^ sh := u64_lt (by omega)
    simp only [fractionalLoop, hu, hu1, hu2, hu3]
    rw [assert_true (by simp only [decide_eq_true_eq]; omega), g_bind, assert_true (by simpa using hd9), g_bind]
    generalize hdd : p2 * 10 / 2 ^ sh = d at *
    generalize hrr : p2 * 10 % 2 ^ sh = r at *
    have eA : A * 10 = dval (d :: buf) * 2 ^ sh + r := by
      have : dval (d :: buf) * 2 ^ sh = 2 ^ sh * d + 10 * (dval buf * 2 ^ sh) := by
        simp only [dval]
        ring
      omega
    have hlen : buf.length ≤ 16 := len_bound hb (by rw [hA]; exact Nat.le_add_right _ _) h16 (h3.trans h2)
    split
    · next hle =>
      obtain ⟨d', r1, r2, r3, r4, r5⟩ := round_spec (b := buf) (dist := dist * 10) (delta := delta * 10) (tenK := 2 ^ sh) (rest := r) (by omega) (by omega) hs hd9 hle
        (by rw [Nat.mul_comm d]; omega)
      rw [r1, g_bind]
      refine ⟨d' :: buf, 1, le_refl _, rfl, ?_⟩
      simp only [Nat.pow_one]
      exact final_of hb hlen hd9 r2 r3 r4 eA hr (by rw [Nat.mul_comm d]; omega) r5
    · next hgt =>
      obtain ⟨buf', m, m1, m2, m3⟩ := fractional_spec hsh fuel (A * 10) r (delta * 10) (dist * 10) (d :: buf) (dexp - 1) eA hr (by omega) (by omega) (by omega)
        (hb.cons hd9 fun h => absurd h hne) (by simp) (by rw [Nat.pow_succ] at hf; rw [Nat.mul_assoc, Nat.mul_comm 10]; exact hf)
      refine ⟨buf', m + 1, by omega, ?_, ?_⟩
      · rw [m2]
        congr 2
        push_cast
        ring
      · rw [show A * 10 ^ (m + 1) = A * 10 * 10 ^ m by ring, show delta * 10 ^ (m + 1) = delta * 10 * 10 ^ m by ring,
          show dist * 10 ^ (m + 1) = dist * 10 * 10 ^ m by ring]
        exact m3

/-! ## All digits -/

theorem findLargestPow10_spec {n : Nat} (h0 : 0 < n) (h : n < 2 ^ 32) :
    1 ≤ (findLargestPow10 n).1 ∧ (findLargestPow10 n).2 = 10 ^ ((findLargestPow10 n).1 - 1) ∧ (findLargestPow10 n).2 ≤ n ∧ n < 10 ^ (findLargestPow10 n).1 := by
  unfold findLargestPow10
  split_ifs <;> refine ⟨by norm_num, by norm_num, by simp only; omega, by norm_num; omega⟩

/-- Digits of a number between `lo` and `hi`, with the least possible number of digits, and as near to `w` as possible. -/
structure Between (lo w hi : ℚ) (buf : List Nat) (j : ℤ) : Prop where
  lead : Lead buf
  len : 1 ≤ buf.length ∧ buf.length ≤ 17
  last : buf.head? ≠ some 0
  le : (dval buf : ℚ) * 10 ^ j ≤ hi
  ge : lo ≤ dval buf * 10 ^ j
  short : ∀ (n : ℕ) (i : ℤ), n < 10 ^ (buf.length - 1) → lo ≤ n * 10 ^ i → hi < n * 10 ^ i
  near : ∀ n : ℕ, lo ≤ n * 10 ^ j → n * (10 : ℚ) ^ j ≤ hi → |w - dval buf * 10 ^ j| ≤ |w - n * 10 ^ j|

theorem Final.between {A delta dist unit : Nat} {buf : List Nat} (h : Final A delta dist unit buf) {τ lo w hi : ℚ} {j : ℤ} (hτ : 0 < τ) (hu : unit * τ = 10 ^ j)
    (hA : A * τ = hi) (ha : ((A : ℚ) - delta) * τ = lo) (hw : ((A : ℚ) - dist) * τ = w) (h0 : 0 < lo) : Between lo w hi buf j := by
  have key : ∀ n : ℕ, (n : ℚ) * 10 ^ j = ((n * unit : ℕ) : ℚ) * τ := by
    intro n
    rw [← hu]
    push_cast
    ring
  have up : ∀ {x y : ℕ}, x ≤ y → (x : ℚ) * τ ≤ y * τ := fun h => mul_le_mul_of_nonneg_right (by exact_mod_cast h) hτ.le
  have toLe : ∀ {x : ℕ}, lo ≤ x * τ → A ≤ x + delta := by
    intro x hx
    rw [← ha] at hx
    have := le_of_mul_le_mul_right hx hτ
    have h2 : (A : ℚ) ≤ (x + delta : ℕ) := by push_cast; linarith
    exact_mod_cast h2
  refine ⟨h.lead, h.len, h.last, ?_, ?_, ?_, ?_⟩
  · rw [key, ← hA]
    exact up h.le
  · rw [key, ← ha]
    refine mul_le_mul_of_nonneg_right ?_ hτ.le
    have : (A : ℚ) ≤ ((dval buf * unit + delta : ℕ) : ℚ) := by exact_mod_cast h.ge
    push_cast at this ⊢
    linarith
  · intro n i hn hlo
    rcases lt_or_ge j i with hji | hij
    · obtain ⟨t, ht⟩ : ∃ t : ℕ, i = j + 1 + t := ⟨(i - j - 1).toNat, by omega⟩
      have e : (n : ℚ) * 10 ^ i = ((n * 10 ^ t * (10 * unit) : ℕ) : ℚ) * τ := by
        rw [ht, zpow_add₀ (by norm_num), zpow_add₀ (by norm_num), ← hu, zpow_natCast, zpow_one]
        push_cast
        ring
      rw [e] at hlo ⊢
      have := h.short (n * 10 ^ t) (toLe hlo)
      rw [← hA]
      exact mul_lt_mul_of_pos_right (by exact_mod_cast this) hτ
    · exfalso
      have hle : (n : ℚ) * 10 ^ i ≤ n * 10 ^ j := mul_le_mul_of_nonneg_left (zpow_le_zpow_right₀ (by norm_num) hij) (by positivity)
      have hlo' := toLe ((hlo.trans hle).trans_eq (key n))
      rcases Nat.lt_or_ge 1 buf.length with h2 | h2
      · have hb := h.big h2
        have h3 : (n + 1) * unit ≤ 10 ^ (buf.length - 1) * unit := Nat.mul_le_mul_right _ (by omega)
        have u0 : 0 < unit := by
          have : (0 : ℚ) < unit * τ := by
            rw [hu]
            positivity
          have := pos_of_mul_pos_left this hτ.le
          exact_mod_cast this
        rw [Nat.add_mul] at h3
        omega
      · rw [show buf.length - 1 = 0 by omega] at hn
        obtain rfl : n = 0 := by simpa using hn
        simp at hlo
        linarith
  · intro n h1 h2
    rw [key] at h1 h2 ⊢
    rw [key]
    rw [← hA] at h2
    have h2' : n * unit ≤ A := by exact_mod_cast le_of_mul_le_mul_right h2 hτ
    have h3 := h.near n h2' (toLe h1)
    have cast : ∀ x : ℕ, |w - x * τ| = ((|(A : ℤ) - dist - (x : ℕ)| : ℤ) : ℚ) * τ := by
      intro x
      rw [← hw, ← sub_mul, abs_mul, abs_of_pos hτ]
      push_cast
      rfl
    rw [cast, cast]
    exact mul_le_mul_of_nonneg_right (by exact_mod_cast h3) hτ.le

theorem sub_eq {x y : Diyfp} (he : x.e = y.e) (hf : y.f ≤ x.f) (hx : x.f < 2 ^ 64) : x.sub y = .ok ⟨x.f - y.f, x.e⟩ := by
  simp only [Diyfp.sub]
  rw [assert_true (by simpa using he), g_bind, assert_true (by simpa using hf), g_bind, sub64_le hf hx]
  rfl

theorem digitGen_spec {a b A sh : Nat} {dexp : Int} (ha : 0 < a) (hab : a ≤ b) (hbA : b ≤ A) (hlt : a < A) (hA : A < 2 ^ 64) (h1 : 32 ≤ sh) (h2 : sh ≤ 60)
    (h3 : 2 ^ sh ≤ A) (h16 : A < 10 ^ 16 * (A - a)) :
    ∃ buf j, digitGen ⟨a, -(sh : ℤ)⟩ ⟨b, -(sh : ℤ)⟩ ⟨A, -(sh : ℤ)⟩ dexp = .ok (buf, dexp + j) ∧
      Between (a * 2 ^ (-(sh : ℤ))) (b * 2 ^ (-(sh : ℤ))) (A * 2 ^ (-(sh : ℤ))) buf j := by
  have hs : 0 < 2 ^ sh := by positivity
  have hp1 : A / 2 ^ sh < 2 ^ 32 := by
    rw [Nat.div_lt_iff_lt_mul hs]
    calc A < 2 ^ 64 := hA
      _ = 2 ^ 32 * 2 ^ 32 := by norm_num
      _ ≤ 2 ^ 32 * 2 ^ sh := Nat.mul_le_mul_left _ (Nat.pow_le_pow_right (by omega) h1)
  have hp0 : 0 < A / 2 ^ sh := Nat.div_pos h3 hs
  have hu : u32 (A / 2 ^ sh) = A / 2 ^ sh := Nat.mod_eq_of_lt hp1
  have hm : A % 2 ^ sh < 2 ^ sh := Nat.mod_lt _ hs
  have eA : A = A / 2 ^ sh * 2 ^ sh + A % 2 ^ sh := by
    rw [Nat.mul_comm]
    exact (Nat.div_add_mod _ _).symm
  obtain ⟨k1, k2, k3, k4⟩ := findLargestPow10_spec hp0 hp1
  have key : (2 : ℚ) ^ sh * 2 ^ (-(sh : ℤ)) = 1 := by
    rw [zpow_neg, zpow_natCast]
    exact mul_inv_cancel₀ (by positivity)
  have hz : (0 : ℚ) < 2 ^ (-(sh : ℤ)) := by positivity
  simp only [digitGen]
  rw [assert_true (by simp; omega), g_bind, assert_true (by simp; omega), g_bind, sub_eq (x := ⟨A, _⟩) (y := ⟨a, _⟩) rfl hlt.le hA, g_bind,
    sub_eq (x := ⟨A, _⟩) (y := ⟨b, _⟩) rfl hbA hA, g_bind]
  simp only [neg_neg, Int.toNat_natCast, hu]
  rw [assert_true (by simpa using hp0), g_bind]
  have hda : ((A - a : ℕ) : ℚ) = A - a := by
    rw [Nat.cast_sub hlt.le]
  have hdb : ((A - b : ℕ) : ℚ) = A - b := by
    rw [Nat.cast_sub hbA]
  rcases integral_spec (p2 := A % 2 ^ sh) (delta := A - a) (dist := A - b) hA (by omega) (by omega) hm h16 (findLargestPow10 (A / 2 ^ sh)).1 (A / 2 ^ sh)
    (findLargestPow10 (A / 2 ^ sh)).2 [] dexp (fun _ => k2) k4 (by rw [dval]; omega) (by omega) Lead.nil (fun _ => ⟨k1, k3⟩) with
    ⟨buf, j, r1, r2⟩ | ⟨buf, r1, r2, r3, r4, r5⟩
  · rw [r1, g_bind]
    refine ⟨buf, j, rfl, r2.between hz ?_ rfl ?_ ?_ (by positivity)⟩
    · push_cast
      rw [mul_assoc, key, mul_one]
      norm_cast
    · rw [hda]
      ring
    · rw [hdb]
      ring
  · rw [r1, g_bind]
    obtain ⟨buf', m, m1, m2, m3⟩ := fractional_spec (sh := sh) h2 20 A (A % 2 ^ sh) (A - a) (A - b) buf dexp r3 hm r2 (by omega) h16 r4 r5 (by omega)
    simp only
    rw [assert_true (by simpa using r2), g_bind, m2]
    have h10 : (10 : ℚ) ^ m * 10 ^ (-(m : ℤ)) = 1 := by
      rw [zpow_neg, zpow_natCast]
      exact mul_inv_cancel₀ (by positivity)
    refine ⟨buf', -(m : ℤ), by rw [Int.sub_eq_add_neg], m3.between (τ := 2 ^ (-(sh : ℤ)) * 10 ^ (-(m : ℤ))) (by positivity) ?_ ?_ ?_ ?_ (by positivity)⟩
    · push_cast
      rw [← mul_assoc, key, one_mul]
    · push_cast
      rw [show (A : ℚ) * 10 ^ m * (2 ^ (-(sh : ℤ)) * 10 ^ (-(m : ℤ))) = A * 2 ^ (-(sh : ℤ)) * (10 ^ m * 10 ^ (-(m : ℤ))) by ring, h10, mul_one]
    · push_cast
      rw [hda, ← sub_mul, show ((A : ℚ) - (A - a)) * 10 ^ m * (2 ^ (-(sh : ℤ)) * 10 ^ (-(m : ℤ))) = a * 2 ^ (-(sh : ℤ)) * (10 ^ m * 10 ^ (-(m : ℤ))) by ring, h10, mul_one]
    · push_cast
      rw [hdb, ← sub_mul, show ((A : ℚ) - (A - b)) * 10 ^ m * (2 ^ (-(sh : ℤ)) * 10 ^ (-(m : ℤ))) = b * 2 ^ (-(sh : ℤ)) * (10 ^ m * 10 ^ (-(m : ℤ))) by ring, h10, mul_one]

/-! ## The table of powers -/

/-- `f * 2^e` is within half a unit of `10^k`, and normalised. -/
def rowOk (c : Nat × Int × Int) : Bool :=
  let a := 2 ^ c.2.1.toNat
  let b := 2 ^ (-c.2.1).toNat
  let p := 10 ^ c.2.2.toNat
  let q := 10 ^ (-c.2.2).toNat
  decide (2 ^ 63 ≤ c.1 ∧ c.1 < 2 ^ 64 ∧ 2 * c.1 * a * q ≤ 2 * p * b + a * q ∧ 2 * p * b ≤ 2 * c.1 * a * q + a * q)

theorem table_ok : cachedPowers.all rowOk = true := by decide +kernel

theorem zpow_split (x : ℚ) (n : ℤ) : x ^ n = x ^ n.toNat / x ^ (-n).toNat := by
  rcases Int.le_total 0 n with h | h
  · obtain ⟨k, rfl⟩ := Int.eq_ofNat_of_zero_le h
    simp
  · obtain ⟨k, hk⟩ := Int.eq_ofNat_of_zero_le (show 0 ≤ -n by omega)
    obtain rfl : n = -k := by omega
    simp

theorem row_spec {c : Nat × Int × Int} (h : c ∈ cachedPowers) : 2 ^ 63 ≤ c.1 ∧ c.1 < 2 ^ 64 ∧ (c.1 : ℚ) - 1 / 2 ≤ 10 ^ c.2.2 / 2 ^ c.2.1 ∧ (10 : ℚ) ^ c.2.2 / 2 ^ c.2.1 ≤ c.1 + 1 / 2 := by
  have := List.all_eq_true.1 table_ok c h
  simp only [rowOk, decide_eq_true_eq] at this
  obtain ⟨h1, h2, h3, h4⟩ := this
  refine ⟨h1, h2, ?_, ?_⟩
  all_goals
    rw [zpow_split _ c.2.2, zpow_split _ c.2.1]
    have a0 : (0 : ℚ) < 2 ^ c.2.1.toNat := by positivity
    have b0 : (0 : ℚ) < 2 ^ (-c.2.1).toNat := by positivity
    have q0 : (0 : ℚ) < 10 ^ (-c.2.2).toNat := by positivity
    have h3' : (2 : ℚ) * c.1 * 2 ^ c.2.1.toNat * 10 ^ (-c.2.2).toNat ≤ 2 * 10 ^ c.2.2.toNat * 2 ^ (-c.2.1).toNat + 2 ^ c.2.1.toNat * 10 ^ (-c.2.2).toNat := by
      exact_mod_cast h3
    have h4' : (2 : ℚ) * 10 ^ c.2.2.toNat * 2 ^ (-c.2.1).toNat ≤ 2 * c.1 * 2 ^ c.2.1.toNat * 10 ^ (-c.2.2).toNat + 2 ^ c.2.1.toNat * 10 ^ (-c.2.2).toNat := by
      exact_mod_cast h4
    generalize (2 : ℚ) ^ c.2.1.toNat = a at *
    generalize (2 : ℚ) ^ (-c.2.1).toNat = b at *
    generalize (10 : ℚ) ^ c.2.2.toNat = p at *
    generalize (10 : ℚ) ^ (-c.2.2).toNat = q at *
    rw [div_div_div_eq]
  · rw [le_div_iff₀ (by positivity)]
    linarith
  · rw [div_le_iff₀ (by positivity)]
    linarith

/-- Every exponent that occurs has a row in the table. -/
def hasRow (e : Int) : Bool :=
  match cachedPower e with
  | .ok c => cachedPowers.contains c && decide (-60 ≤ c.2.1 + e + 64) && decide (c.2.1 + e + 64 ≤ -32)
  | .error _ => false

theorem hasRow_all : (List.range 2098).all (fun i => hasRow ((i : Int) - 1137)) = true := by decide +kernel

theorem cachedPower_spec {e : Int} (h1 : -1137 ≤ e) (h2 : e ≤ 960) :
    ∃ c, cachedPower e = .ok c ∧ c ∈ cachedPowers ∧ -60 ≤ c.2.1 + e + 64 ∧ c.2.1 + e + 64 ≤ -32 := by
  have := List.all_eq_true.1 hasRow_all (e + 1137).toNat (List.mem_range.2 (by omega))
  rw [show (((e + 1137).toNat : ℕ) : ℤ) - 1137 = e by omega, hasRow] at this
  split at this
  · next c hc =>
    simp only [Bool.and_eq_true, decide_eq_true_eq, List.contains_iff_mem] at this
    exact ⟨c, hc, this.1.1, this.1.2, this.2⟩
  · cases this

/-! ## From the boundaries to the digits -/

/-- The boundaries of a double, normalised. -/
structure Normal (P W M : Nat) : Prop where
  lo : 2 ^ 63 ≤ P
  hi : P < 2 ^ 64
  plus : 2 ^ 10 ≤ P - W
  minus : 2 ^ 9 ≤ W - M
  wp : W ≤ P
  mw : M ≤ W
  wide : P ≤ 2 ^ 53 * (P - M)
  m1 : 2 ^ 62 ≤ M

theorem div_bounds {x q : Nat} (h : (x + 2 ^ 63) / 2 ^ 64 = q) : q * 2 ^ 64 ≤ x + 2 ^ 63 ∧ x + 2 ^ 63 < q * 2 ^ 64 + 2 ^ 64 := by omega

/-- A product with a cached power is less than one unit away from the exact product. -/
theorem mul_near {X cf x : Nat} {e ce k : ℤ} (h0 : 0 < X) (h1 : X < 2 ^ 64) (t3 : (cf : ℚ) - 1 / 2 ≤ 10 ^ k / 2 ^ ce) (t4 : (10 : ℚ) ^ k / 2 ^ ce ≤ cf + 1 / 2)
    (hx : x * 2 ^ 64 ≤ X * cf + 2 ^ 63 ∧ X * cf + 2 ^ 63 < x * 2 ^ 64 + 2 ^ 64) :
    |(x : ℚ) * (2 ^ e * 2 ^ ce * 2 ^ 64 / 10 ^ k) - X * 2 ^ e| < 2 ^ e * 2 ^ ce * 2 ^ 64 / 10 ^ k := by
  have e0 : (0 : ℚ) < 2 ^ e := by positivity
  have c0 : (0 : ℚ) < 2 ^ ce := by positivity
  have k0 : (0 : ℚ) < 10 ^ k := by positivity
  have X0 : (0 : ℚ) < X := by exact_mod_cast h0
  have X1 : (X : ℚ) < 2 ^ 64 := by exact_mod_cast h1
  have x1 : (x : ℚ) * 2 ^ 64 ≤ X * cf + 2 ^ 63 := by exact_mod_cast hx.1
  have x2 : (X : ℚ) * cf + 2 ^ 63 < x * 2 ^ 64 + 2 ^ 64 := by exact_mod_cast hx.2
  rw [le_div_iff₀ c0] at t3
  rw [div_le_iff₀ c0] at t4
  generalize (2 : ℚ) ^ e = g at *
  generalize (2 : ℚ) ^ ce = c at *
  generalize (10 : ℚ) ^ k = T at *
  have s1 : (X : ℚ) * ((cf - 1 / 2) * c) ≤ X * T := mul_le_mul_of_nonneg_left t3 X0.le
  have s2 : (X : ℚ) * T ≤ X * ((cf + 1 / 2) * c) := mul_le_mul_of_nonneg_left t4 X0.le
  have s3 : (x : ℚ) * 2 ^ 64 * c ≤ (X * cf + 2 ^ 63) * c := mul_le_mul_of_nonneg_right x1 c0.le
  have s4 : ((X : ℚ) * cf + 2 ^ 63) * c < (x * 2 ^ 64 + 2 ^ 64) * c := mul_lt_mul_of_pos_right x2 c0
  have s5 : (X : ℚ) * c < 2 ^ 64 * c := mul_lt_mul_of_pos_right X1 c0
  have e1 : (x : ℚ) * (g * c * 2 ^ 64 / T) - X * g = g * (x * 2 ^ 64 * c - X * T) / T := by
    field_simp
  rw [e1, abs_div, abs_of_pos k0, abs_mul, abs_of_pos e0, show g * c * 2 ^ 64 = g * (2 ^ 64 * c) by ring]
  refine div_lt_div_of_pos_right (mul_lt_mul_of_pos_left ?_ e0) k0
  rw [abs_lt]
  constructor <;> linarith

theorem core_spec {P W M : Nat} {e : Int} (h : Normal P W M) (h1 : -1137 ≤ e) (h2 : e ≤ 960) :
    ∃ buf j, grisu2Core ⟨M, e⟩ ⟨W, e⟩ ⟨P, e⟩ = .ok (buf, j) ∧ Lead buf ∧ (1 ≤ buf.length ∧ buf.length ≤ 17) ∧ buf.head? ≠ some 0 ∧
      (M : ℚ) * 2 ^ e < dval buf * 10 ^ j ∧ dval buf * (10 : ℚ) ^ j < P * 2 ^ e ∧
      (∀ (n : ℕ) (i : ℤ), n < 10 ^ (buf.length - 1) → M * 2 ^ e + W * 2 ^ e / 2 ^ 60 ≤ n * (10 : ℚ) ^ i → P * 2 ^ e - W * 2 ^ e / 2 ^ 60 < n * (10 : ℚ) ^ i) ∧
      ∀ n : ℕ, M * 2 ^ e + W * 2 ^ e / 2 ^ 60 ≤ n * (10 : ℚ) ^ j → n * (10 : ℚ) ^ j ≤ P * 2 ^ e - W * 2 ^ e / 2 ^ 60 →
        |W * 2 ^ e - dval buf * (10 : ℚ) ^ j| ≤ |W * 2 ^ e - n * (10 : ℚ) ^ j| + W * 2 ^ e / 2 ^ 60 := by
  obtain ⟨P1, P2, P3, P4, P5, P6, P7, P8⟩ := h
  obtain ⟨⟨cf, ce, k⟩, c1, c2, c3, c4⟩ := cachedPower_spec h1 h2
  obtain ⟨t1, t2, t3, t4⟩ := row_spec c2
  simp only at t1 t2 t3 t4 c3 c4
  simp only [grisu2Core]
  rw [assert_true (by simp), g_bind, g_bind, c1, g_bind]
  simp only
  have eP := mul_f (x := ⟨P, e⟩) (y := ⟨cf, ce⟩) P2 t2
  have eW := mul_f (x := ⟨W, e⟩) (y := ⟨cf, ce⟩) (by simp only; omega) t2
  have eM := mul_f (x := ⟨M, e⟩) (y := ⟨cf, ce⟩) (by simp only; omega) t2
  have lP := mul_lt P2 t2
  simp only at eP eW eM
  have ee : ∀ x, (Diyfp.mul ⟨x, e⟩ ⟨cf, ce⟩).e = e + ce + 64 := fun _ => rfl
  rw [ee, ee, eP, eM]
  have hw : Diyfp.mul ⟨W, e⟩ ⟨cf, ce⟩ = ⟨(W * cf + 2 ^ 63) / 2 ^ 64, e + ce + 64⟩ := by
    rw [← eW]
    rfl
  rw [hw]
  clear eP eW eM hw ee
  -- linear facts about the products
  have q1 : (P - W) * cf = P * cf - W * cf := Nat.sub_mul _ _ _
  have q2 : (W - M) * cf = W * cf - M * cf := Nat.sub_mul _ _ _
  have q3 : (P - M) * cf = P * cf - M * cf := Nat.sub_mul _ _ _
  have q4 : 2 ^ 10 * 2 ^ 63 ≤ (P - W) * cf := Nat.mul_le_mul P3 t1
  have q5 : 2 ^ 9 * 2 ^ 63 ≤ (W - M) * cf := Nat.mul_le_mul P4 t1
  have q6 : P * cf ≤ 2 ^ 53 * (P * cf - M * cf) := by
    rw [← q3, ← Nat.mul_assoc]
    exact Nat.mul_le_mul_right _ P7
  have q7 : 2 ^ 62 * 2 ^ 63 ≤ M * cf := Nat.mul_le_mul P8 t1
  have q8 : 2 ^ 63 * 2 ^ 63 ≤ P * cf := Nat.mul_le_mul P1 t1
  rw [q1] at q4
  rw [q2] at q5
  obtain ⟨sh, hsh⟩ : ∃ sh : ℕ, e + ce + 64 = -(sh : ℤ) := ⟨(-(e + ce + 64)).toNat, by omega⟩
  -- the distances to the true boundaries
  generalize hpp : (P * cf + 2 ^ 63) / 2 ^ 64 = p at *
  generalize hww : (W * cf + 2 ^ 63) / 2 ^ 64 = w at *
  generalize hmm : (M * cf + 2 ^ 63) / 2 ^ 64 = m at *
  have hp1 : p * 2 ^ 64 ≤ P * cf + 2 ^ 63 ∧ P * cf + 2 ^ 63 < p * 2 ^ 64 + 2 ^ 64 := div_bounds hpp
  have hw1 : w * 2 ^ 64 ≤ W * cf + 2 ^ 63 ∧ W * cf + 2 ^ 63 < w * 2 ^ 64 + 2 ^ 64 := div_bounds hww
  have hm1 : m * 2 ^ 64 ≤ M * cf + 2 ^ 63 ∧ M * cf + 2 ^ 63 < m * 2 ^ 64 + 2 ^ 64 := div_bounds hmm
  have hsh60 : 2 ^ sh ≤ 2 ^ 60 := Nat.pow_le_pow_right (by omega) (by omega)
  have hsub : sub64 p 1 = p - 1 := sub64_le (by omega) lP
  have hadd : u64 (m + 1) = m + 1 := u64_lt (by omega)
  rw [hsub, hadd, hsh]
  have g16 : p - 1 < 10 ^ 16 * (p - 1 - (m + 1)) := by
    generalize P * cf = x at *
    generalize W * cf = y at *
    generalize M * cf = z at *
    omega
  obtain ⟨buf, j, r1, r2⟩ := digitGen_spec (a := m + 1) (b := w) (A := p - 1) (sh := sh) (dexp := -k) (by omega) (by omega) (by omega) (by omega) (by omega)
    (by omega) (by omega) (by omega) g16
  have nP := mul_near (e := e) (by omega) P2 t3 t4 hp1
  have nW := mul_near (e := e) (by omega) (show W < 2 ^ 64 by omega) t3 t4 hw1
  have nM := mul_near (e := e) (by omega) (show M < 2 ^ 64 by omega) t3 t4 hm1
  have hw61 : (2 : ℚ) ^ 61 ≤ (w : ℚ) - 1 := by
    have : 2 ^ 61 + 1 ≤ w := by
      generalize P * cf = x at *
      generalize W * cf = y at *
      generalize M * cf = z at *
      omega
    have : ((2 ^ 61 + 1 : ℕ) : ℚ) ≤ w := by exact_mod_cast this
    push_cast at this
    linarith
  have z2 : (2 : ℚ) ^ (-(sh : ℤ)) = 2 ^ e * 2 ^ ce * 2 ^ 64 := by
    rw [← hsh, zpow_add₀ (by norm_num), zpow_add₀ (by norm_num)]
    norm_num
  have z10 : ∀ i : ℤ, (10 : ℚ) ^ (-k + i) = 10 ^ i / 10 ^ k := by
    intro i
    rw [zpow_add₀ (by norm_num), zpow_neg]
    ring
  have k0 : (0 : ℚ) < 10 ^ k := by positivity
  have u0 : (0 : ℚ) < 2 ^ e * 2 ^ ce * 2 ^ 64 / 10 ^ k := by positivity
  have pc : ((p - 1 : ℕ) : ℚ) = p - 1 := by rw [Nat.cast_sub (by omega)]; norm_num
  have mc : ((m + 1 : ℕ) : ℚ) = m + 1 := by push_cast; rfl
  have r3 := r2.le
  have r4 := r2.ge
  have r5 := r2.short
  have r6 := r2.near
  have scale : ∀ x : ℚ, x * 2 ^ (-(sh : ℤ)) = x * (2 ^ e * 2 ^ ce * 2 ^ 64 / 10 ^ k) * 10 ^ k := by
    intro x
    rw [z2]
    field_simp
  rw [scale, pc] at r3
  rw [scale, mc] at r4
  simp only [scale, pc, mc] at r5 r6
  generalize (2 : ℚ) ^ e * 2 ^ ce * 2 ^ 64 / 10 ^ k = u at *
  obtain ⟨nP1, nP2⟩ := abs_lt.1 nP
  obtain ⟨nW1, nW2⟩ := abs_lt.1 nW
  obtain ⟨nM1, nM2⟩ := abs_lt.1 nM
  have hu2 : 2 * u ≤ W * 2 ^ e / 2 ^ 60 := by
    rw [le_div_iff₀ (by norm_num)]
    have : (2 : ℚ) ^ 61 * u ≤ (w - 1) * u := mul_le_mul_of_nonneg_right hw61 u0.le
    linarith
  have hV : (dval buf : ℚ) * 10 ^ (-k + j) = dval buf * 10 ^ j / 10 ^ k := by rw [z10, mul_div_assoc]
  rw [← div_le_iff₀ k0, ← hV] at r3
  rw [← le_div_iff₀ k0, ← hV] at r4
  refine ⟨buf, -k + j, r1, r2.lead, r2.len, r2.last, by linarith, by linarith, fun n i hn hlo => ?_, fun n h1 h2 => ?_⟩
  · have e1 : (n : ℚ) * 10 ^ (k + i) = n * 10 ^ i * 10 ^ k := by
      rw [zpow_add₀ (by norm_num)]
      ring
    have := r5 n (k + i) hn (by
      rw [e1]
      exact mul_le_mul_of_nonneg_right (by linarith) k0.le)
    rw [e1] at this
    have := lt_of_mul_lt_mul_right this k0.le
    linarith
  · have e1 : (n : ℚ) * 10 ^ j = n * 10 ^ (-k + j) * 10 ^ k := by
      rw [z10]
      field_simp
    have e2 : (dval buf : ℚ) * 10 ^ j = dval buf * 10 ^ (-k + j) * 10 ^ k := by
      rw [z10]
      field_simp
    have := r6 n (by
      rw [e1]
      exact mul_le_mul_of_nonneg_right (by linarith) k0.le) (by
      rw [e1]
      exact mul_le_mul_of_nonneg_right (by linarith) k0.le)
    rw [e1, e2, ← sub_mul, ← sub_mul, abs_mul, abs_mul, abs_of_pos k0] at this
    have := le_of_mul_le_mul_right this k0
    have q1 := abs_sub_le (W * 2 ^ e : ℚ) (w * u) (dval buf * 10 ^ (-k + j))
    have q2 := abs_sub_le (w * u : ℚ) (W * 2 ^ e) (n * 10 ^ (-k + j))
    have q3 : |(W * 2 ^ e : ℚ) - w * u| < u := by
      rw [abs_sub_comm]
      exact nW
    linarith

/-! ## The boundaries of a double -/

/-- Significand and exponent of a double. -/
def sig (b : Nat) : Nat := if b / 2 ^ 52 = 0 then b % 2 ^ 52 else b % 2 ^ 52 + 2 ^ 52

@[inherit_doc sig]
def ex (b : Nat) : Int := if b / 2 ^ 52 = 0 then -1074 else (b / 2 ^ 52 : ℕ) - 1075

theorem value_eq (b : Nat) : Spec.value b = sig b * 2 ^ ex b := by
  unfold Spec.value sig ex
  split_ifs
  · rfl
  · push_cast
    ring

theorem sig_lt (b : Nat) : sig b < 2 ^ 53 := by
  unfold sig
  split_ifs <;> omega

theorem sig_pos {b : Nat} (h : 0 < b) : 0 < sig b := by
  unfold sig
  split_ifs <;> omega

theorem zpow_succ2 (e : ℤ) : (2 : ℚ) ^ (e + 1) = 2 * 2 ^ e := by
  rw [zpow_add₀ (by norm_num), zpow_one]
  ring

/-- The double after `b`. -/
theorem value_succ (b : Nat) : Spec.value (b + 1) = (sig b + 1) * 2 ^ ex b := by
  by_cases h : b % 2 ^ 52 = 2 ^ 52 - 1
  · have hd : (b + 1) / 2 ^ 52 = b / 2 ^ 52 + 1 := by omega
    have hm : (b + 1) % 2 ^ 52 = 0 := by omega
    rw [value_eq]
    unfold sig ex
    rw [hd, hm, h]
    by_cases h0 : b / 2 ^ 52 = 0
    · rw [if_neg (by omega), if_neg (by omega), if_pos h0, if_pos h0, h0, show (((0 + 1 : ℕ) : ℤ) - 1075) = -1074 by norm_num]
      congr 1
      norm_num
    · rw [if_neg (by omega), if_neg (by omega), if_neg h0, if_neg h0]
      rw [show ((b / 2 ^ 52 + 1 : ℕ) : ℤ) - 1075 = ((b / 2 ^ 52 : ℕ) : ℤ) - 1075 + 1 by push_cast; ring, zpow_succ2]
      push_cast
      ring
  · have hd : (b + 1) / 2 ^ 52 = b / 2 ^ 52 := by omega
    have hm : (b + 1) % 2 ^ 52 = b % 2 ^ 52 + 1 := by omega
    rw [value_eq]
    unfold sig ex
    rw [hd, hm]
    split_ifs
    · rw [Nat.cast_add, Nat.cast_one]
    · push_cast
      ring

theorem value_lt_succ (b : Nat) : Spec.value b < Spec.value (b + 1) := by
  rw [value_succ, value_eq]
  exact mul_lt_mul_of_pos_right (by linarith) (by positivity)

theorem value_strictMono : StrictMono Spec.value := strictMono_nat_of_lt_succ value_lt_succ

/-- The halfway point above `b`. -/
theorem half_above (b : Nat) : (Spec.value b + Spec.value (b + 1)) / 2 = (2 * sig b + 1) * 2 ^ (ex b - 1) := by
  rw [value_succ, value_eq]
  have := zpow_succ2 (ex b - 1)
  rw [sub_add_cancel] at this
  rw [this]
  ring

/-- The halfway point below `b`. -/
theorem half_below {b : Nat} (h0 : 0 < b) : (Spec.value (b - 1) + Spec.value b) / 2 =
    if b % 2 ^ 52 = 0 ∧ 1 < b / 2 ^ 52 then (4 * (sig b : ℚ) - 1) * 2 ^ (ex b - 2) else (2 * (sig b : ℚ) - 1) * 2 ^ (ex b - 1) := by
  have h1 := half_above (b - 1)
  rw [Nat.sub_add_cancel h0] at h1
  rw [h1]
  split_ifs with h
  · obtain ⟨h2, h3⟩ := h
    have hd : (b - 1) / 2 ^ 52 = b / 2 ^ 52 - 1 := by omega
    have hm : (b - 1) % 2 ^ 52 = 2 ^ 52 - 1 := by omega
    unfold sig ex
    rw [hd, hm, h2, if_neg (by omega), if_neg (by omega), if_neg (by omega), if_neg (by omega),
      show ((b / 2 ^ 52 - 1 : ℕ) : ℤ) - 1075 - 1 = ((b / 2 ^ 52 : ℕ) : ℤ) - 1075 - 2 by omega]
    norm_num
  · have key : (sig (b - 1) : ℚ) = sig b - 1 ∧ ex (b - 1) = ex b := by
      by_cases h2 : b % 2 ^ 52 = 0
      · have hd : (b - 1) / 2 ^ 52 = 0 := by omega
        have hd1 : b / 2 ^ 52 = 1 := by omega
        have hm : (b - 1) % 2 ^ 52 = 2 ^ 52 - 1 := by omega
        unfold sig ex
        rw [hd, hm, h2, hd1, if_pos rfl, if_pos rfl, if_neg (by omega), if_neg (by omega)]
        norm_num
      · have hd : (b - 1) / 2 ^ 52 = b / 2 ^ 52 := by omega
        have hm : (b - 1) % 2 ^ 52 = b % 2 ^ 52 - 1 := by omega
        unfold sig ex
        rw [hd, hm]
        refine ⟨?_, rfl⟩
        have hc : ((b % 2 ^ 52 - 1 : ℕ) : ℚ) = (b % 2 ^ 52 : ℕ) - 1 := by rw [Nat.cast_sub (by omega)]; norm_num
        split_ifs
        · exact hc
        · rw [Nat.cast_add, Nat.cast_add, hc]
          ring
    rw [key.1, key.2]
    ring

theorem boundaries_spec {b : Nat} (h0 : 0 < b) (h : b < 2047 * 2 ^ 52) :
    ∃ P W M e, computeBoundaries b = .ok ⟨⟨W, e⟩, ⟨M, e⟩, ⟨P, e⟩⟩ ∧ Normal P W M ∧ -1137 ≤ e ∧ e ≤ 960 ∧
      (P : ℚ) * 2 ^ e = (Spec.value b + Spec.value (b + 1)) / 2 ∧ (M : ℚ) * 2 ^ e = (Spec.value (b - 1) + Spec.value b) / 2 ∧ (W : ℚ) * 2 ^ e = Spec.value b := by
  have f0 := sig_pos h0
  have f1 := sig_lt b
  obtain ⟨s, s1, s2, s3⟩ := exists_shift (f := 2 * sig b + 1) (by omega) (by omega)
  have hs62 : s ≤ 62 := by
    by_contra hn
    obtain rfl : s = 63 := by omega
    omega
  have hs10 : 10 ≤ s := by
    by_contra hn
    have : 2 ^ s ≤ 2 ^ 9 := Nat.pow_le_pow_right (by omega) (by omega)
    have : (2 * sig b + 1) * 2 ^ s ≤ (2 * sig b + 1) * 2 ^ 9 := Nat.mul_le_mul_left _ this
    omega
  -- the significand itself is normalised by one more step
  have hw : 2 ^ 63 ≤ 2 * sig b * 2 ^ s := by
    obtain ⟨t, ht⟩ : ∃ t, 63 = s + (t + 1) := ⟨62 - s, by omega⟩
    have hp : 0 < 2 ^ s := by positivity
    rw [ht, Nat.pow_add, Nat.mul_comm] at s2
    have s2' := Nat.le_of_mul_le_mul_right s2 hp
    rw [ht, Nat.pow_add, Nat.mul_comm]
    refine Nat.mul_le_mul_right _ ?_
    rw [Nat.pow_succ] at s2' ⊢
    omega
  have hex : (ex b = -1074 ∨ (s = 10 ∧ -1074 ≤ ex b)) ∧ ex b ≤ 971 := by
    unfold ex
    by_cases hE : b / 2 ^ 52 = 0
    · rw [if_pos hE]
      simp
    · rw [if_neg hE]
      refine ⟨Or.inr ⟨?_, by omega⟩, by omega⟩
      by_contra hn
      have hf : 2 ^ 52 ≤ sig b := by
        unfold sig
        rw [if_neg hE]
        omega
      have h11 : 2 ^ 11 ≤ 2 ^ s := Nat.pow_le_pow_right (by omega) (by omega)
      have := Nat.mul_le_mul (show 2 ^ 53 ≤ 2 * sig b + 1 by omega) h11
      omega
  obtain ⟨u, rfl⟩ : ∃ u, s = u + 1 := ⟨s - 1, by omega⟩
  have hu : 2 ^ 9 ≤ 2 ^ u := Nat.pow_le_pow_right (by omega) (by omega)
  have hpu : 2 ^ (u + 1) = 2 * 2 ^ u := by rw [Nat.pow_succ]; ring
  have hbelow := half_below h0
  have hab := half_above b
  have vE : (if expField b = 0 then (⟨fracField b, 1 - 1075⟩ : Diyfp) else ⟨fracField b + 2 ^ 52, (expField b : Int) - 1075⟩) = ⟨sig b, ex b⟩ := by
    unfold sig ex expField fracField
    split_ifs <;> rfl
  have z1 : (2 : ℚ) ^ (u + 1) * 2 ^ (ex b - 1 - (u + 1 : ℕ)) = 2 ^ (ex b - 1) := by
    rw [← zpow_natCast, ← zpow_add₀ (by norm_num)]
    congr 1
    ring
  have z2 : (2 : ℚ) ^ u * 2 ^ (ex b - 1 - (u + 1 : ℕ)) = 2 ^ (ex b - 2) := by
    rw [← zpow_natCast, ← zpow_add₀ (by norm_num)]
    congr 1
    push_cast
    ring
  simp only [computeBoundaries, vE]
  rw [assert_true (decide_eq_true (by unfold expField; omega)), g_bind, assert_true (by simpa using h0), g_bind]
  rw [u64_lt (n := 2 * sig b + 1) (by omega), normalize_eq (x := ⟨2 * sig b + 1, ex b - 1⟩) s1 s2 s3, g_bind]
  have hv : Diyfp.normalize ⟨sig b, ex b⟩ = .ok ⟨sig b * 2 ^ (u + 2), ex b - (u + 2 : ℕ)⟩ := by
    have e : sig b * 2 ^ (u + 2) = 2 * sig b * 2 ^ (u + 1) := by ring
    refine normalize_eq (x := ⟨sig b, ex b⟩) (by omega) ?_ ?_
    · simp only [e]
      exact hw
    · simp only [e]
      rw [Nat.add_mul] at s3
      omega
  have hee : ex b - (u + 2 : ℕ) = ex b - 1 - (u + 1 : ℕ) := by push_cast; ring
  rw [hee] at hv
  have eW : sig b * 2 ^ (u + 2) = 4 * (sig b * 2 ^ u) := by ring
  have eP : (2 * sig b + 1) * 2 ^ (u + 1) = 4 * (sig b * 2 ^ u) + 2 * 2 ^ u := by ring
  have hwu : 2 * sig b * 2 ^ (u + 1) = 4 * (sig b * 2 ^ u) := by ring
  rw [hwu] at hw
  have hX : sig b * 2 ^ u < 2 ^ 53 * 2 ^ u := Nat.mul_lt_mul_of_pos_right f1 (by positivity)
  have hX1 : 1 * 2 ^ u ≤ sig b * 2 ^ u := Nat.mul_le_mul_right _ f0
  have habP : (((2 * sig b + 1) * 2 ^ (u + 1) : ℕ) : ℚ) * 2 ^ (ex b - 1 - (u + 1 : ℕ)) = (Spec.value b + Spec.value (b + 1)) / 2 := by
    rw [hab, ← z1]
    push_cast
    ring
  have hvW : ((sig b * 2 ^ (u + 2) : ℕ) : ℚ) * 2 ^ (ex b - 1 - (u + 1 : ℕ)) = Spec.value b := by
    have z3 := zpow_succ2 (ex b - 1)
    rw [sub_add_cancel] at z3
    rw [value_eq, z3, ← z1]
    push_cast
    ring
  by_cases hc : b % 2 ^ 52 = 0 ∧ 1 < b / 2 ^ 52
  · rw [if_pos (show fracField b = 0 ∧ 1 < expField b from hc)]
    have hsig : sig b = 2 ^ 52 := by
      unfold sig
      rw [if_neg (by omega), hc.1]
      rfl
    have hM : (4 * sig b - 1) * 2 ^ u = 4 * (sig b * 2 ^ u) - 2 ^ u := by
      rw [Nat.sub_mul, Nat.one_mul, Nat.mul_assoc]
    rw [sub64_le (by omega) (by omega), normalizeTo_eq (x := ⟨4 * sig b - 1, ex b - 2⟩) (s := u) (by simp only; push_cast; ring) (by simp only; omega), g_bind, hv, g_bind]
    refine ⟨_, _, _, _, rfl, ?_, by omega, by omega, habP, ?_, hvW⟩
    · simp only
      rw [eW, eP, hM]
      have hXX : sig b * 2 ^ u = 2 ^ 52 * 2 ^ u := by rw [hsig]
      constructor <;> omega
    · rw [hbelow, if_pos hc, ← z2]
      rw [Nat.cast_mul, Nat.cast_sub (by omega)]
      push_cast
      ring
  · rw [if_neg (show ¬ (fracField b = 0 ∧ 1 < expField b) from hc)]
    have hM : (2 * sig b - 1) * 2 ^ (u + 1) = 4 * (sig b * 2 ^ u) - 2 * 2 ^ u := by
      rw [Nat.sub_mul, Nat.one_mul, hwu, hpu]
    rw [sub64_le (by omega) (by omega), normalizeTo_eq (x := ⟨2 * sig b - 1, ex b - 1⟩) (s := u + 1) (by simp only; push_cast; ring) (by simp only; omega), g_bind, hv, g_bind]
    refine ⟨_, _, _, _, rfl, ?_, by omega, by omega, habP, ?_, hvW⟩
    · simp only
      rw [eW, eP, hM]
      constructor <;> omega
    · rw [hbelow, if_neg hc, ← z1]
      rw [Nat.cast_mul, Nat.cast_sub (by omega)]
      push_cast
      ring

/-! ## The digits of a double -/

theorem decimal_reverse (l : List Nat) : Spec.decimal l.reverse = dval l := by
  unfold Spec.decimal
  rw [List.foldl_reverse]
  induction l with
  | nil => rfl
  | cons d l ih =>
    rw [List.foldr_cons, ih, dval]
    ring

theorem grisu2_spec {b : Nat} (h0 : 0 < b) (h : b < 2047 * 2 ^ 52) :
    ∃ ds e, grisu2 b = .ok (ds, e) ∧ 1 ≤ ds.length ∧ ds.length ≤ 17 ∧ (∀ d ∈ ds, d ≤ 9) ∧ ds.head? ≠ some 0 ∧ ds.getLast? ≠ some 0 ∧
      10 ^ (ds.length - 1) ≤ Spec.decimal ds ∧ Spec.decimal ds < 10 ^ ds.length ∧
      (Spec.value (b - 1) + Spec.value b) / 2 < Spec.decimal ds * 10 ^ e ∧ Spec.decimal ds * (10 : ℚ) ^ e < (Spec.value b + Spec.value (b + 1)) / 2 ∧
      (∀ (n : ℕ) (i : ℤ), n < 10 ^ (ds.length - 1) → (Spec.value (b - 1) + Spec.value b) / 2 + Spec.value b / 2 ^ 60 ≤ n * (10 : ℚ) ^ i →
        (Spec.value b + Spec.value (b + 1)) / 2 - Spec.value b / 2 ^ 60 < n * (10 : ℚ) ^ i) ∧
      ∀ n : ℕ, (Spec.value (b - 1) + Spec.value b) / 2 + Spec.value b / 2 ^ 60 ≤ n * (10 : ℚ) ^ e →
        n * (10 : ℚ) ^ e ≤ (Spec.value b + Spec.value (b + 1)) / 2 - Spec.value b / 2 ^ 60 →
        |Spec.value b - Spec.decimal ds * (10 : ℚ) ^ e| ≤ |Spec.value b - n * (10 : ℚ) ^ e| + Spec.value b / 2 ^ 60 := by
  obtain ⟨P, W, M, e, r1, r2, r3, r4, r5, r6, r7⟩ := boundaries_spec h0 h
  obtain ⟨buf, j, c1, c2, c3, c4, c5, c6, c7, c8⟩ := core_spec r2 r3 r4
  simp only [grisu2]
  rw [r1, g_bind, c1, g_bind]
  simp only [r5, r6, r7] at c5 c6 c7 c8
  refine ⟨buf.reverse, j, rfl, by simpa using c3.1, by simpa using c3.2, by simpa using c2.digits, ?_, ?_, ?_, ?_, ?_, ?_, ?_, ?_⟩
  · rw [List.head?_reverse]
    intro hn
    have := c2.lead 0 hn
    omega
  · rwa [List.getLast?_reverse]
  · rw [decimal_reverse, List.length_reverse]
    exact c2.ge (by rintro rfl; simp at c3)
  · rw [decimal_reverse, List.length_reverse]
    exact dval_lt c2.digits
  · rw [decimal_reverse]
    exact c5
  · rw [decimal_reverse]
    exact c6
  · rw [List.length_reverse]
    exact c7
  · rw [decimal_reverse]
    exact c8

end VGram.Grisu
