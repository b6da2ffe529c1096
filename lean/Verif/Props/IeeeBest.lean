import Mathlib.Analysis.SpecialFunctions.Log.Deriv
import Mathlib.Analysis.Complex.ExponentialBounds
import Verif.Props.Ieee
import Verif.Props.Rounded

/-!
# C79 with IEEE doubles: overflow, underflow and NaN included
-/

set_option exponentiation.threshold 2000

namespace VGram.Props

open VGram Spec

variable {log : Double → Double}

/-- An error of `std::log` for arguments from 1 on: the relative error is at most `3/2^53`, which an error of one and a half units in the last place does not exceed. -/
def LogClose (log : Double → Double) : Prop :=
  ∀ (d : Double) (x : ℚ), Double.val d = .fin x → 1 ≤ x → ∃ y : ℚ, Double.val (log d) = .fin y ∧ |(y : ℝ) - Real.log x| ≤ 3 / 2 ^ 53 * Real.log x

/-- The values of doubles are multiples of the least one. -/
theorem value_multiple (b : Nat) : ∃ k : Nat, value b = k * 2 ^ (-1074 : ℤ) := by
  unfold value
  split
  · exact ⟨_, rfl⟩
  · next h =>
    refine ⟨(2 ^ 52 + b % 2 ^ 52) * 2 ^ (b / 2 ^ 52 - 1), ?_⟩
    have e : (((b / 2 ^ 52 : ℕ) : ℤ) - 1075) = ((b / 2 ^ 52 - 1 : ℕ) : ℤ) + (-1074) := by omega
    rw [e, zpow_add₀ (by norm_num), zpow_natCast]
    push_cast
    ring

/-- Multiples of the least double below the least normal one are doubles. -/
theorem rnd_subnormal {x : ℚ} {k : Int} (hx : x = k * 2 ^ (-1074 : ℤ)) (h : |k| < 2 ^ 52) : rnd x = x := by
  have key : ∀ n : Nat, n < 2 ^ 52 → rnd (n * 2 ^ (-1074 : ℤ)) = n * 2 ^ (-1074 : ℤ) := by
    intro n hn
    have : value n = n * 2 ^ (-1074 : ℤ) := by
      unfold value
      rw [if_pos (Nat.div_eq_of_lt hn), Nat.mod_eq_of_lt hn]
    rw [← this]
    exact rnd_value (by omega)
  rcases le_total 0 k with h0 | h0
  · obtain ⟨n, rfl⟩ := Int.eq_ofNat_of_zero_le h0
    rw [hx]
    exact_mod_cast key n (by rw [abs_of_nonneg h0] at h; exact_mod_cast h)
  · obtain ⟨n, hn⟩ := Int.eq_ofNat_of_zero_le (neg_nonneg.2 h0)
    have hk : k = -(n : Int) := by omega
    subst hk
    have := key n (by rw [abs_neg, Nat.abs_cast] at h; exact_mod_cast h)
    rw [hx]
    push_cast
    rw [neg_mul, rnd_neg, this]

/-- The relative error of rounding numbers in the normal range. -/
theorem rnd_normal {x : ℚ} (h0 : 1 / 2 ^ 1022 ≤ |x|) (h : |x| < overflow) : |rnd x - x| ≤ |x| / 2 ^ 53 := by
  have key : ∀ v : ℚ, 1 / 2 ^ 1022 ≤ v → v < overflow → |value (nearestBits v) - v| ≤ v / 2 ^ 53 := by
    intro v h0 h
    have hv : 0 ≤ v := le_trans (by positivity) h0
    have m := Grisu.value_strictMono
    have h63 : v < value (0 + 2 ^ 63) := by
      refine lt_of_lt_of_le ?_ (m.monotone (show 2047 * 2 ^ 52 ≤ 0 + 2 ^ 63 by norm_num))
      have := half_top
      have h2 : value (2047 * 2 ^ 52 - 1) < value (2047 * 2 ^ 52) := m (by norm_num)
      unfold overflow at h
      generalize ((2 : ℚ) ^ 54 - 1) * 2 ^ 970 = z at *
      generalize value (2047 * 2 ^ 52 - 1) = x at *
      generalize value (2047 * 2 ^ 52) = y at *
      linarith
    obtain ⟨f1, f2⟩ := floorBits_spec 63 0 (by rw [value_zero]; exact hv) h63
    generalize floorBits v 63 0 = b at f1 f2
    have hb : 2 ^ 52 ≤ b := by
      by_contra hn
      have h1 : value (b + 1) ≤ value ((1023 - 1022) * 2 ^ 52) := m.monotone (by omega)
      rw [value_inv_pow le_rfl] at h1
      generalize (1 : ℚ) / 2 ^ 1022 = z at *
      linarith
    -- the gap between neighbours
    have gap : value (b + 1) - value b ≤ value b / 2 ^ 52 := by
      have he : b / 2 ^ 52 ≠ 0 := by omega
      have eb : value b = (2 ^ 52 + (b % 2 ^ 52 : ℕ)) * 2 ^ (((b / 2 ^ 52 : ℕ) : ℤ) - 1075) := by
        unfold value
        rw [if_neg he]
      have hp : (0 : ℚ) < 2 ^ (((b / 2 ^ 52 : ℕ) : ℤ) - 1075) := by positivity
      have es : value (b + 1) = value b + 2 ^ (((b / 2 ^ 52 : ℕ) : ℤ) - 1075) := by
        rw [eb]
        by_cases hm : b % 2 ^ 52 = 2 ^ 52 - 1
        · have h1 : (b + 1) / 2 ^ 52 = b / 2 ^ 52 + 1 := by omega
          have h2 : (b + 1) % 2 ^ 52 = 0 := by omega
          unfold value
          rw [h1, h2, if_neg (by omega), hm]
          have e : (((b / 2 ^ 52 + 1 : ℕ) : ℤ) - 1075) = (((b / 2 ^ 52 : ℕ) : ℤ) - 1075) + 1 := by push_cast; ring
          rw [e, zpow_add₀ (by norm_num)]
          generalize (2 : ℚ) ^ (((b / 2 ^ 52 : ℕ) : ℤ) - 1075) = g
          norm_num
          ring
        · have h1 : (b + 1) / 2 ^ 52 = b / 2 ^ 52 := by omega
          have h2 : (b + 1) % 2 ^ 52 = b % 2 ^ 52 + 1 := by omega
          unfold value
          rw [h1, h2, if_neg he]
          push_cast
          ring
      rw [es, eb]
      generalize (2 : ℚ) ^ (((b / 2 ^ 52 : ℕ) : ℤ) - 1075) = g at *
      have hr : (0 : ℚ) ≤ (b % 2 ^ 52 : ℕ) := Nat.cast_nonneg _
      generalize ((b % 2 ^ 52 : ℕ) : ℚ) = r at *
      rw [le_div_iff₀ (by norm_num)]
      nlinarith
    have n := (nearestBits_spec hv h).2
    have n1 := n b
    have n2 := n (b + 1)
    rw [abs_sub_comm]
    generalize |v - value (nearestBits v)| = e at *
    rw [abs_of_nonneg (by linarith)] at n1
    rw [abs_of_neg (by linarith)] at n2
    have : value b / 2 ^ 52 ≤ v / 2 ^ 52 := by gcongr
    have e2 : v / 2 ^ 52 = 2 * (v / 2 ^ 53) := by ring
    linarith
  have := key |x| h0 h
  rcases lt_or_ge x 0 with hx | hx
  · rw [abs_of_neg hx] at this ⊢
    unfold rnd
    rw [if_pos hx, ← abs_neg]
    calc _ = _ := by congr 1; ring
      _ ≤ _ := this
  · rw [abs_of_nonneg hx] at this ⊢
    unfold rnd
    rwa [if_neg (not_lt.2 hx)]

theorem fin_multiple {d : Double} {x : ℚ} (h : Double.val d = .fin x) : ∃ k : Int, x = k * 2 ^ (-1074 : ℤ) := by
  obtain ⟨k, hk⟩ := value_multiple d.mag.val
  unfold Double.val at h
  split at h
  · injection h with h
    split at h
    · exact ⟨-k, by rw [← h, hk]; push_cast; ring⟩
    · exact ⟨k, by rw [← h, hk]; push_cast; rfl⟩
  · split at h
    · split at h <;> cases h
    · cases h

/-- The relative error of sums: small sums are exact. -/
theorem rnd_sum {a b : Double} {x y : ℚ} (ha : Double.val a = .fin x) (hb : Double.val b = .fin y) (h : |x + y| < overflow) :
    |rnd (x + y) - (x + y)| ≤ |x + y| / 2 ^ 53 := by
  rcases le_or_gt (1 / 2 ^ 1022) |x + y| with h0 | h0
  · exact rnd_normal h0 h
  · obtain ⟨j, hj⟩ := fin_multiple ha
    obtain ⟨k, hk⟩ := fin_multiple hb
    have e : x + y = ((j + k : Int) : ℚ) * 2 ^ (-1074 : ℤ) := by rw [hj, hk]; push_cast; ring
    have hs : |((j + k : Int) : ℚ)| < 2 ^ 52 := by
      rw [e, abs_mul, abs_of_pos (show (0 : ℚ) < 2 ^ (-1074 : ℤ) by positivity)] at h0
      have e2 : (1 : ℚ) / 2 ^ 1022 = 2 ^ 52 * 2 ^ (-1074 : ℤ) := by
        rw [zpow_neg, ← zpow_natCast, ← zpow_natCast, one_div, ← zpow_neg, ← zpow_neg, ← zpow_add₀ (by norm_num)]
        norm_num
      rw [e2] at h0
      exact lt_of_mul_lt_mul_right h0 (by positivity)
    rw [rnd_subnormal e (by exact_mod_cast hs), sub_self, abs_zero]
    positivity

theorem rnd_nat {n : Nat} (h : n ≤ 2 ^ 53) : rnd n = n := by
  rcases Nat.eq_zero_or_pos n with rfl | h0
  · rw [Nat.cast_zero, ← value_zero, rnd_value (by norm_num)]
  · rcases h.eq_or_lt with rfl | h
    · have := rnd_pow (k := 53) (by norm_num)
      push_cast
      exact this
    · set k := Nat.log 2 n
      have h1 : 2 ^ k ≤ n := Nat.pow_log_le_self 2 h0.ne'
      have h2 : n < 2 ^ (k + 1) := Nat.lt_pow_succ_log_self (by norm_num) n
      have hk : k ≤ 52 := by
        by_contra hn
        have : 2 ^ 53 ≤ 2 ^ k := Nat.pow_le_pow_right (by norm_num) (by omega)
        omega
      have e1 : 2 ^ k * 2 ^ (52 - k) = 2 ^ 52 := by rw [← pow_add, Nat.add_sub_cancel' hk]
      have g1 : 2 ^ 52 ≤ n * 2 ^ (52 - k) := e1 ▸ Nat.mul_le_mul_right _ h1
      have g2 : n * 2 ^ (52 - k) < 2 ^ 53 := by
        have := Nat.mul_lt_mul_of_pos_right h2 (show 0 < 2 ^ (52 - k) by positivity)
        rw [pow_succ, mul_right_comm, e1] at this
        omega
      have hv : value ((k + 1023) * 2 ^ 52 + (n * 2 ^ (52 - k) - 2 ^ 52)) = n := by
        have q1 : ((k + 1023) * 2 ^ 52 + (n * 2 ^ (52 - k) - 2 ^ 52)) / 2 ^ 52 = k + 1023 := by omega
        have q2 : ((k + 1023) * 2 ^ 52 + (n * 2 ^ (52 - k) - 2 ^ 52)) % 2 ^ 52 = n * 2 ^ (52 - k) - 2 ^ 52 := by omega
        unfold value
        rw [q1, q2, if_neg (by omega), Nat.cast_sub g1]
        have q3 : (((k + 1023 : ℕ) : ℤ) - 1075) = -((52 - k : ℕ) : ℤ) := by omega
        rw [q3, zpow_neg, zpow_natCast]
        push_cast
        field_simp
        ring
      rw [← hv]
      exact rnd_value (by omega)

/-- Integers up to `2^53` are exact. -/
theorem int_exact {n : Int} (h0 : 0 ≤ n) (h : n ≤ 2 ^ 53) : Double.val ((Double.ops log).ofInt n) = .fin n := by
  obtain ⟨n, rfl⟩ := Int.eq_ofNat_of_zero_le h0
  have hc : clamp n = n := by
    unfold clamp
    omega
  have hlt : |((n : Int) : ℚ)| < overflow := by
    refine small (k := 53) (by norm_num) ?_
    rw [abs_of_nonneg (by exact_mod_cast h0)]
    exact_mod_cast h
  show Double.val (Double.rounded false (clamp n)) = _
  rw [hc, val_rounded false hlt]
  have := rnd_nat (n := n) (by exact_mod_cast h)
  push_cast
  rw [this]

/-- Doubles are accurate: sums up to `2^1000` have relative error at most `2^-53`. -/
theorem double_near (hl : LogClose log) : NearOps (Double.ops log) (fun a x => ∃ q : ℚ, Double.val a = .fin q ∧ x = q) (1 / 2 ^ 53) (2 ^ 40) (2 ^ 53) := by
  have hadd : ∀ {a b : Double} {x y : ℚ}, Double.val a = .fin x → Double.val b = .fin y → |((x : ℝ) + y)| ≤ 2 ^ 40 →
      ∃ z : ℝ, (∃ q : ℚ, Double.val (Double.add a b) = .fin q ∧ z = q) ∧ |z - (x + y)| ≤ 1 / 2 ^ 53 * |(x : ℝ) + y| := by
    intro a b x y ha hb h
    have h' : |x + y| < overflow := by
      refine small (k := 40) (by norm_num) ?_
      exact_mod_cast h
    refine ⟨_, ⟨_, by rw [add_val ha hb, val_rounded _ h'], rfl⟩, ?_⟩
    have := rnd_sum ha hb h'
    rw [div_eq_inv_mul, inv_eq_one_div] at this
    have := (Rat.cast_le (K := ℝ)).2 this
    push_cast at this ⊢
    exact this
  refine ⟨fun n h0 h => ⟨_, int_exact h0 h, by push_cast; rfl⟩, fun n h1 h => ?_, ?_, ?_, ?_⟩
  · obtain ⟨y, h2, h3⟩ := hl _ _ (int_exact (log := log) (by omega) h) (by exact_mod_cast h1)
    refine ⟨y, ⟨y, h2, rfl⟩, ?_⟩
    rw [mul_one_div]
    exact_mod_cast h3
  · rintro a b _ _ ⟨x, ha, rfl⟩ ⟨y, hb, rfl⟩ h
    exact hadd ha hb h
  · rintro a b _ _ ⟨x, ha, rfl⟩ ⟨y, hb, rfl⟩ h
    have hb' : Double.val (Double.opposite b) = .fin (-y) := by rw [val_opposite, hb]; rfl
    obtain ⟨z, h1, h2⟩ := hadd ha hb' (by push_cast; rwa [← sub_eq_add_neg])
    refine ⟨z, h1, ?_⟩
    push_cast [← sub_eq_add_neg] at h2
    exact h2
  · rintro a b _ _ ⟨x, ha, rfl⟩ ⟨y, hb, rfl⟩ h
    rw [lt_fin ha hb] at h
    have : y ≤ x := by simpa using h
    exact_mod_cast this

private theorem short {n : Nat} (hn : n ≤ 60000000) : (1 / 2 ^ 53 : ℝ) * ((n : ℝ) ^ 2 + 10 * n) ≤ 1 := by
  have hn' : (n : ℝ) ≤ 60000000 := by exact_mod_cast hn
  have h0 : (0 : ℝ) ≤ n := Nat.cast_nonneg _
  have : (n : ℝ) ^ 2 ≤ 60000000 ^ 2 := pow_le_pow_left₀ h0 hn' 2
  rw [one_div, inv_mul_le_one₀ (by norm_num)]
  norm_num at this ⊢
  linarith

private theorem small_total {n : Nat} (hn : n ≤ 60000000) {total : Int} (h0 : 0 ≤ total) {size : Nat} (h : total + size ≤ 2 ^ 53) :
    ((n : ℝ) + 2) * Real.log ((total : ℝ) + size) ≤ 2 ^ 40 := by
  have hn' : (n : ℝ) ≤ 60000000 := by exact_mod_cast hn
  have h1 : Real.log ((total : ℝ) + size) ≤ 53 := by
    have e : ((total : ℝ) + size) = ((total + size : Int) : ℝ) := by push_cast; rfl
    rw [e]
    rcases (show (0 : Int) ≤ total + size by omega).eq_or_lt with hz | hz
    · rw [← hz]
      simp
    · have hc : ((total + size : Int) : ℝ) ≤ 2 ^ 53 := by exact_mod_cast h
      have hp : (0 : ℝ) < ((total + size : Int) : ℝ) := by exact_mod_cast hz
      calc _ ≤ Real.log (2 ^ 53) := Real.log_le_log hp hc
        _ = 53 * Real.log 2 := by rw [Real.log_pow]; norm_num
        _ ≤ 53 * 1 := by
          have := Real.log_le_sub_one_of_pos (show (0 : ℝ) < 2 by norm_num)
          linarith
        _ = 53 := by norm_num
  have h2 : (0 : ℝ) ≤ (n : ℝ) + 2 := by positivity
  calc _ ≤ ((n : ℝ) + 2) * 53 := mul_le_mul_of_nonneg_left h1 h2
    _ ≤ _ := by linarith

/-- C79 with IEEE doubles and a `std::log` with an error of at most one and a half units in the last place, short up to 60 million symbols. -/
theorem C79_ieee (hL : LogLaw log) (hl : LogClose log) (l : List IntSeq) (hnd : l.Nodup) (hne : [] ∉ l) (d : IntDict) (h : IntDict.init l = .ok d)
    (seq : IntSeq) (hk : Knows d.seqs seq) (freqs : List Int) (total : Int) (hf : ∀ f ∈ freqs, 0 ≤ f ∧ f ≤ total) (ht : 0 ≤ total)
    (hN : total + d.seqs.length ≤ 2 ^ 53) (hn : seq.length ≤ 60000000) (out : List Int) :
    ∃ ids, d.parse (Double.ops log) seq freqs total out = .ok (d, out ++ ids, ((out ++ ids).length : Int)) ∧
      Spells d.seqs ids seq ∧ ∀ ids', Spells d.seqs ids' seq → parseProb freqs total d.seqs.length ids' ≤
        Real.exp (((seq.length : ℝ) ^ 2 + 10 * seq.length) / 2 ^ 52 * Real.log ((total : ℝ) + d.seqs.length)) *
          parseProb freqs total d.seqs.length ids := by
  obtain ⟨ids, q1, q2, q3⟩ := nearly_parse (double_near hl) (doubleScoreLaws hL) (doubleOrderLaws hL) (by norm_num) (by norm_num) l hnd hne d h seq hk
    freqs total hf ht hN (short hn) (small_total hn ht hN) out
  refine ⟨ids, q1, q2, fun ids' h' => ?_⟩
  have e : 2 * (1 / 2 ^ 53) * ((seq.length : ℝ) ^ 2 + 10 * seq.length) = ((seq.length : ℝ) ^ 2 + 10 * seq.length) / 2 ^ 52 := by
    ring
  rw [← e]
  exact q3 ids' h'

/-- C79 for stream models trained and used with IEEE doubles, whatever the sorting, the order of the hash table and the gamma variates are. -/
theorem C79_ieee_stream {srt : List (StatItem Double) → List (StatItem Double)} {ord : PairMap → PairMap} {gam : List Double → Nat → Double}
    (H : LibraryLaws log srt ord gam) (hl : LogClose log) (m0 : Stream Double) (vals : List Int) (calls : List Call)
    (h : Admissible (Double.ops log) m0 vals calls true) (hn : Covered (Double.env log srt ord gam) m0 vals calls) :
    ∃ m ws, run (Double.env log srt ord gam) m0 calls = .ok m ∧ m.alphabet = .ok ws ∧
      (m.freqs.sum + ws.length ≤ 2 ^ 53 → ∀ seq, (∀ x ∈ seq, x ∈ vals ++ accepted calls → [x] ∈ ws) → seq.length ≤ 60000000 →
        ∃ ids, m.parse (Double.ops log) seq = .ok (m, ids) ∧
          Spells ws ids (seq.filter fun x => decide (x ∈ vals ++ accepted calls)) ∧
          ∀ ids', Spells ws ids' (seq.filter fun x => decide (x ∈ vals ++ accepted calls)) →
            parseProb m.freqs m.freqs.sum ws.length ids' ≤
              Real.exp (((seq.length : ℝ) ^ 2 + 10 * seq.length) / 2 ^ 52 * Real.log ((m.freqs.sum : ℝ) + ws.length)) *
                parseProb m.freqs m.freqs.sum ws.length ids) := by
  obtain ⟨m', ws', r1, r2, h3, _⟩ := C90_best_score H m0 vals calls h hn
  obtain ⟨m, ws, h1, h2, h4⟩ := nearly_stream (Double.env log srt ord gam) (double_near hl) (doubleEnvLaws H) (doubleScoreLaws H.log) (doubleOrderLaws H.log)
    (by norm_num) (by norm_num) m0 vals calls h hn
  rw [h1] at r1
  injection r1 with r1
  rw [← r1] at h3
  refine ⟨m, ws, h1, h2, fun hN seq hk hs => ?_⟩
  obtain ⟨ids, g1, g2, g3⟩ := h4 hN seq hk (short hs) (small_total hs (List.sum_nonneg h3) hN)
  refine ⟨ids, g1, g2, fun ids' h' => ?_⟩
  have e : 2 * (1 / 2 ^ 53) * ((seq.length : ℝ) ^ 2 + 10 * seq.length) = ((seq.length : ℝ) ^ 2 + 10 * seq.length) / 2 ^ 52 := by
    ring
  rw [← e]
  exact g3 ids' h'

/-! ## There are such logarithms -/

/-- A logarithm with a small error: the double nearest to a rational number close to it. -/
theorem log_exists {d : Double} {x : ℚ} (hd : Double.val d = .fin x) (hx : 0 < x) :
    ∃ e : Double, Double.Mag 10 e ∧ (1 ≤ x → ∃ y : ℚ, Double.val e = .fin y ∧ |(y : ℝ) - Real.log x| ≤ 3 / 2 ^ 53 * Real.log x) := by
  have hm : d.mag.val < 2047 * 2 ^ 52 := by
    unfold Double.val at hd
    split at hd
    · assumption
    · split at hd
      · split at hd <;> cases hd
      · cases hd
  have hval : x = value d.mag.val := by
    unfold Double.val at hd
    rw [if_pos hm] at hd
    injection hd with hd
    split at hd
    · have := value_nonneg d.mag.val
      linarith
    · exact hd.symm
  have zero : Double.val ⟨false, 0⟩ = .fin 0 := by decide +kernel
  rcases lt_trichotomy x 1 with h1 | rfl | h1
  · exact ⟨⟨false, 0⟩, ⟨0, zero, by norm_num⟩, fun h => absurd h (not_le.2 h1)⟩
  · exact ⟨⟨false, 0⟩, ⟨0, zero, by norm_num⟩, fun _ => ⟨0, zero, by norm_num⟩⟩
  · -- the argument is at least the double after 1 and below 2^1024
    have m := Grisu.value_strictMono
    have hlow : (1 : ℚ) + 1 / 2 ^ 52 ≤ x := by
      have e1 : value (1023 * 2 ^ 52) = 1 := by
        have := value_pow_nat (k := 0)
        rwa [pow_zero, Nat.zero_add] at this
      have e2 : value (1023 * 2 ^ 52 + 1) = 1 + 1 / 2 ^ 52 := by decide +kernel
      rw [← e2, hval]
      refine m.monotone ?_
      by_contra hn
      have := m.monotone (show d.mag.val ≤ 1023 * 2 ^ 52 by omega)
      rw [e1, ← hval] at this
      linarith
    have hhigh : x ≤ 2 ^ 1024 := by
      rw [hval, ← value_top]
      exact m.monotone hm.le
    have r1 : (1 : ℝ) + 1 / 2 ^ 52 ≤ x := by
      have := (Rat.cast_le (K := ℝ)).2 hlow
      push_cast at this
      exact this
    have r2 : (x : ℝ) ≤ 2 ^ 1024 := by exact_mod_cast hhigh
    set L := Real.log x
    have hL1 : 1 / 2 ^ 53 ≤ L := by
      have h := Real.one_sub_inv_le_log_of_pos (show (0 : ℝ) < x by linarith)
      have : (x : ℝ)⁻¹ ≤ (1 + 1 / 2 ^ 52)⁻¹ := inv_anti₀ (by norm_num) r1
      have e : (1 / 2 ^ 53 : ℝ) ≤ 1 - (1 + 1 / 2 ^ 52)⁻¹ := by norm_num
      exact e.trans (le_trans (by linarith) h)
    have hL2 : L ≤ 1000 := by
      have h : L ≤ Real.log (2 ^ 1024) := Real.log_le_log (by linarith) r2
      rw [Real.log_pow] at h
      have := Real.log_two_lt_d9
      push_cast at h
      linarith
    have hLp : 0 < L := lt_of_lt_of_le (by norm_num) hL1
    obtain ⟨q, hq1, hq2⟩ := exists_rat_btwn (show L < L * (1 + 1 / 2 ^ 53) by nlinarith)
    have b1 : (1 : ℚ) / 2 ^ 53 ≤ q := by
      refine (Rat.cast_le (K := ℝ)).1 ?_
      push_cast
      exact hL1.trans hq1.le
    have b2 : q ≤ 2 ^ 10 := by
      have : (q : ℝ) ≤ 2 ^ 10 := by
        refine hq2.le.trans ?_
        calc L * (1 + 1 / 2 ^ 53) ≤ 1000 * (1 + 1 / 2 ^ 53) := mul_le_mul_of_nonneg_right hL2 (by norm_num)
          _ ≤ _ := by norm_num
      exact_mod_cast this
    have qp : 0 < q := lt_of_lt_of_le (by norm_num) b1
    have ha : |q| ≤ 2 ^ 10 := by rwa [abs_of_pos qp]
    have ho := small (k := 10) (by norm_num) ha
    refine ⟨Double.rounded false q, mag_of_rounded false (by norm_num) ha, fun _ => ⟨rnd q, val_rounded false ho, ?_⟩⟩
    have hr := rnd_normal (x := q) (by
      rw [abs_of_pos qp]
      refine le_trans ?_ b1
      exact one_div_le_one_div_of_le (by positivity) (pow_le_pow_right₀ (by norm_num) (by norm_num))) ho
    rw [abs_of_pos qp] at hr
    have hr' : |((rnd q : ℚ) : ℝ) - q| ≤ q / 2 ^ 53 := by
      have := (Rat.cast_le (K := ℝ)).2 hr
      push_cast at this
      exact this
    have hq3 : |(q : ℝ) - L| ≤ L / 2 ^ 53 := by
      rw [abs_of_pos (by linarith)]
      have : L * (1 + 1 / 2 ^ 53) = L + L / 2 ^ 53 := by ring
      linarith
    calc |((rnd q : ℚ) : ℝ) - L| = |(((rnd q : ℚ) : ℝ) - q) + (q - L)| := by ring_nf
      _ ≤ _ := abs_add_le _ _
      _ ≤ q / 2 ^ 53 + L / 2 ^ 53 := add_le_add hr' hq3
      _ ≤ (2 * L) / 2 ^ 53 + L / 2 ^ 53 := by
        have : (q : ℝ) ≤ 2 * L := by nlinarith
        gcongr
      _ = 3 / 2 ^ 53 * L := by ring

/-- C79: logarithms as assumed exist. -/
theorem C79_logarithms_exist : ∃ log : Double → Double, LogLaw log ∧ LogClose log := by
  have key : ∀ d : Double, ∃ e : Double, ∀ x : ℚ, Double.val d = .fin x → 0 < x → Double.Mag 10 e ∧
      (1 ≤ x → ∃ y : ℚ, Double.val e = .fin y ∧ |(y : ℝ) - Real.log x| ≤ 3 / 2 ^ 53 * Real.log x) := by
    intro d
    by_cases h : ∃ x : ℚ, Double.val d = .fin x ∧ 0 < x
    · obtain ⟨x, hd, hx⟩ := h
      obtain ⟨e, he⟩ := log_exists hd hx
      refine ⟨e, fun z hz _ => ?_⟩
      rw [hd] at hz
      injection hz with hz
      exact hz ▸ he
    · exact ⟨d, fun x hd hx => absurd ⟨x, hd, hx⟩ h⟩
  choose log hlog using key
  exact ⟨log, fun d x hd hx => (hlog d x hd hx).1, fun d x hd hx => (hlog d x hd (by linarith)).2 hx⟩

/-- Non-vacuity: two competing parses of `[1, 2, 1]`; the one that is returned has at least half the probability of both. -/
example : ∃ (log : Double → Double) (d : IntDict) (ids : List Int), IntDict.init [[1], [2], [1, 2]] = .ok d ∧ Spells d.seqs [1, 0] [1, 2, 1] ∧ Spells d.seqs [0, 2, 0] [1, 2, 1] ∧
    d.parse (Double.ops log) [1, 2, 1] [1, 5, 1] 7 [] = .ok (d, ids, ids.length) ∧ Spells d.seqs ids [1, 2, 1] ∧
    parseProb [1, 5, 1] 7 3 [1, 0] ≤ 2 * parseProb [1, 5, 1] 7 3 ids ∧ parseProb [1, 5, 1] 7 3 [0, 2, 0] ≤ 2 * parseProb [1, 5, 1] 7 3 ids := by
  obtain ⟨log, h1, h2⟩ := C79_logarithms_exist
  obtain ⟨ids, h3, h4, h5⟩ := C79_ieee h1 h2 [[1], [2], [1, 2]] (by decide) (by decide) ⟨[[1], [1, 2], [2]], [-1, 0, -1]⟩ (by decide) [1, 2, 1] (by unfold Knows; decide) [1, 5, 1] 7
    (by decide) (by decide) (by decide) (by decide) []
  have a : Spells [[1], [1, 2], [2]] [1, 0] [1, 2, 1] := ⟨[[1, 2], [1]], by repeat' constructor, rfl⟩
  have b : Spells [[1], [1, 2], [2]] [0, 2, 0] [1, 2, 1] := ⟨[[1], [2], [1]], by repeat' constructor, rfl⟩
  have hp := (parseScore_real (freqs := [1, 5, 1]) (by decide) (total := 7) (by decide) (size := 3) (by decide) ids).1.le
  have hx : Real.exp ((((([1, 2, 1] : IntSeq).length : ℝ)) ^ 2 + 10 * ([1, 2, 1] : IntSeq).length) / 2 ^ 52 * Real.log (((7 : Int) : ℝ) + ([[1], [1, 2], [2]] : List IntSeq).length)) ≤ 2 := by
    have h10 : Real.log (((7 : Int) : ℝ) + ([[1], [1, 2], [2]] : List IntSeq).length) ≤ 10 := by
      refine (Real.log_le_sub_one_of_pos (by norm_num)).trans (by norm_num)
    have h0 : (0 : ℝ) ≤ Real.log (((7 : Int) : ℝ) + ([[1], [1, 2], [2]] : List IntSeq).length) := Real.log_nonneg (by norm_num)
    rw [← Real.le_log_iff_exp_le (by norm_num)]
    have := Real.log_two_gt_d9
    generalize Real.log (((7 : Int) : ℝ) + ([[1], [1, 2], [2]] : List IntSeq).length) = z at *
    norm_num
    linarith
  exact ⟨log, _, ids, by decide, a, b, by simpa using h3, h4, (h5 _ a).trans (mul_le_mul_of_nonneg_right hx hp), (h5 _ b).trans (mul_le_mul_of_nonneg_right hx hp)⟩

end VGram.Props
