import Verif.Props.Stat
import Mathlib.Analysis.SpecialFunctions.Log.Basic
import Mathlib.Algebra.BigOperators.Field
import Mathlib.Algebra.Order.BigOperators.Ring.Finset

/-!
# The code length per character (C19), in exact real arithmetic
-/

namespace VGram.Props

open VGram Spec

/-- Log-sum inequality for counts. -/
theorem logsum_le (n : Nat) (f : Nat → ℝ) (hf : ∀ i, 0 ≤ f i) (P : ℝ) (hP : P = (Finset.range n).sum f) (hpos : 0 < P) :
    P * Real.log P - (Finset.range n).sum (fun i => f i * Real.log (f i)) ≤ P * Real.log n := by
  have hn : 0 < n := by
    rcases Nat.eq_zero_or_pos n with rfl | h
    · simp [hP] at hpos
    · exact h
  have hn' : (0 : ℝ) < n := by exact_mod_cast hn
  have key : ∀ i ∈ Finset.range n, f i * Real.log P - f i * Real.log (f i) - f i * Real.log n ≤ P / n - f i := by
    intro i _
    rcases (hf i).eq_or_lt with h0 | h0
    · rw [← h0]
      simp
      positivity
    · have h1 : Real.log P - Real.log (f i) - Real.log n = Real.log (P / n / f i) := by
        rw [Real.log_div (by positivity) h0.ne', Real.log_div hpos.ne' hn'.ne']
        ring
      have h2 : Real.log (P / n / f i) ≤ P / n / f i - 1 := Real.log_le_sub_one_of_pos (by positivity)
      have h3 : f i * Real.log (P / n / f i) ≤ f i * (P / n / f i - 1) := mul_le_mul_of_nonneg_left h2 h0.le
      have h4 : f i * (P / n / f i - 1) = P / n - f i := by field_simp
      rw [← h1] at h3
      linarith
  have hsum := Finset.sum_le_sum key
  rw [Finset.sum_sub_distrib, Finset.sum_sub_distrib, Finset.sum_sub_distrib, ← Finset.sum_mul, ← Finset.sum_mul, ← hP] at hsum
  simp only [Finset.sum_const, Finset.card_range, nsmul_eq_mul] at hsum
  rw [mul_div_cancel₀ _ hn'.ne'] at hsum
  linarith

theorem sum_le_logsum (n : Nat) (f : Nat → ℝ) (hf : ∀ i, 0 ≤ f i) (P : ℝ) (hP : P = (Finset.range n).sum f) :
    (Finset.range n).sum (fun i => f i * Real.log (f i)) ≤ P * Real.log P := by
  have : P * Real.log P = (Finset.range n).sum fun i => f i * Real.log P := by rw [← Finset.sum_mul, ← hP]
  rw [this]
  refine Finset.sum_le_sum fun i hi => ?_
  rcases (hf i).eq_or_lt with h0 | h0
  · rw [← h0]; simp
  · refine mul_le_mul_of_nonneg_left (Real.log_le_log h0 ?_) h0.le
    rw [hP]
    exact Finset.single_le_sum (fun j _ => hf j) hi

theorem codeLengthSum_real (s : StatDict (Ext ℝ)) :
    s.codeLengthSum (Ext.ops ℝ Real.log) =
      .fin (-(Finset.range s.size).sum fun i => if 0 < s.freq (i : Int) then (s.freq (i : Int) : ℝ) * Real.log (s.freq (i : Int)) else 0) := by
  unfold StatDict.codeLengthSum
  have : ∀ n : Nat, (List.range n).foldl (fun sum (i : Nat) =>
      let f := s.freq (i : Int)
      if 0 < f then (Ext.ops ℝ Real.log).sub sum (StatDict.xlogx (Ext.ops ℝ Real.log) f) else sum) ((Ext.ops ℝ Real.log).ofInt 0) =
      .fin (-(Finset.range n).sum fun i => if 0 < s.freq (i : Int) then (s.freq (i : Int) : ℝ) * Real.log (s.freq (i : Int)) else 0) := by
    intro n
    induction n with
    | zero => simp [Ext.ops]
    | succ n ih =>
      rw [List.range_succ, List.foldl_append, ih, Finset.sum_range_succ]
      simp only [List.foldl_cons, List.foldl_nil]
      split
      · next h =>
        have h' : (0 : ℝ) < (s.freq (n : Int) : ℝ) := by exact_mod_cast h
        simp only [Ext.ops, StatDict.xlogx, Ext.log, h', if_true, Ext.mul, Ext.neg, Ext.add]
        congr 1
        ring
      · simp
  exact this s.size

/-- C19: after parsing at least one symbol the code length per character is a number between 0 and
`power / total_chars * log size`; it is the empirical entropy of the emitted ids per character. -/
theorem C19_code_length (s0 : StatDict (Ext ℝ)) (h0 : FreshStat s0) (seqs : List IntSeq) (hne : seqs.flatten ≠ [])
    (s : StatDict (Ext ℝ)) (outs : List (List Int)) (h : parseAll (Ext.ops ℝ Real.log) s0 seqs = .ok (s, outs)) :
    ∃ x : ℝ, s.codeLengthPerChar (Ext.ops ℝ Real.log) = .fin x ∧
      x = (((outs.flatten.length : ℝ) * Real.log outs.flatten.length -
        (Finset.range s.size).sum fun i => (outs.flatten.count (i : Int) : ℝ) * Real.log (outs.flatten.count (i : Int))) /
          (seqs.flatten.length : ℝ)) ∧
      0 ≤ x ∧ x ≤ (s.power : ℝ) / (s.totalChars : ℝ) * Real.log s.size := by
  obtain ⟨s', outs', h1, hsp, hfreq, hpow, hpsum, htc, hchars⟩ := C13_freq_accounting (Ext.ops ℝ Real.log) (Ext.scoreLaws _) s0 h0 seqs
  rw [h] at h1
  cases h1
  have hlen : 0 < seqs.flatten.length := List.length_pos_iff.2 hne
  have hpos : 0 < s.power := by
    by_contra hc
    have hz : outs.flatten.length = 0 := by omega
    have : s.totalChars = 0 := by
      rw [hchars]
      refine Finset.sum_eq_zero fun i _ => ?_
      rw [hfreq, List.length_eq_zero_iff.1 hz]
      simp
    omega
  have hsum := codeLengthSum_real s
  have hf : (Finset.range s.size).sum (fun i => if 0 < s.freq (i : Int) then (s.freq (i : Int) : ℝ) * Real.log (s.freq (i : Int)) else 0) =
      (Finset.range s.size).sum fun i => (outs.flatten.count (i : Int) : ℝ) * Real.log (outs.flatten.count (i : Int)) := by
    refine Finset.sum_congr rfl fun i _ => ?_
    rw [hfreq]
    split
    · simp
    · next hc =>
      have : outs.flatten.count (i : Int) = 0 := by omega
      rw [this]
      simp
  rw [hf] at hsum
  have hpr : (s.power : ℝ) = (outs.flatten.length : ℝ) := by rw [hpow, Int.cast_natCast]
  have hprpos : (0 : ℝ) < (outs.flatten.length : ℝ) := by rw [← hpr]; exact_mod_cast hpos
  have htr : (s.totalChars : ℝ) = (seqs.flatten.length : ℝ) := by rw [htc, Int.cast_natCast]
  have htpos : (0 : ℝ) < (seqs.flatten.length : ℝ) := by exact_mod_cast hlen
  have hPsum : (outs.flatten.length : ℝ) = (Finset.range s.size).sum fun i => (outs.flatten.count (i : Int) : ℝ) := by
    rw [← hpr, hpsum]
    push_cast
    exact Finset.sum_congr rfl fun i _ => by rw [hfreq]; simp
  refine ⟨_, ?_, rfl, ?_, ?_⟩
  · rw [StatDict.codeLengthPerChar, hsum]
    have h1 : (0 : ℝ) < (s.power : ℝ) := by rw [hpr]; exact hprpos
    have h2 : (s.totalChars : ℝ) ≠ 0 := by rw [htr]; exact htpos.ne'
    simp only [Ext.ops, StatDict.xlogx, Ext.log, h1, if_true, Ext.mul, Ext.add, Ext.div, h2, if_false]
    rw [hpr, htr]
    congr 1
    ring
  · apply div_nonneg _ htpos.le
    have := sum_le_logsum s.size (fun i => (outs.flatten.count (i : Int) : ℝ)) (fun i => by positivity) _ hPsum
    linarith
  · have := logsum_le s.size (fun i => (outs.flatten.count (i : Int) : ℝ)) (fun i => by positivity) _ hPsum hprpos
    rw [hpr, htr, div_mul_eq_mul_div]
    exact div_le_div_of_nonneg_right this htpos.le

/-- The hypotheses are satisfiable: an empty dictionary, one parsed sequence. -/
example : ∃ s outs, parseAll (Ext.ops ℝ Real.log) (StatDict.new (.fin 1)) [[0, 1]] = .ok (s, outs) := by
  obtain ⟨s, outs, h, _⟩ := C13_freq_accounting (Ext.ops ℝ Real.log) (Ext.scoreLaws _) (StatDict.new (.fin 1)) (Or.inl ⟨_, rfl⟩) [[0, 1]]
  exact ⟨s, outs, h⟩

end VGram.Props
