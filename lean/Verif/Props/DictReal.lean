import Mathlib.Analysis.SpecialFunctions.Log.Basic
import Verif.Props.Dict

/-!
# C10 in exact real arithmetic: the parse of maximal probability
-/

namespace VGram.Props

open VGram Spec

/-- Exact real arithmetic. -/
noncomputable def realOps : FloatOps (Ext ℝ) := Ext.ops ℝ Real.log

/-- Smoothed probability of id `i`. -/
noncomputable def idProb (freqs : List Int) (total : Int) (size : Nat) (i : Int) : ℝ :=
  (((freqs[i.toNat]?).getD 0 : Int) + 1 : ℝ) / ((total : ℝ) + (size : ℝ))

/-- Probability of a parse: the product over its ids. -/
noncomputable def parseProb (freqs : List Int) (total : Int) (size : Nat) (ids : List Int) : ℝ :=
  (ids.map (idProb freqs total size)).prod

theorem wordScore_real {freqs : List Int} (hf : ∀ f ∈ freqs, 0 ≤ f) {total : Int} (ht : 0 ≤ total) {size : Nat}
    (hs : 0 < size) (i : Int) : 0 < idProb freqs total size i ∧
      wordScore realOps freqs total size i = .fin (Real.log (idProb freqs total size i)) := by
  have hden : (0 : ℝ) < (total : ℝ) + (size : ℝ) := by
    have h1 : (0 : ℝ) ≤ (total : ℝ) := by exact_mod_cast ht
    have h2 : (0 : ℝ) < (size : ℝ) := by exact_mod_cast hs
    linarith
  have hden' : (0 : ℝ) < ((total + (size : Int) : Int) : ℝ) := by push_cast; exact hden
  unfold wordScore idProb
  cases h : freqs[i.toNat]? with
  | none =>
    refine ⟨by simp; positivity, ?_⟩
    simp only [realOps, Ext.ops, Ext.log, hden', if_true, Ext.neg, Ext.add]
    congr 1
    simp
  | some f =>
    have h0 := hf f (List.mem_of_getElem? h)
    have hnum : (0 : ℝ) < ((f : Int) : ℝ) + 1 := by
      have : (0 : ℝ) ≤ ((f : Int) : ℝ) := by exact_mod_cast h0
      linarith
    have hnum' : (0 : ℝ) < ((f + 1 : Int) : ℝ) := by push_cast; exact hnum
    refine ⟨by simp only [Option.getD_some]; positivity, ?_⟩
    simp only [realOps, Ext.ops, Ext.log, hden', hnum', if_true, Ext.neg, Ext.add]
    congr 1
    rw [Option.getD_some, Real.log_div hnum.ne' hden.ne']
    push_cast
    ring

theorem parseScore_real {freqs : List Int} (hf : ∀ f ∈ freqs, 0 ≤ f) {total : Int} (ht : 0 ≤ total) {size : Nat}
    (hs : 0 < size) (ids : List Int) : 0 < parseProb freqs total size ids ∧
      parseScore realOps freqs total size ids = .fin (Real.log (parseProb freqs total size ids)) := by
  have key : ∀ (ids : List Int) (x : ℝ), 0 < x → 0 < x * parseProb freqs total size ids ∧
      ids.foldl (fun s i => realOps.add s (wordScore realOps freqs total size i)) (.fin (Real.log x)) =
        .fin (Real.log (x * parseProb freqs total size ids)) := by
    intro ids
    induction ids with
    | nil => intro x hx; simp [parseProb, hx]
    | cons i ids ih =>
      intro x hx
      obtain ⟨h1, h2⟩ := wordScore_real hf ht hs i
      obtain ⟨h3, h4⟩ := ih (x * idProb freqs total size i) (mul_pos hx h1)
      have e : x * parseProb freqs total size (i :: ids) =
          x * idProb freqs total size i * parseProb freqs total size ids := by
        simp [parseProb, mul_assoc]
      refine ⟨e ▸ h3, ?_⟩
      rw [List.foldl_cons, h2, e, ← h4, Real.log_mul hx.ne' h1.ne']
      rfl
  have := key ids 1 one_pos
  simp only [one_mul, Real.log_one] at this
  refine ⟨this.1, ?_⟩
  rw [← this.2]
  unfold parseScore
  congr 1
  simp [realOps, Ext.ops]

/-- C10 over the reals: among all parses, the returned one has the greatest product of smoothed
probabilities `(freq + 1) / (total + size)`. -/
theorem C10_max_probability (l : List IntSeq) (hnd : l.Nodup) (hne : [] ∉ l) (d : IntDict) (h : IntDict.init l = .ok d)
    (seq : IntSeq) (hk : Knows d.seqs seq) (freqs : List Int) (hf : ∀ f ∈ freqs, 0 ≤ f) (total : Int) (ht : 0 ≤ total)
    (out : List Int) :
    ∃ ids, d.parse realOps seq freqs total out = .ok (d, out ++ ids, ((out ++ ids).length : Int)) ∧
      Spells d.seqs ids seq ∧ ∀ ids', Spells d.seqs ids' seq →
        parseProb freqs total d.seqs.length ids' ≤ parseProb freqs total d.seqs.length ids := by
  obtain ⟨ids, h1, h2, h3⟩ := C10_weighted_optimal realOps (Ext.scoreLaws Real.log) (Ext.orderLaws Real.log) l hnd hne d
    h seq hk freqs hf total ht out
  refine ⟨ids, h1, h2, fun ids' h' => ?_⟩
  by_cases hs : 0 < d.seqs.length
  · have := h3 ids' h'
    obtain ⟨p1, e1⟩ := parseScore_real hf ht hs ids
    obtain ⟨p2, e2⟩ := parseScore_real hf ht hs ids'
    rw [e1, e2] at this
    have hl : ¬ Real.log (parseProb freqs total d.seqs.length ids) < Real.log (parseProb freqs total d.seqs.length ids') := by
      simpa [realOps, Ext.ops, Ext.lt] using this
    exact (Real.log_le_log_iff p2 p1).1 (not_lt.1 hl)
  · have hnil : d.seqs = [] := List.length_eq_zero_iff.1 (by omega)
    have : ∀ is, Spells d.seqs is seq → is = [] := by
      rintro is ⟨ws, a, _⟩
      cases a with
      | nil => rfl
      | cons a => have := a.2; simp [hnil] at this
    rw [this ids h2, this ids' h']

/-- Hypotheses are met non-trivially: two competing parses. -/
example : ∃ d, IntDict.init [[1], [2], [1, 2]] = .ok d ∧ Knows d.seqs [1, 2] ∧ Spells d.seqs [1] [1, 2] ∧
    Spells d.seqs [0, 2] [1, 2] :=
  ⟨⟨[[1], [1, 2], [2]], [-1, 0, -1]⟩, by decide, by unfold Knows; decide, ⟨[[1, 2]], by repeat' constructor, rfl⟩,
    ⟨[[1], [2]], by repeat' constructor, rfl⟩⟩

end VGram.Props
