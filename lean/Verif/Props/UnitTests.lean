import Verif.Props.CodeLength
import Verif.Props.Computed
import Mathlib.Analysis.Complex.ExponentialBounds

/-!
# The unit tests of the repository, run on the model

`core/src/test/cpp/algorithm/int_dict_test.cc`, `stat_dict_test.cc` and `binding/src/test/python/tokenizer_test.py`, assertion by assertion.  They check the transcription, not
the program: every expected value is the one written in the test.  Left out: assertions about `set_mutable`, which the pinned sources do not have any more, constructors
whose tests assert nothing, and the tests with random inputs (`int_vgram_builder_test.cpp`).  The parser is run with exact rational arithmetic and with doubles; the
logarithms of the last two tests are real.
-/

namespace VGram.Props

open VGram Spec

/-- `simple_seqs()`, common.cc:7-14. -/
abbrev simpleSeqs : List IntSeq := [[0, 1], [0], [1], [0, 1, 1]]

/-- `seq` of the parse tests. -/
abbrev testText : IntSeq := [0, 1, 0, 1, 1, 0, 1, 1, 1, 0]

/-! ## int_dict_test.cc -/

/-- `SizeTest`, `GetTest`, `AlphabetTest`, `ParentTest`. -/
example : ∃ d, IntDict.init simpleSeqs = .ok d ∧ d.size = 4 ∧
    d.get 0 = .ok simpleSeqs[1] ∧ d.get 1 = .ok simpleSeqs[0] ∧ d.get 2 = .ok simpleSeqs[3] ∧ d.get 3 = .ok simpleSeqs[2] ∧
    (∀ w, w ∈ d.alphabet ↔ w ∈ simpleSeqs) ∧
    d.parent 0 = .ok (-1) ∧ d.parent 1 = .ok 0 ∧ d.parent 2 = .ok 1 ∧ d.parent 3 = .ok (-1) := by
  refine ⟨⟨[[0], [0, 1], [0, 1, 1], [1]], [-1, 0, 1, -1]⟩, by decide +kernel, rfl, by decide +kernel, by decide +kernel, by decide +kernel, by decide +kernel, ?_,
    by decide +kernel, by decide +kernel, by decide +kernel, by decide +kernel⟩
  intro w
  simp [IntDict.alphabet]
  tauto

/-- `SearchTest`: without an exclude set, with one, unknown symbol. -/
example : ∃ d, IntDict.init simpleSeqs = .ok d ∧
    (∀ i : Fin 4, ((d.get i.val).bind fun w => d.search w none) = .ok (d, (i.val : Int))) ∧
    ((d.get 0).bind fun w => d.search w (some [1, 2])) = .ok (d, 0) ∧ ((d.get 1).bind fun w => d.search w (some [1, 2])) = .ok (d, 0) ∧
    ((d.get 2).bind fun w => d.search w (some [1, 2])) = .ok (d, 0) ∧ ((d.get 3).bind fun w => d.search w (some [1, 2])) = .ok (d, 3) ∧
    d.search [1, 0] (some [1, 2]) = .ok (d, 3) ∧ d.search [0, 0, 0] (some [1, 2]) = .ok (d, 0) ∧ d.search [0, 1, 0] (some [1, 2]) = .ok (d, 0) ∧
    d.search [0, 1, 0] none = .ok (d, 1) ∧ (∃ d', d.search [2] none = .ok (d', 4)) := by
  refine ⟨⟨[[0], [0, 1], [0, 1, 1], [1]], [-1, 0, 1, -1]⟩, by decide +kernel, by decide +kernel, by decide +kernel, by decide +kernel, by decide +kernel, by decide +kernel,
    by decide +kernel, by decide +kernel, by decide +kernel, by decide +kernel, ⟨_, rfl⟩⟩

/-- `LinearParseTestOrdinary`, `LinearParseTestNewSymbol`. -/
example : ∃ d, IntDict.init simpleSeqs = .ok d ∧ d.parseLinear testText [] none = .ok (d, [1, 2, 2, 3, 0], 5) ∧
    (∃ d' n, d.parseLinear [0, 1, 2, 0, 1, 1, 0, 1, 1, 1, 0] [] none = .ok (d', [1, 4, 2, 2, 3, 0], n)) :=
  ⟨⟨[[0], [0, 1], [0, 1, 1], [1]], [-1, 0, 1, -1]⟩, by decide +kernel, by decide +kernel, _, _, rfl⟩

/-- `NewSymbolInEmptyAlphabetTest`: the four texts are parsed one after another, the output grows. -/
example : (match simpleSeqs.foldlM (fun (r : IntDict × List Int) seq => do
      let (d, out, _) ← r.1.parseLinear seq r.2 none
      pure (d, out)) (IntDict.empty, []) with
    | .ok (d, _) => d.size | .error _ => 0) = 2 := by decide +kernel

/-- `WeightedParseTest`. -/
example : ∃ d, IntDict.init simpleSeqs = .ok d ∧ d.parse quickEnv.ops testText [3, 2, 1, 4] (3 + 2 + 1 + 4) [] = .ok (d, [1, 2, 2, 3, 0], 5) ∧
    d.parse sampleEnv.ops testText [3, 2, 1, 4] (3 + 2 + 1 + 4) [] = .ok (d, [1, 2, 2, 3, 0], 5) :=
  ⟨⟨[[0], [0, 1], [0, 1, 1], [1]], [-1, 0, 1, -1]⟩, by decide +kernel, by decide +kernel, by decide +kernel⟩

/-! ## stat_dict_test.cc -/

/-- `FreqTest`, `SizeTest`, `GetTest`, `ParentTest`. -/
example : ∃ s s' : StatDict (Ext Rat), StatDict.ofSeqs simpleSeqs (.fin (2 / 1000)) (some [3, 2, 1, 4]) = .ok s ∧ StatDict.ofSeqs simpleSeqs (.fin (2 / 1000)) none = .ok s' ∧
    (∀ i : Fin 4, s.freq i.val = 0 ∧ s'.freq i.val = 0) ∧ s'.size = 4 ∧
    s'.dict.get 0 = .ok simpleSeqs[1] ∧ s'.dict.get 1 = .ok simpleSeqs[0] ∧ s'.dict.get 2 = .ok simpleSeqs[3] ∧ s'.dict.get 3 = .ok simpleSeqs[2] ∧
    s'.dict.parent 0 = .ok (-1) ∧ s'.dict.parent 1 = .ok 0 ∧ s'.dict.parent 2 = .ok 1 ∧ s'.dict.parent 3 = .ok (-1) := by
  refine ⟨⟨⟨[[0], [0, 1], [0, 1, 1], [1]], [-1, 0, 1, -1]⟩, [0, 0, 0, 0], [3, 2, 1, 4], 0, 10, [], .fin (2 / 1000), 0⟩,
    ⟨⟨[[0], [0, 1], [0, 1, 1], [1]], [-1, 0, 1, -1]⟩, [0, 0, 0, 0], [0, 0, 0, 0], 0, 0, [], .fin (2 / 1000), 0⟩, ?_⟩
  decide +kernel

/-- The statistics dictionary of the tests. -/
abbrev testDict {F : Type} (p : F) : StatDict F := ⟨⟨[[0], [0, 1], [0, 1, 1], [1]], [-1, 0, 1, -1]⟩, [0, 0, 0, 0], [0, 0, 0, 0], 0, 0, [], p, 0⟩

theorem testDict_made {F : Type} (p : F) : StatDict.ofSeqs simpleSeqs p none = .ok (testDict p) := rfl

set_option synthInstance.maxSize 2000 in
/-- `SearchTest`. -/
example : (∀ i : Fin 4, (((testDict (Ext.fin (2 / 1000 : Rat))).dict.get i.val).bind fun w => (testDict (Ext.fin (2 / 1000 : Rat))).search w none) =
      .ok (testDict (Ext.fin (2 / 1000)), (i.val : Int))) ∧
    (testDict (Ext.fin (2 / 1000 : Rat))).search [0] (some [1, 2]) = .ok (testDict (.fin (2 / 1000)), 0) ∧
    (testDict (Ext.fin (2 / 1000 : Rat))).search [0, 1] (some [1, 2]) = .ok (testDict (.fin (2 / 1000)), 0) ∧
    (testDict (Ext.fin (2 / 1000 : Rat))).search [0, 1, 1] (some [1, 2]) = .ok (testDict (.fin (2 / 1000)), 0) ∧
    (testDict (Ext.fin (2 / 1000 : Rat))).search [1] (some [1, 2]) = .ok (testDict (.fin (2 / 1000)), 3) ∧
    (testDict (Ext.fin (2 / 1000 : Rat))).search [1, 0] (some [1, 2]) = .ok (testDict (.fin (2 / 1000)), 3) ∧
    (testDict (Ext.fin (2 / 1000 : Rat))).search [0, 0, 0] (some [1, 2]) = .ok (testDict (.fin (2 / 1000)), 0) ∧
    (testDict (Ext.fin (2 / 1000 : Rat))).search [0, 1, 0] (some [1, 2]) = .ok (testDict (.fin (2 / 1000)), 0) ∧
    (testDict (Ext.fin (2 / 1000 : Rat))).search [0, 1, 0] none = .ok (testDict (.fin (2 / 1000)), 1) := by decide +kernel

/-- `ParseTest`. -/
example : ((testDict (Ext.fin (2 / 1000 : Rat))).parse quickEnv.ops testText []).map (·.2.1) = .ok [1, 2, 2, 3, 0] ∧
    ((testDict (sampleEnv.ops.lit 2 3)).parse sampleEnv.ops testText []).map (·.2.1) = .ok [1, 2, 2, 3, 0] := by decide +kernel

/-- `UpdateSymbolTest`. -/
example : ((do
      let s ← (testDict (Ext.fin (2 / 1000 : Rat))).updateSymbol 0 1
      let s ← s.updateSymbol 1 2
      let s ← s.updateSymbol 2 3
      let s ← s.updateSymbol 3 4
      let s' ← s.updateSymbol 0 5
      pure ((List.range 4).map fun (i : Nat) => s.freq i, s'.freq 0) : M (List Int × Int))) = .ok ([1, 2, 3, 4], 6) := by decide +kernel

/-- `CodeLengthPerCharTest`, with the logarithm of real numbers. -/
example (s : StatDict (Ext ℝ)) (h : parseAll (Ext.ops ℝ Real.log) (testDict (.fin (2 / 1000))) [testText] = .ok (s, [[1, 2, 2, 3, 0]])) :
    s.codeLengthPerChar (Ext.ops ℝ Real.log) = .fin ((5 * Real.log 5 - 2 * Real.log 2 - 3 * 1 * Real.log 1) / 10) := by
  have hn : s.dict.seqs.length = 4 := by
    obtain ⟨s', outs, p1, _, p3, _⟩ := healthy_parseAll (Ext.scoreLaws Real.log) [testText] (testDict (.fin (2 / 1000))) [[0], [0, 1], [0, 1, 1], [1]]
      (FreshClosed.spec (Or.inr ⟨simpleSeqs, _, none, by decide, by simp, by unfold Closed Knows; decide, by simp, testDict_made _⟩)).1
      (.cons (.known (by decide) (.known (by decide) (.known (by decide) (.known (by decide) (.known (by decide) (.known (by decide) (.known (by decide) (.known (by decide)
        (.known (by decide) (.known (by decide) .nil)))))))))) .nil)
    rw [h] at p1
    cases p1
    rw [p3]
    rfl
  obtain ⟨x, h1, h2, _⟩ := C19_code_length (testDict (.fin (2 / 1000))) (Or.inr ⟨simpleSeqs, _, none, by simp, by simp, testDict_made _⟩) [testText] (by simp) s _ h
  rw [h1, h2, StatDict.size, IntDict.size, hn]
  congr 1
  simp [Finset.sum_range_succ]

/-- `EnoughTest`: the parse emits five ids, `exp(-1)` is between 0.367 and 0.368. -/
example (s : StatDict (Ext ℝ)) (c : Int) (h : (testDict (.fin (2 / 10 : ℝ))).parse (Ext.ops ℝ Real.log) testText [] = .ok (s, [1, 2, 2, 3, 0], c)) :
    s.enough (Ext.ops ℝ Real.log) (.fin (367 / 1000)) = false ∧ s.enough (Ext.ops ℝ Real.log) (.fin (368 / 1000)) = true := by
  have hp : s.power = 5 := parse_power h
  have hm : s.minProb = .fin (2 / 10 : ℝ) := parse_minProb h
  have e1 := Real.exp_one_gt_d9
  have e2 := Real.exp_one_lt_d9
  have hexp : Real.exp (-1) = (Real.exp 1)⁻¹ := Real.exp_neg 1
  have hpos := Real.exp_pos 1
  rw [enough_real (by norm_num) (by norm_num) hm, enough_real (by norm_num) (by norm_num) hm, hp]
  have h1 : Real.log (367 / 1000) < -1 := by
    rw [Real.log_lt_iff_lt_exp (by norm_num), hexp, lt_inv_comm₀ (by norm_num) hpos]
    norm_num
    linarith
  have h2 : -1 < Real.log (368 / 1000) := by
    rw [Real.lt_log_iff_exp_lt (by norm_num), hexp, inv_lt_comm₀ hpos (by norm_num)]
    norm_num
    linarith
  constructor
  · rw [decide_eq_false_iff_not, not_lt]
    push_cast
    linarith
  · rw [decide_eq_true_eq]
    push_cast
    linarith

/-! ## tokenizer_test.py -/

/-- `test_accept`, `test_fit_twice`. -/
example : (Tokenizer.transformAll .rhsFirst (Tokenizer.new .char) ["abc".toList]).2 = [[0, 1, 2]] ∧
    (Tokenizer.transformAll .rhsFirst (Tokenizer.transformAll .rhsFirst (Tokenizer.new .char) ["abc".toList]).1 ["cde".toList]).2 = [[2, 3, 4]] := by decide +kernel

end VGram.Props
