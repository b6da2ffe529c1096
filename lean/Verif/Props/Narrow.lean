import Verif.Props.Loading
import Verif.Props.Ieee

/-!
# Numbers of a file that do not fit into an `int` (C101)
-/

namespace VGram.Props

open VGram Spec Dump Parse

variable {F : Type}

/-- C101, partial (the claim is false: integers out of range are not noticed).  Loading with conversions to `int` either meets a `double` whose integral part is no
`int`, which is undefined behaviour, or does exactly what loading without conversions would do with the file whose size, symbols, frequencies and codes are replaced
by the `int`s congruent modulo `2^32`: same model or same exception. -/
theorem C101_reduced_partial (O : FloatOps F) (j : Json F) :
    (Narrow.loadStream O j = .error .badCast ∧ ¬ NumsFit O j ∨ Narrow.loadStream O j = Loader.loadStream O (reducedFile j)) ∧
    (Narrow.loadIntVGram O j = .error .badCast ∧ ¬ NumsFit O j ∨ Narrow.loadIntVGram O j = Loader.loadIntVGram O (reducedFile j)) ∧
    (Narrow.loadStringStream O j = .error .badCast ∧ ¬ NumsFit O j ∨ Narrow.loadStringStream O j = Loader.loadStringStream O (reducedFile j)) ∧
    (Narrow.loadStringVGram O j = .error .badCast ∧ ¬ NumsFit O j ∨ Narrow.loadStringVGram O j = Loader.loadStringVGram O (reducedFile j)) :=
  ⟨loadStream_upTo O j, loadIntVGram_upTo O j, loadStringStream_upTo O j, loadStringVGram_upTo O j⟩

/-- C101: if all integers of a file, and the integral parts of all its doubles except for the probability, are `int`s, then the conversions change nothing. -/
theorem C101_fitting (O : FloatOps F) (j : Json F) (hi : IntsFit j) (hn : NumsFit O j) :
    Narrow.loadStream O j = Loader.loadStream O j ∧ Narrow.loadIntVGram O j = Loader.loadIntVGram O j ∧
      Narrow.loadStringStream O j = Loader.loadStringStream O j ∧ Narrow.loadStringVGram O j = Loader.loadStringVGram O j :=
  fitting_loads O hi hn

/-- C101: a file written by one of the four `save` functions has no double but the probability, so that none of the four `load` functions
meets the undefined conversion; if its integers are `int`s, the conversions change nothing. -/
theorem C101_saved (O : FloatOps F) (j : Json F)
    (h : (∃ m, Saver.saveStream O m = .ok j) ∨ (∃ m, Saver.saveIntVGram O m = .ok j) ∨ (∃ m, Saver.saveStringStream O m = .ok j) ∨ ∃ m, Saver.saveStringVGram O m = .ok j) :
    (∀ x, ¬ Inside (.num x) j) ∧
    (Narrow.loadStream O j = Loader.loadStream O (reducedFile j) ∧ Narrow.loadIntVGram O j = Loader.loadIntVGram O (reducedFile j) ∧
      Narrow.loadStringStream O j = Loader.loadStringStream O (reducedFile j) ∧ Narrow.loadStringVGram O j = Loader.loadStringVGram O (reducedFile j)) ∧
    (IntsFit j → reducedFile j = j) := by
  have hx : ∀ x, ¬ Inside (.num x) j := by
    rcases h with ⟨m, h⟩ | ⟨m, h⟩ | ⟨m, h⟩ | ⟨m, h⟩ <;>
    · obtain ⟨b, e2, e3⟩ := bind_ok.1 h
      cases e3
      exact baseInfo_noNum (by simp [Saver.fittedInfo]) e2
  have key : ∀ {α : Type} {a b : M α}, (a = .error .badCast ∧ ¬ NumsFit O j ∨ a = b) → a = b :=
    fun h => h.resolve_left fun h => h.2 fun x hj => absurd hj (hx x)
  obtain ⟨h1, h2, h3, h4⟩ := C101_reduced_partial O j
  exact ⟨hx, ⟨key h1, key h2, key h3, key h4⟩, reducedFile_id⟩

/-- C101: whatever the bytes of a file are, loading it as a stream model with conversions to `int` gives the model that the reduced file describes, throws one of three
exceptions, or is undefined: a member is missing in an entry, or a double does not fit. -/
theorem C101_any_file (O : FloatOps F) (T : TextOps F) (s : Str) :
    readFile O T s = .error .jsonParse ∨ readFile O T s = .error .outOfRange ∨
    ∃ j, readFile O T s = .ok j ∧
      ((∃ m size prob symbols entries, Narrow.loadStream O j = .ok m ∧ Loader.loadStream O (reducedFile j) = .ok m ∧
          Describes O (reducedFile j) size prob symbols entries) ∨
        Narrow.loadStream O j = .error .jsonType ∨
        (Narrow.loadStream O j = .error .jsonKey ∧ ∃ size prob symbols a entries bad b, Heads O (reducedFile j) size prob symbols ∧
          ItemsOf (reducedFile j) "alphabet" (a ++ bad :: b) ∧ List.Forall₂ (Entry O) a entries ∧ Broken O bad) ∨
        (Narrow.loadStream O j = .error .badCast ∧ ¬ NumsFit O j)) := by
  rcases C60_parser_terminates O T s with ⟨j, h⟩ | h | h
  · refine Or.inr (Or.inr ⟨j, h, ?_⟩)
    rcases (C101_reduced_partial O j).1 with hb | hr
    · exact Or.inr (Or.inr (Or.inr hb))
    · rw [hr]
      cases hm : Loader.loadStream O (reducedFile j) with
      | ok m =>
        obtain ⟨a, b, c, d, h1⟩ := C81_load_only_described O hm
        exact Or.inl ⟨m, a, b, c, d, rfl, rfl, h1⟩
      | error e =>
        have hm' := loadStream_err.1 hm
        rcases Loader.readDict_err hm' with rfl | rfl
        · exact Or.inr (Or.inl rfl)
        · exact Or.inr (Or.inr (Or.inl ⟨rfl, Loader.readDict_key.1 hm'⟩))
  · exact Or.inl h
  · exact Or.inr (Or.inl h)

/-- Reads a file with doubles and loads it as a stream model with conversions to `int`: size, words, frequencies and the codes of 7 and 8. -/
def peekInt (s : String) : M (Int × List IntSeq × List Int × List Int) := do
  let j ← readFile sampleEnv.ops (Double.text strtodEven) s.toList
  let m ← Narrow.loadStream sampleEnv.ops j
  let d ← m.getDict
  pure (m.size, d.seqs, m.freqs, m.coder.encodeImm [7, 8])

set_option synthInstance.maxSize 2000 in
/-- A model fitted in doubles and saved: the file is loaded with and without conversions as the same words, frequencies and size.  With the same words, a file whose only
frequency is the double `3.5` is loaded as well: the integral part fits. -/
example : (do
    let E := sampleEnv
    let (m, _) ← (IntVGram.new E.ops 5 3).fit E ⟨fun n => n, fun _ => false⟩ [[5, 6], [5, 6, 5, 6, 7, 5, 6]]
    let j ← Saver.saveIntVGram E.ops m
    let l ← Loader.loadStream E.ops j
    let l' ← Narrow.loadStream E.ops j
    let ws ← l.alphabet
    let ws' ← l'.alphabet
    pure (ws, l.freqs, l.size, decide (ws = ws' ∧ l.freqs = l'.freqs ∧ l.size = l'.size)) : M (List IntSeq × List Int × Int × Bool)) =
      .ok ([[5], [5, 6], [6], [7]], [0, 4, 0, 1], 5, true) ∧
    peekInt "{\"size\":1, \"min_prob\":0, \"coder\":[7], \"alphabet\":[{\"freq\":3.5,\"vec\":[0]}]}" = .ok (1, [[0]], [3], [0]) := by
  decide +kernel

set_option synthInstance.maxSize 2000 in
/-- **C101** is false: a file with the size `2^31`, the symbol `2^32 + 7`, the frequency `2^32 + 5` and the code `2^32` is loaded as the model of size `-2^31` in which
the word of 7 occurs five times.  A size of `1e10` is undefined behaviour, one of `2e9` or `5.75` is not. -/
theorem C101_reject_false :
    peekInt "{\"size\":2147483648, \"min_prob\":0, \"coder\":[4294967303], \"alphabet\":[{\"freq\":4294967301,\"vec\":[4294967296]}]}" =
      .ok (-2147483648, [[0]], [5], [0]) ∧
    peekInt "{\"size\":1e10, \"min_prob\":0}" = .error .badCast ∧ peekInt "{\"size\":2e9, \"min_prob\":0}" = .ok (2000000000, [], [], []) ∧
    peekInt "{\"size\":5.75, \"min_prob\":1e10}" = .ok (5, [], [], []) ∧ peekInt "{\"size\":18446744073709551616, \"min_prob\":0}" = .error .badCast := by
  decide +kernel

end VGram.Props
