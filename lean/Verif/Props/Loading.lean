import Verif.Proofs.Loading
import Verif.Props.JsonText
import Verif.Props.Coder
import Verif.Props.Dict

/-!
# Files that were not written by `save` (C81, C82)
-/

namespace VGram.Props

open VGram Spec Dump Parse

variable {F : Type}

/-! ## C81 loading arbitrary files -/

/-- **C81**: a tree that describes a model is loaded, and the model is the described one: its words are those of the file in sorted order, its frequencies those
of the file in the order of the file, and its symbols are numbered as they come in the file. -/
theorem C81_load_described (O : FloatOps F) {j : Json F} {size : Int} {prob : F} {symbols : List Int} {entries : List (Int × IntSeq)}
    (h : Describes O j size prob symbols entries) : ∃ m d, Loader.loadStream O j = .ok m ∧ m.getDict = .ok d ∧ d.seqs.Perm (entries.map Prod.snd) ∧
      d.seqs.Pairwise (· ≤ ·) ∧ m.freqs = entries.map Prod.fst ∧ m.size = size ∧ m.minProb = some prob ∧ m.coder = coderAfter [symbols] := by
  have hr := (Loader.readDict_ok (i := ⟨size, prob, _, _, _⟩)).2 ⟨symbols, entries, h, rfl, rfl, rfl⟩
  obtain ⟨m, d, h1, h2, h3, h4, h5, h6, _, h8, h9, _⟩ := ofSaved_any O (SeqCoder.new.encode symbols).1 (entries.map Prod.fst) (entries.map Prod.snd) size prob
  obtain ⟨d', e1, e2, e3, _⟩ := C01_init_sorted_perm (entries.map Prod.snd)
  rw [h2] at e1
  cases e1
  refine ⟨m, d, ?_, ?_, e2, e3, h6, h8, h9, h5⟩
  · simp only [Loader.loadStream, hr, ok_bind, h1]
  · simp only [Stream.getDict, h3, h4]

/-- **C81**: nothing else is loaded. -/
theorem C81_load_only_described (O : FloatOps F) {j : Json F} {m : Stream F} (h : Loader.loadStream O j = .ok m) :
    ∃ size prob symbols entries, Describes O j size prob symbols entries := by
  obtain ⟨i, h1, _⟩ := bind_ok.1 h
  obtain ⟨vals, es, h2, _⟩ := Loader.readDict_ok.1 h1
  exact ⟨_, _, _, _, h2⟩

theorem loadStream_err {O : FloatOps F} {j : Json F} {e : Fault} : Loader.loadStream O j = .error e ↔ Loader.readDict O j = .error e := by
  simp only [Loader.loadStream]
  rw [bind_err]
  refine or_iff_left ?_
  rintro ⟨i, _, h⟩
  obtain ⟨m, _, h1, _⟩ := ofSaved_any O i.coder i.freqs i.alphabet i.size i.minProb
  rw [h1] at h
  cases h

/-- **C81**: whatever the bytes of a file are, loading it as a stream model gives the model it describes, throws `parse_error`, `out_of_range` or `type_error`, or
is undefined, and undefined exactly when a proper beginning is followed by an entry without frequency or without word.
Missing: the undefined case, which does occur, see `C81_missing_key_false`. -/
theorem C81_any_file_partial (O : FloatOps F) (T : TextOps F) (s : Str) :
    readFile O T s = .error .jsonParse ∨ readFile O T s = .error .outOfRange ∨
    ∃ j, readFile O T s = .ok j ∧
      ((∃ m size prob symbols entries, Loader.loadStream O j = .ok m ∧ Describes O j size prob symbols entries) ∨
        Loader.loadStream O j = .error .jsonType ∨
        (Loader.loadStream O j = .error .jsonKey ∧ ∃ size prob symbols a entries bad b, Heads O j size prob symbols ∧ ItemsOf j "alphabet" (a ++ bad :: b) ∧
          List.Forall₂ (Entry O) a entries ∧ Broken O bad)) := by
  rcases C60_parser_terminates O T s with ⟨j, h⟩ | h | h
  · refine Or.inr (Or.inr ⟨j, h, ?_⟩)
    cases hm : Loader.loadStream O j with
    | ok m =>
      obtain ⟨a, b, c, d, h1⟩ := C81_load_only_described O hm
      exact Or.inl ⟨m, a, b, c, d, rfl, h1⟩
    | error e =>
      have hm' := loadStream_err.1 hm
      rcases Loader.readDict_err hm' with rfl | rfl
      · exact Or.inr (Or.inl rfl)
      · exact Or.inr (Or.inr ⟨rfl, Loader.readDict_key.1 hm'⟩)
  · exact Or.inl h
  · exact Or.inr (Or.inl h)

/-- **C81**: the undefined case, for every tree. -/
theorem C81_missing_key (O : FloatOps F) (j : Json F) : Loader.loadStream O j = .error .jsonKey ↔
    ∃ size prob symbols a entries bad b, Heads O j size prob symbols ∧ ItemsOf j "alphabet" (a ++ bad :: b) ∧ List.Forall₂ (Entry O) a entries ∧ Broken O bad :=
  loadStream_err.trans Loader.readDict_key

theorem tokenizerLoop_err {O : FloatOps F} {c : SeqCoder} : ∀ {l : List (Json F)} {m : AMap Str Int} {e : Fault},
    (∀ k e, c.decode k = .error e → e = .outOfRange) → Loader.tokenizerLoop O c l m = .error e → e = .jsonType ∨ e = .jsonKey ∨ e = .outOfRange
  | [], _, _, _, h => by cases h
  | j :: l, m, e, hc, h => by
    simp only [Loader.tokenizerLoop] at h
    rcases bind_err.1 h with h | ⟨jv, _, h⟩
    · exact (Json.fieldConst_err h).imp_right Or.inl
    rcases bind_err.1 h with h | ⟨codes, _, h⟩
    · exact Or.inl (Json.getIntSeq_err h)
    rcases bind_err.1 h with h | ⟨vec, _, h⟩
    · exact Or.inr (Or.inr (hc _ _ h))
    split at h
    · rcases bind_err.1 h with h | ⟨jt, _, h⟩
      · exact (Json.fieldConst_err h).imp_right Or.inl
      rcases bind_err.1 h with h | ⟨key, _, h⟩
      · cases jt <;> cases h <;> exact Or.inl rfl
      · exact tokenizerLoop_err hc h
    · exact tokenizerLoop_err hc h

theorem decode_err (c : SeqCoder) : ∀ (k : List Int) (e : Fault), c.decode k = .error e → e = .outOfRange
  | [], _, h => by cases h
  | x :: k, e, h => by
    simp only [SeqCoder.decode] at h
    split at h
    · cases h; rfl
    · rcases bind_err.1 h with h | ⟨_, _, h⟩
      · exact decode_err c k e h
      · cases h

theorem loadIntVGram_err {O : FloatOps F} {j : Json F} {e : Fault} (h : Loader.loadIntVGram O j = .error e) : e = .jsonType ∨ e = .jsonKey := by
  have bool : ∀ {j : Json F} {e : Fault}, j.getBool = .error e → e = .jsonType := by
    intro j e h
    cases j <;> cases h <;> rfl
  simp only [Loader.loadIntVGram] at h
  rcases bind_err.1 h with h | ⟨i, _, h⟩
  · exact Loader.readDict_err h
  rcases bind_err.1 h with h | ⟨_, _, h⟩
  · exact Or.inl (Json.field_err h)
  rcases bind_err.1 h with h | ⟨_, _, h⟩
  · exact Or.inl (bool h)
  rcases bind_err.1 h with h | ⟨_, _, h⟩
  · exact Or.inl (Json.field_err h)
  rcases bind_err.1 h with h | ⟨_, _, h⟩
  · exact Or.inl (bool h)
  simp only [IntVGram.ofSaved] at h
  rcases bind_err.1 h with h | ⟨_, _, h⟩
  · obtain ⟨m, _, h1, _⟩ := ofSaved_any O i.coder i.freqs i.alphabet i.size i.minProb
    rw [h1] at h
    cases h
  · cases h

theorem loadTokenizer_err {O : FloatOps F} {c : SeqCoder} {j : Json F} {e : Fault} (h : Loader.loadTokenizer O c j = .error e) :
    e = .jsonType ∨ e = .jsonKey ∨ e = .outOfRange := by
  simp only [Loader.loadTokenizer] at h
  rcases bind_err.1 h with h | ⟨_, _, h⟩
  · exact Or.inl (Json.field_err h)
  rcases bind_err.1 h with h | ⟨_, _, h⟩
  · exact tokenizerLoop_err (decode_err c) h
  · cases h

/-- **C81**: all four loaders, on every tree: a model, an exception (`type_error`, for text models also `out_of_range`) or a missing key; never a read out of
bounds, a null pointer, an uninitialised value or an endless loop.
Missing: missing keys, which are undefined behaviour. -/
theorem C81_all_loaders_partial (O : FloatOps F) (j : Json F) :
    (∀ e, Loader.loadStream O j = .error e → e = .jsonType ∨ e = .jsonKey) ∧ (∀ e, Loader.loadIntVGram O j = .error e → e = .jsonType ∨ e = .jsonKey) ∧
    (∀ e, Loader.loadStringStream O j = .error e → e = .jsonType ∨ e = .jsonKey ∨ e = .outOfRange) ∧
    (∀ e, Loader.loadStringVGram O j = .error e → e = .jsonType ∨ e = .jsonKey ∨ e = .outOfRange) := by
  refine ⟨fun e h => Loader.readDict_err (loadStream_err.1 h), fun e h => loadIntVGram_err h, fun e h => ?_, fun e h => ?_⟩
  · simp only [Loader.loadStringStream] at h
    rcases bind_err.1 h with h | ⟨_, _, h⟩
    · exact (Loader.readDict_err (loadStream_err.1 h)).imp_right Or.inl
    rcases bind_err.1 h with h | ⟨_, _, h⟩
    · exact loadTokenizer_err h
    · cases h
  · simp only [Loader.loadStringVGram] at h
    rcases bind_err.1 h with h | ⟨_, _, h⟩
    · exact (loadIntVGram_err h).imp_right Or.inl
    rcases bind_err.1 h with h | ⟨_, _, h⟩
    · exact loadTokenizer_err h
    · cases h

/-- Reads a file and loads it as a stream model: size, words, frequencies and the codes of 7 and 8. -/
def peek (s : String) : M (Int × List IntSeq × List Int × List Int) := do
  let j ← readFile (F := Ext Rat) ratEnv.ops ratText s.toList
  let m ← Loader.loadStream ratEnv.ops j
  let d ← m.getDict
  pure (m.size, d.seqs, m.freqs, m.coder.encodeImm [7, 8])

set_option synthInstance.maxSize 2000 in
/-- A file with truth values for numbers, an object for the list of symbols, no order and repeated words is loaded; files with a text for a number, without a
probability, or with a number for a word are rejected. -/
example : peek "{\"size\":true, \"min_prob\":0, \"coder\":{\"a\":8,\"b\":7}, \"alphabet\":[{\"vec\":[true],\"freq\":false},{\"freq\":4,\"vec\":[0]},{\"freq\":5,\"vec\":[0]}]}" =
      .ok (1, [[0], [0], [1]], [0, 4, 5], [1, 0]) ∧
    peek "{\"size\":\"1\", \"min_prob\":0}" = .error .jsonType ∧ peek "{\"size\":1}" = .error .jsonType ∧
    peek "{\"size\":1, \"min_prob\":0, \"alphabet\":[{\"freq\":1,\"vec\":3}]}" = .error .jsonType ∧
    peek "{\"size\":3, \"min_prob\":0}" = .ok (3, [], [], []) ∧ peek "{\"size\":3" = .error .jsonParse := by decide +kernel

/-- **C81** is false: a file with an entry without frequency, or without word, is undefined behaviour. -/
theorem C81_missing_key_false : peek "{\"size\":1, \"min_prob\":0, \"alphabet\":[{\"vec\":[0]}]}" = .error .jsonKey ∧
    peek "{\"size\":1, \"min_prob\":0, \"alphabet\":[{\"freq\":1}]}" = .error .jsonKey := by decide +kernel

/-! ## C82 using what was loaded -/

/-- The models reached from `m` by calls of `parse`. -/
inductive ParsedFrom (O : FloatOps F) (m : Stream F) : Stream F → Prop
  | refl : ParsedFrom O m m
  | step {m1 m2 : Stream F} {seq : IntSeq} {ids : List Int} : ParsedFrom O m m1 → m1.parse O seq = .ok (m2, ids) → ParsedFrom O m m2

/-- What a loaded model keeps while it is used for parsing. -/
structure Fit (m : Stream F) (vals : List Int) : Prop where
  dict : m.dict = .own
  wf : WF m.own
  alpha : ∃ a, m.builder.alpha = .ok a
  coder : CInv m.coder (seen vals)
  freqs : ∀ f ∈ m.freqs, 0 ≤ f
  total : 0 ≤ m.totalFreqs

theorem Fit.parse {O : FloatOps F} (SL : ScoreLaws O) {m : Stream F} {vals : List Int} (h : Fit m vals) (seq : IntSeq) :
    ∃ m' ids, m.parse O seq = .ok (m', ids) ∧ Fit m' vals ∧
      Spells m'.own.seqs ids ((seq.filter fun x => decide (x ∈ vals)).map fun x => ((seen vals).idxOf x : Int)) := by
  obtain ⟨a, ha⟩ := h.alpha
  obtain ⟨d', ids, h1, h2, _, h4⟩ := parse_spec SL h.wf (m.coder.encodeImm seq) [] h.freqs h.total
  have hg : m.getDict = .ok m.own := by simp only [Stream.getDict, h.dict]
  refine ⟨{ m with own := d' }, ids, ?_, ⟨h.dict, h2, h.alpha, h.coder, h.freqs, h.total⟩, ?_⟩
  · simp only [Stream.parse, ha, hg, ok_bind, h1, pure_M, Stream.setDict, h.dict, List.nil_append]
  · rw [h.coder.imm] at h4
    simpa only [seen_mem] using h4

theorem sumI_nonneg_of {l : List Int} (h : ∀ x ∈ l, 0 ≤ x) : 0 ≤ sumI l := by
  have : ∀ (l : List Int) (a : Int), 0 ≤ a → (∀ x ∈ l, 0 ≤ x) → 0 ≤ l.foldl (· + ·) a := by
    intro l
    induction l with
    | nil => intro a ha _; exact ha
    | cons x l ih => intro a ha hl; exact ih _ (Int.add_nonneg ha (hl x (by simp))) fun y hy => hl y (by simp [hy])
  exact this l 0 (by omega) h

/-- **C82**: a model loaded from any file without empty words and without negative frequencies can parse: no call ever fails, and the ids spell the codes of
the known symbols of the input.  Nothing else is needed, the words may be unsorted, repeated or contain codes of no symbol.
Missing: files with empty words or negative frequencies, see `C82_empty_word_false`, `C82_negative_false`. -/
theorem C82_parse_safe_partial (O : FloatOps F) (SL : ScoreLaws O) {j : Json F} {size : Int} {prob : F} {symbols : List Int} {entries : List (Int × IntSeq)}
    (h : Describes O j size prob symbols entries) (hw : ∀ e ∈ entries, e.2 ≠ []) (hf : ∀ e ∈ entries, 0 ≤ e.1) :
    ∃ m, Loader.loadStream O j = .ok m ∧ ∀ m1, ParsedFrom O m m1 → ∀ seq, ∃ m2 ids d, m1.parse O seq = .ok (m2, ids) ∧ m2.getDict = .ok d ∧
      Spells d.seqs ids ((seq.filter fun x => decide (x ∈ symbols)).map fun x => ((seen symbols).idxOf x : Int)) := by
  have hr := (Loader.readDict_ok (i := ⟨size, prob, _, _, _⟩)).2 ⟨symbols, entries, h, rfl, rfl, rfl⟩
  obtain ⟨m, d, h1, h2, h3, h4, h5, h6, h7, _, _, h10⟩ := ofSaved_any O (SeqCoder.new.encode symbols).1 (entries.map Prod.fst) (entries.map Prod.snd) size prob
  refine ⟨m, by simp only [Loader.loadStream, hr, ok_bind, h1], ?_⟩
  have hwf : WF m.own := by
    rw [h4]
    exact (History.init (O := O) _ (by
      intro hm
      obtain ⟨e, he, h⟩ := List.mem_map.1 hm
      exact hw e he h) d h2).wf
  have hn : ∀ f ∈ m.freqs, 0 ≤ f := by
    rw [h6]
    intro f hm
    obtain ⟨e, he, rfl⟩ := List.mem_map.1 hm
    exact hf e he
  have hfit : Fit m symbols := ⟨h3, hwf, h10, by rw [h5]; simpa using (CInv.new.encode (hist := []) symbols).1, hn, by rw [h7, ← h6]; exact sumI_nonneg_of hn⟩
  have all : ∀ m1, ParsedFrom O m m1 → Fit m1 symbols := by
    intro m1 hp
    induction hp with
    | refl => exact hfit
    | step _ hs ih =>
      obtain ⟨m', ids', p1, p2, _⟩ := ih.parse SL _
      rw [hs] at p1
      cases p1
      exact p2
  intro m1 hp seq
  obtain ⟨m', ids, p1, p2, p3⟩ := (all m1 hp).parse SL seq
  exact ⟨m', ids, m'.own, p1, by simp only [Stream.getDict, p2.dict], p3⟩

/-- **C82**: the alphabet of a loaded model can be read exactly when every code in the words is the code of a symbol; otherwise `out_of_range` is thrown. -/
theorem C82_alphabet (O : FloatOps F) {j : Json F} {size : Int} {prob : F} {symbols : List Int} {entries : List (Int × IntSeq)}
    (h : Describes O j size prob symbols entries) : ∃ m, Loader.loadStream O j = .ok m ∧
      ((∀ e ∈ entries, ∀ x ∈ e.2, 0 ≤ x ∧ x < ((seen symbols).length : Int)) → ∃ ws, m.alphabet = .ok ws) ∧
      (¬ (∀ e ∈ entries, ∀ x ∈ e.2, 0 ≤ x ∧ x < ((seen symbols).length : Int)) → m.alphabet = .error .outOfRange) := by
  obtain ⟨m, d, h1, h2, h3, _, _, _, _, h8⟩ := C81_load_described O h
  have hc : CInv m.coder (seen symbols) := by
    have := (CInv.new.encode (hist := []) symbols).1
    rw [h8]
    exact this
  have key : ∀ l : List IntSeq, ((∀ w ∈ l, ∀ x ∈ w, 0 ≤ x ∧ x < ((seen symbols).length : Int)) → ∃ ws, Stream.decodeAll m.coder l = .ok ws) ∧
      (¬ (∀ w ∈ l, ∀ x ∈ w, 0 ≤ x ∧ x < ((seen symbols).length : Int)) → Stream.decodeAll m.coder l = .error .outOfRange) := by
    intro l
    induction l with
    | nil => exact ⟨fun _ => ⟨[], rfl⟩, fun h => absurd (by simp) h⟩
    | cons w l ih =>
      simp only [Stream.decodeAll, hc.decode]
      by_cases hw : ∀ x ∈ w, 0 ≤ x ∧ x < ((seen symbols).length : Int)
      · rw [if_pos hw]
        refine ⟨fun h => ?_, fun h => ?_⟩
        · obtain ⟨ws, hws⟩ := ih.1 fun w hw => h w (by simp [hw])
          exact ⟨_, by rw [ok_bind, hws]; rfl⟩
        · rw [ok_bind, ih.2 fun h' => h (by simpa using ⟨hw, h'⟩)]
          rfl
      · rw [if_neg hw]
        exact ⟨fun h => absurd (h w (by simp)) hw, fun _ => rfl⟩
  have perm : (∀ e ∈ entries, ∀ x ∈ e.2, 0 ≤ x ∧ x < ((seen symbols).length : Int)) ↔ ∀ w ∈ d.seqs, ∀ x ∈ w, 0 ≤ x ∧ x < ((seen symbols).length : Int) := by
    simp only [h3.mem_iff, List.mem_map, forall_exists_index, and_imp, forall_apply_eq_imp_iff₂]
  rw [perm]
  refine ⟨m, h1, ?_⟩
  simp only [Stream.alphabet, h2, ok_bind]
  exact key d.seqs

/-- Reads a file, loads it as a stream model and parses: the ids and the words afterwards. -/
def useFile (s : String) (seq : IntSeq) : M (List Int × List IntSeq) := do
  let j ← readFile (F := Ext Rat) ratEnv.ops ratText s.toList
  let m ← Loader.loadStream ratEnv.ops j
  let (m', ids) ← m.parse ratEnv.ops seq
  let d ← m'.getDict
  pure (ids, d.seqs)

/-- A file with unsorted, repeated and meaningless words. -/
example : useFile "{\"size\":1, \"min_prob\":0, \"coder\":[7,8], \"alphabet\":[{\"freq\":1,\"vec\":[1]},{\"freq\":2,\"vec\":[9,-4]},{\"freq\":5,\"vec\":[0]},{\"freq\":0,\"vec\":[0]}]}"
    [7, 6, 8, 7] = .ok ([1, 2, 0], [[0], [0], [1], [9, -4]]) := by decide +kernel

/-- **C82** is false for files with an empty word: parsing reads out of bounds. -/
theorem C82_empty_word_false :
    useFile "{\"size\":1, \"min_prob\":0, \"coder\":[7], \"alphabet\":[{\"freq\":1,\"vec\":[]}]}" [7] = .error .oob := by decide +kernel

/-- **C82** is false for files with negative frequencies: the ids returned for the symbols 7 8 7 are three times the word of 7. -/
theorem C82_negative_false :
    useFile "{\"size\":1, \"min_prob\":0, \"coder\":[7,8], \"alphabet\":[{\"freq\":-5,\"vec\":[0]},{\"freq\":1,\"vec\":[1]}]}" [7, 8, 7] = .ok ([0, 0, 0], [[0], [1]]) := by
  decide +kernel

/-- Frequencies are not moved when the words of a file are sorted: the file says that the word of 8 occurs 5 times, the model that the word of 7 does. -/
theorem C82_unsorted_false : peek "{\"size\":1, \"min_prob\":0, \"coder\":[7,8], \"alphabet\":[{\"freq\":5,\"vec\":[1]},{\"freq\":2,\"vec\":[0]}]}" =
    .ok (1, [[0], [1]], [5, 2], [0, 1]) := by decide +kernel

end VGram.Props
