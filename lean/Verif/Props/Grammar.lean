import Verif.Proofs.GrammarSound
import Verif.Props.Double

/-!
# Properties of model files as JSON texts

C92 and C93: what the reader accepts and what the writer produces, compared with the grammar of RFC 8259.
-/

namespace VGram.Props

variable {F : Type}

open Dump Spec Parse

/-! ## Reading -/

/-- C92: an array or object is read from a file exactly if the file consists of a byte order mark or none, white space, a JSON value that denotes it, and
anything after that. -/
theorem C92_reader (O : FloatOps F) (T : TextOps F) (s r : Str) (j : Json F) (hj : IsContainer j) :
    parse O T s = .ok (j, r) ↔ ∃ b w t, s = b ++ (w ++ (t ++ r)) ∧ (b = [] ∨ b = byteOrderMark) ∧ IsSpace w ∧ Value O T t j := by
  constructor
  · exact parse_sound
  · rintro ⟨b, w, t, rfl, hb, hw, hv⟩
    exact parse_complete hb hw hv (Or.inl hj)

/-- C92: whatever value is read, it is denoted by the beginning of the file; every other file is an exception. -/
theorem C92_read_file (O : FloatOps F) (T : TextOps F) (s : Str) :
    (∃ j, readFile O T s = .ok j ∧ ∃ b w t r, s = b ++ (w ++ (t ++ r)) ∧ (b = [] ∨ b = byteOrderMark) ∧ IsSpace w ∧ Value O T t j) ∨
    readFile O T s = .error .jsonParse ∨ readFile O T s = .error .outOfRange := by
  have h0 := parse_terminates O T s
  have h := run_outcome O T (2 * s.length + 4) (.value (Lex.scanFirst T s).1) [] (Lex.scanFirst T s).2
  change (∃ x, parse O T s = .ok x) ∨ parse O T s = .error .jsonParse ∨ parse O T s = .error .outOfRange ∨ parse O T s = .error .diverge at h
  rcases h with ⟨⟨j, r⟩, h⟩ | h | h | h
  · obtain ⟨b, w, t, h1, h2⟩ := parse_sound h
    exact Or.inl ⟨j, by simp [readFile, h], b, w, t, r, h1, h2⟩
  · exact Or.inr (Or.inl (by simp [readFile, h]))
  · exact Or.inr (Or.inr (by simp [readFile, h]))
  · exact absurd h h0

/-- C92: a file whose beginning is not JSON is rejected. -/
theorem C92_rejects (O : FloatOps F) (T : TextOps F) (s : Str)
    (h : ¬ ∃ b w t r j, s = b ++ (w ++ (t ++ r)) ∧ (b = [] ∨ b = byteOrderMark) ∧ IsSpace w ∧ Value O T t j) :
    readFile O T s = .error .jsonParse ∨ readFile O T s = .error .outOfRange := by
  rcases C92_read_file O T s with ⟨j, -, b, w, t, r, h'⟩ | h'
  · exact absurd ⟨b, w, t, r, j, h'⟩ h
  · exact h'

/-- C92: a whole JSON text is read. -/
theorem C92_accepts (O : FloatOps F) (T : TextOps F) (s : Str) (j : Json F) (h : JsonDoc O T s j) : readFile O T s = .ok j := by
  obtain ⟨w, t, w', rfl, hw, hv, hw'⟩ := h
  have hf : Follow w' := by
    intro c hc
    cases w' with
    | nil => cases hc
    | cons d w' =>
      simp only [List.head?_cons, Option.some.injEq] at hc
      subst hc
      rcases hw' d (by simp) with h | h | h | h <;> simp [h]
  have := parse_complete (Or.inl rfl) hw hv (Or.inr hf) (r := w') (b := [])
  rw [List.nil_append] at this
  simp [readFile, this]

/-- C92: a JSON text denotes one value only. -/
theorem C92_one_value (O : FloatOps F) (T : TextOps F) (s : Str) (j j' : Json F) (h : JsonDoc O T s j) (h' : JsonDoc O T s j') : j = j' := by
  have h1 := C92_accepts O T s j h
  rw [C92_accepts O T s j' h'] at h1
  cases h1
  rfl

/-- "Only JSON texts are read" is false: what follows the closing brace is not looked at. -/
theorem C92_only_json_false (O : FloatOps F) (T : TextOps F) :
    ¬ ∀ (s : Str) (j : Json F), readFile O T s = .ok j → JsonDoc O T s j := by
  intro h
  have e : parse O T "{}x".toList = .ok (.obj [], ['x']) :=
    (C92_reader O T _ _ (.obj []) trivial).2 ⟨[], [], ['{', '}'], rfl, Or.inl rfl, nofun, .emptyObject [] nofun⟩
  obtain ⟨w, t, w', h1, h2, h3, h4⟩ := h "{}x".toList (.obj []) (by rw [readFile, e]; rfl)
  have := parse_complete (b := []) (r := w') (Or.inl rfl) h2 h3 (Or.inl trivial)
  rw [List.nil_append, ← h1, e] at this
  cases this
  exact absurd (h4 'x' (by simp)) (by decide)

/-! ## Writing -/

/-- C93: a model file that was written completely is a JSON text that denotes the saved tree. -/
theorem C93_writer {O : FloatOps F} {T : TextOps F} (L : TextLaws O T) {j : Json F} (h : Saved O j) (hi : Ints64 j) (hd : (writeFile O T j).done = true) :
    JsonDoc O T (writeFile O T j).text j := by
  obtain ⟨ht, hc⟩ := h.tidy hi
  unfold writeFile at hd ⊢
  have h1 := (Out.seq_done.1 hd).1
  rw [Out.seq_text h1]
  have h2 : parse O T ((dump O T 0 j).text ++ ['\n']) = .ok (j, ['\n']) :=
    parse_whole L ht hc h1 (by intro c hc; simp only [List.head?_cons, Option.some.injEq] at hc; exact Or.inr hc.symm)
  obtain ⟨b, w, t, h3, h4, h5, h6⟩ := (C92_reader O T _ _ _ hc).1 h2
  have h7 : (dump O T 0 j).text = b ++ (w ++ t) := by
    have : (dump O T 0 j).text ++ ['\n'] = (b ++ (w ++ t)) ++ ['\n'] := by rw [h3]; simp
    exact List.append_cancel_right this
  have h8 : b = [] := by
    rcases h4 with h4 | h4
    · exact h4
    · obtain ⟨c, cs, h9, h10⟩ := container_head O T hc 0
      rw [h9, h4] at h7
      simp only [byteOrderMark, List.cons_append, List.cons.injEq] at h7
      rw [h7.1] at h10
      exact absurd h10 (by decide)
  subst h8
  refine ⟨w, t, ['\n'], by rw [h7]; simp [Out.put], h5, h6, ?_⟩
  intro c hc
  rw [List.mem_singleton] at hc
  simp [hc]

/-- C93 for doubles. -/
theorem C93_writer_doubles {O : FloatOps Double} (hf : ∀ x, O.isFinite x = x.isFinite) {strtod : Str → Double} (hs : CorrectlyRounded strtod) {j : Json Double} (h : Saved O j)
    (hi : Ints64 j) (hd : (writeFile O (Double.text strtod) j).done = true) : JsonDoc O (Double.text strtod) (writeFile O (Double.text strtod) j).text j :=
  C93_writer (C86_text_laws hf hs) h hi hd

/-- C93: the text determines the tree, so two models with different trees have different files. -/
theorem C93_files_differ {O : FloatOps F} {T : TextOps F} (L : TextLaws O T) {j j' : Json F} (h : Saved O j) (h' : Saved O j') (hi : Ints64 j) (hi' : Ints64 j')
    (hd : (writeFile O T j).done = true) (hd' : (writeFile O T j').done = true) (e : (writeFile O T j).text = (writeFile O T j').text) : j = j' :=
  C92_one_value O T _ j j' (C93_writer L h hi hd) (by rw [e]; exact C93_writer L h' hi' hd')

/-! ## Examples -/

/-- White space, duplicate names, escapes, a surrogate pair, integers beyond 64 bits, and text after the end. -/
example : (readFile quickEnv.ops ratText "\t{ \"b\" : [ ] , \"a\":1,\"b\":[18446744073709551615 , -9223372036854775808],\"a\":\"\\u00e9\\n\\ud83d\\ude00\" } trailing".toList).toOption.map
      (fun j => match j with | .obj [(k, .str s), (k', .arr [.int x, .int y])] => decide (k = ['a'] ∧ k' = ['b'] ∧ s.map Char.toNat = [0xC3, 0xA9, 10, 0xF0, 0x9F, 0x98, 0x80] ∧
        x = 2 ^ 64 - 1 ∧ y = -(2 ^ 63)) | _ => false) = some true := by decide +kernel

/-- Rejected: a leading zero, a lone surrogate, an overlong encoding, a trailing comma, an unfinished byte order mark. -/
example : ∀ s ∈ ["[01]".toList, "[\"\\ud83d\"]".toList, ['[', '"', Char.ofNat 0xC0, Char.ofNat 0x80, '"', ']'], "[1,]".toList, [Char.ofNat 0xEF, Char.ofNat 0xBB, '[', ']']],
    (match readFile quickEnv.ops ratText s with | .error .jsonParse => true | _ => false) = true := by decide +kernel

/-- The last of two members with the same name counts, by the grammar. -/
example : ∃ t, t = "{\"a\":1,\"a\":2}".toList ∧ Value quickEnv.ops ratText t (.obj [(['a'], .int 2)]) := by
  have e : parse quickEnv.ops ratText "{\"a\":1,\"a\":2}".toList = .ok (.obj [(['a'], .int 2)], []) := by rfl
  obtain ⟨b, w, t, h1, h2, h3, h4⟩ := (C92_reader _ _ _ _ (.obj _) trivial).1 e
  rcases h2 with rfl | rfl
  · rw [List.nil_append, List.append_nil] at h1
    cases w with
    | nil => exact ⟨t, h1.symm, h4⟩
    | cons c w =>
      have := congrArg List.head? h1
      simp only [List.cons_append, List.head?_cons] at this
      have hc := h3 c (by simp)
      rw [← Option.some.inj (show some '{' = some c from this)] at hc
      exact absurd hc (by decide)
  · cases h1

/-- Non-vacuity of C93: a model with words in UTF-8. -/
example : ∃ j, smallModel true [.accept utf8Text, .update] = .ok j ∧ JsonDoc quickEnv.ops ratText (writeFile quickEnv.ops ratText j).text j := by
  obtain ⟨j, h1, h2, h3, h4⟩ := smallModel_saved (words := true) (calls := [.accept utf8Text, .update]) (d := true) (by decide +kernel)
  exact ⟨j, h1, C93_writer quickText_laws h2 h3 h4⟩

end VGram.Props
