import Verif.Proofs.Saved
import Verif.Props.PersistText

/-!
# Properties of the files written by `save`

C56 and C60–C64: writing and reading the text of a model.
-/

namespace VGram.Props

variable {F : Type}

open Dump Spec Parse

/-- The trees written by one of the four `save` functions. -/
inductive Saved (O : FloatOps F) (j : Json F) : Prop
  | stream (m : Stream F) : Saver.saveStream O m = .ok j → Saved O j
  | int (m : IntVGram F) : Saver.saveIntVGram O m = .ok j → Saved O j
  | textStream (m : StringStream F) : Saver.saveStringStream O m = .ok j → Saved O j
  | text (m : StringVGram F) : Saver.saveStringVGram O m = .ok j → Saved O j

/-- What the four functions have in common. -/
theorem Saved.base {O : FloatOps F} {j : Json F} (h : Saved O j) : ∃ m tok more b, Saver.baseInfo O m tok more = .ok b ∧ j = .obj b ∧
    (more = [] ∨ ∃ x y, more = [(Json.kFitted, .bool x), (Json.kFreqsComputed, .bool y)]) := by
  cases h with
  | stream m h =>
    obtain ⟨b, h1, h2⟩ := bind_ok.1 h
    cases h2
    exact ⟨_, _, _, b, h1, rfl, Or.inl rfl⟩
  | int m h =>
    obtain ⟨b, h1, h2⟩ := bind_ok.1 h
    cases h2
    exact ⟨_, _, _, b, h1, rfl, Or.inl rfl⟩
  | textStream m h =>
    obtain ⟨b, h1, h2⟩ := bind_ok.1 h
    cases h2
    exact ⟨_, _, _, b, h1, rfl, Or.inl rfl⟩
  | text m h =>
    obtain ⟨b, h1, h2⟩ := bind_ok.1 h
    cases h2
    exact ⟨_, _, _, b, h1, rfl, Or.inr ⟨_, _, rfl⟩⟩

theorem Saved.tidy {O : FloatOps F} {j : Json F} (h : Saved O j) (hi : Ints64 j) : Tidy O j ∧ IsContainer j := by
  obtain ⟨m, tok, more, b, h1, rfl, h2⟩ := h.base
  exact ⟨tidy_base h1 h2 hi, trivial⟩

theorem Saved.done {O : FloatOps F} {j : Json F} (T : TextOps F) (h : Saved O j) (hi : Ints64 j) :
    (writeFile O T j).done = true ↔ ∀ s, Sub (.str s) j → Utf8 s := by
  unfold writeFile
  rw [Out.seq_done, dump_done T (h.tidy hi).1]
  obtain ⟨m, tok, more, b, h1, rfl, h2⟩ := h.base
  obtain ⟨d, _, hk, _⟩ := base_sub h1 h2
  exact ⟨fun h => h.1.1, fun h => ⟨⟨h, fun l hl e he => (hk l hl e he).utf8⟩, rfl⟩⟩

/-! ## An instance of the text conversions -/

/-- Conversions for `Ext Rat`: the fraction `p/q` has the digits `1`, `p` times `1`, `0`, `q` times `1`;
the largest and smallest number have the digit `9`. -/
def ratText : TextOps (Ext Rat) where
  signbit x := match x with
    | .fin q => decide (q < 0)
    | .bot => true
    | _ => false
  isZero x := decide (x = .fin 0)
  grisu x := match x with
    | .fin q => ('1' :: (List.replicate q.num.natAbs '1' ++ '0' :: List.replicate q.den '1'), -((q.num.natAbs + q.den + 1 : Nat) : Int))
    | _ => (['9'], 0)
  strtod s :=
    let l := significant s
    let p := (l.takeWhile (· = '1')).length - 1
    let q := ((l.dropWhile (· = '1')).filter (· = '1')).length
    if l = ['9'] then (if s.head? = some '-' then .bot else .top)
    else .fin (if s.head? = some '-' then -((p : Rat) / q) else (p : Rat) / q)

/-- The digits of `ratText` are strict. -/
theorem ratText_strict (x : Ext Rat) : Strict (ratText.grisu x).1 := by
  have one : Spec.IsDigit '1' := by unfold Spec.IsDigit; decide
  have nine : Strict ['9'] := ⟨by simp, by intro c hc; rw [List.mem_singleton.1 hc]; unfold Spec.IsDigit; decide, by simp, by simp⟩
  cases x with
  | fin q =>
    refine ⟨by simp [ratText], ?_, by simp [ratText], ?_⟩
    · intro c hc
      simp only [ratText, List.mem_cons, List.mem_append, List.mem_replicate] at hc
      rcases hc with rfl | ⟨_, rfl⟩ | rfl | ⟨_, rfl⟩
      · exact one
      · exact one
      · exact isDigit_zero
      · exact one
    · obtain ⟨k, hk⟩ : ∃ k, q.den = k + 1 := ⟨q.den - 1, by have := q.den_pos; omega⟩
      simp only [ratText, hk, List.replicate_succ']
      rw [← List.cons_append, ← List.cons_append, ← List.append_assoc, List.getLast?_append]
      simp
  | bot => exact nine
  | top => exact nine
  | nan => exact nine

theorem ratText_laws : TextLaws ratEnv.ops ratText where
  digits := fun x _ _ => ⟨(ratText_strict x).nonempty, (ratText_strict x).head, (ratText_strict x).digits⟩
  exponent := by
    intro x hx hz
    cases x with
    | fin q =>
      simp only [ratText, List.length_cons, List.length_append, List.length_replicate]
      omega
    | bot => decide +kernel
    | top => decide +kernel
    | nan => cases hx
  read := by
    intro x hx hz s hs
    have hsig := significant_of hs (ratText_strict x)
    have hneg := (significant_eq hs).1
    cases x with
    | fin q =>
      have key : ∀ a b : Nat, (('1' :: (List.replicate a '1' ++ '0' :: List.replicate b '1')).takeWhile (· = '1')).length = a + 1 ∧
          ((('1' :: (List.replicate a '1' ++ '0' :: List.replicate b '1')).dropWhile (· = '1')).filter (· = '1')).length = b := by
        intro a b
        rw [← List.cons_append, ← List.replicate_succ]
        constructor
        · rw [List.takeWhile_append_of_pos (by intro c hc; simp [List.eq_of_mem_replicate hc])]
          simp
        · rw [List.dropWhile_append_of_pos (by intro c hc; simp [List.eq_of_mem_replicate hc])]
          simp
      obtain ⟨k1, k2⟩ := key q.num.natAbs q.den
      have hq : q = (q.num : Rat) / q.den := (Rat.num_div_den q).symm
      have hsig' : significant s = '1' :: (List.replicate q.num.natAbs '1' ++ '0' :: List.replicate q.den '1') := hsig
      have h9 : '1' :: (List.replicate q.num.natAbs '1' ++ '0' :: List.replicate q.den '1') ≠ ['9'] := by simp
      have hs' : ratText.signbit (.fin q) = decide (q < 0) := rfl
      rw [hs', decide_eq_true_eq] at hneg
      show (if significant s = ['9'] then _ else _) = _
      rw [hsig', if_neg h9, k1, k2, Nat.add_sub_cancel]
      by_cases hn : q < 0
      · have hnum : (q.num.natAbs : Rat) = -(q.num : Rat) := by
          have : q.num < 0 := Rat.num_neg.2 hn
          have h2 : (q.num.natAbs : Int) = -q.num := by omega
          rw [← Int.cast_natCast, h2, Int.cast_neg]
        rw [if_pos (hneg.2 hn), hnum, neg_div, neg_neg, ← hq]
      · have hnum : (q.num.natAbs : Rat) = (q.num : Rat) := by
          have : 0 ≤ q.num := Rat.num_nonneg.2 (not_lt.1 hn)
          have h2 : (q.num.natAbs : Int) = q.num := by omega
          rw [← Int.cast_natCast, h2]
        rw [if_neg fun h => hn (hneg.1 h), hnum, ← hq]
    | bot =>
      have hsig' : significant s = ['9'] := hsig
      have : s.head? = some '-' := hneg.2 rfl
      show (if significant s = ['9'] then _ else _) = _
      rw [if_pos hsig', if_pos this]
    | top =>
      have hsig' : significant s = ['9'] := hsig
      have : ¬ s.head? = some '-' := fun h => absurd (hneg.1 h) (by decide)
      show (if significant s = ['9'] then _ else _) = _
      rw [if_pos hsig', if_neg this]
    | nan => cases hx
  zero := by
    intro x hx hz s hs
    have : x = .fin 0 := of_decide_eq_true hz
    subst this
    have hsig := significant_zero hs
    show (if significant s = ['9'] then _ else _) = _
    rw [hsig, if_neg (by simp)]
    simp
  small := by
    intro s neg v _ _
    simp only [ratText]
    split
    · split <;> rfl
    · rfl

/-! ## C56 -/

/-- **C56**: `save` writes the text of a tree `j`.  If only a part `p` of it reaches the disk, because of a crash or because `save` throws, loading fails with
a parse error, except that the last newline is not needed: then the tree is `j`. -/
theorem C56_crash_while_saving {O : FloatOps F} {T : TextOps F} (L : TextLaws O T) {j : Json F} (h : Saved O j) (hi : Ints64 j) (p : Str)
    (hp : p <+: (writeFile O T j).text) :
    ((writeFile O T j).done = true ∧ (p = (writeFile O T j).text ∨ p ++ ['\n'] = (writeFile O T j).text) ∧ readFile O T p = .ok j) ∨
    (((writeFile O T j).done = true → p ≠ (writeFile O T j).text ∧ p ++ ['\n'] ≠ (writeFile O T j).text) ∧ readFile O T p = .error .jsonParse) := by
  obtain ⟨ht, hc⟩ := h.tidy hi
  unfold writeFile at hp ⊢
  have nl : Sep ['\n'] := by intro c hc; simp only [List.head?_cons, Option.some.injEq] at hc; exact Or.inr hc.symm
  by_cases hd : (dump O T 0 j).done = true
  · have e : (dump O T 0 j ;; Out.put ['\n']).text = (dump O T 0 j).text ++ ['\n'] := Out.seq_text hd
    have hd' : (dump O T 0 j ;; Out.put ['\n']).done = true := Out.seq_done.2 ⟨hd, rfl⟩
    rw [e] at hp ⊢
    by_cases h1 : p = (dump O T 0 j).text ++ ['\n']
    · refine Or.inl ⟨hd', Or.inl h1, ?_⟩
      rw [h1, readFile, parse_whole L ht hc hd nl]
      rfl
    by_cases h2 : p = (dump O T 0 j).text
    · refine Or.inl ⟨hd', Or.inr (by rw [h2]), ?_⟩
      have := parse_whole L ht hc hd Sep.nil
      rw [List.append_nil] at this
      rw [h2, readFile, this]
      rfl
    · refine Or.inr ⟨fun _ => ⟨h1, fun h => h2 (List.append_cancel_right h)⟩, ?_⟩
      have hp' : p <+: (dump O T 0 j).text := by
        rcases List.prefix_concat_iff.1 hp with h | h
        · exact absurd h h1
        · exact h
      rw [readFile, parse_cut L ht hc ⟨hp', fun _ => h2⟩]
      rfl
  · have e : (dump O T 0 j ;; Out.put ['\n']) = dump O T 0 j := by simp [Out.seq, hd]
    rw [e] at hp ⊢
    refine Or.inr ⟨fun h => absurd h hd, ?_⟩
    rw [readFile, parse_cut L ht hc ⟨hp, fun h => absurd h hd⟩]
    rfl

/-! ## C60 -/

theorem run_errors (O : FloatOps F) (T : TextOps F) : ∀ (f : Nat) (m : Mode F) (S : List (Frame F)) (r : Str) (e : Fault),
    Parse.run O T f m S r = .error e → e = .diverge ∨ e = .jsonParse ∨ e = .outOfRange := by
  intro f
  induction f with
  | zero => intro m S r e h; cases h; exact Or.inl rfl
  | succ f ih =>
    have err : ∀ e, (.error .jsonParse : M (Json F × Str)) = .error e → e = .diverge ∨ e = .jsonParse ∨ e = .outOfRange := by
      intro e h; cases h; exact Or.inr (Or.inl rfl)
    intro m S r e
    cases m with
    | value t =>
      cases t with
      | lbrace =>
        simp only [Parse.run]
        generalize Lex.scan T r = x
        obtain ⟨t1, r1⟩ := x
        cases t1 with
        | rbrace => exact ih _ _ _ _
        | str k =>
          simp only []
          generalize Lex.scan T r1 = y
          obtain ⟨t2, r2⟩ := y
          cases t2 with
          | colon => exact ih _ _ _ _
          | _ => exact err e
        | _ => exact err e
      | lbrack =>
        simp only [Parse.run]
        generalize Lex.scan T r = x
        obtain ⟨t1, r1⟩ := x
        cases t1 <;> exact ih _ _ _ _
      | num x =>
        simp only [Parse.run]
        by_cases hx : O.isFinite x = true
        · rw [if_pos hx]; exact ih _ _ _ _
        · rw [if_neg hx]; intro h; cases h; exact Or.inr (Or.inr rfl)
      | tTrue => exact ih _ _ _ _
      | tFalse => exact ih _ _ _ _
      | tNull => exact ih _ _ _ _
      | int i => exact ih _ _ _ _
      | str s => exact ih _ _ _ _
      | _ => exact err e
    | done v =>
      cases S with
      | nil => intro h; cases h
      | cons fr S =>
        cases fr with
        | arr l =>
          simp only [Parse.run]
          generalize Lex.scan T r = x
          obtain ⟨t1, r1⟩ := x
          cases t1 with
          | comma => exact ih _ _ _ _
          | rbrack => exact ih _ _ _ _
          | _ => exact err e
        | obj l k =>
          simp only [Parse.run]
          generalize Lex.scan T r = x
          obtain ⟨t1, r1⟩ := x
          cases t1 with
          | comma =>
            simp only []
            generalize Lex.scan T r1 = y
            obtain ⟨t2, r2⟩ := y
            cases t2 with
            | str k' =>
              simp only []
              generalize Lex.scan T r2 = z
              obtain ⟨t3, r3⟩ := z
              cases t3 with
              | colon => exact ih _ _ _ _
              | _ => exact err e
            | _ => exact err e
          | rbrace => exact ih _ _ _ _
          | _ => exact err e

/-- **C60**: whatever bytes are in the file, the parser stops after at most two steps per byte and four more, with a value, a `parse_error` or an `out_of_range`. -/
theorem C60_parser_terminates (O : FloatOps F) (T : TextOps F) (s : Str) :
    (∃ j, readFile O T s = .ok j) ∨ readFile O T s = .error .jsonParse ∨ readFile O T s = .error .outOfRange := by
  have h := parse_terminates O T s
  cases hp : parse O T s with
  | ok x => exact Or.inl ⟨x.1, by rw [readFile, hp]; rfl⟩
  | error e =>
    have he : readFile O T s = .error e := by rw [readFile, hp]; rfl
    rw [he]
    rcases run_errors O T _ _ _ _ e hp with rfl | rfl | rfl
    · exact absurd hp h
    · exact Or.inr (Or.inl rfl)
    · exact Or.inr (Or.inr rfl)

/-! ## C61 -/

/-- **C61**, integer models: writing the file never throws. -/
theorem C61_int_save {O : FloatOps F} (T : TextOps F) {j : Json F} (h : (∃ m, Saver.saveStream O m = .ok j) ∨ ∃ m, Saver.saveIntVGram O m = .ok j) (hi : Ints64 j) :
    (writeFile O T j).done = true := by
  have key : ∀ m, Saver.saveStream O m = .ok j → (writeFile O T j).done = true := by
    intro m h
    rw [(Saved.stream m h).done T hi]
    obtain ⟨b, h1, h2⟩ := bind_ok.1 h
    cases h2
    obtain ⟨d, _, _, h3, _⟩ := base_sub h1 (Or.inl rfl)
    intro s hs
    obtain ⟨t, e, _⟩ := (h3 s).1 hs
    cases e
  rcases h with ⟨m, h⟩ | ⟨m, h⟩
  · exact key m h
  · exact key m.toStream h

/-- **C61**, text stream models: writing the file throws exactly if some string of the alphabet is not UTF-8. -/
theorem C61_text_stream_save {O : FloatOps F} (T : TextOps F) {m : StringStream F} {j : Json F} (h : Saver.saveStringStream O m = .ok j) (hi : Ints64 j) :
    ∃ ws, m.alphabet = .ok ws ∧ ((writeFile O T j).done = true ↔ ∀ w ∈ ws, Utf8 w) := by
  have hd := (Saved.textStream m h).done T hi
  obtain ⟨b, h1, h2⟩ := bind_ok.1 h
  cases h2
  obtain ⟨ws, h3, h4⟩ := base_text h1 (Or.inl rfl)
  refine ⟨ws.map m.tok.decode, by simp only [StringStream.alphabet, h3, ok_bind, pure_M], ?_⟩
  rw [hd]
  exact forall_congr' fun s => by rw [h4]

/-- **C61**, fitted text models: writing the file throws exactly if some string of the alphabet is not UTF-8. -/
theorem C61_text_save {O : FloatOps F} (T : TextOps F) {m : StringVGram F} {j : Json F} (h : Saver.saveStringVGram O m = .ok j) (hi : Ints64 j) :
    ∃ ws, m.alphabet = .ok ws ∧ ((writeFile O T j).done = true ↔ ∀ w ∈ ws, Utf8 w) := by
  have hd := (Saved.text m h).done T hi
  obtain ⟨b, h1, h2⟩ := bind_ok.1 h
  cases h2
  obtain ⟨ws, h3, h4⟩ := base_text h1 (Or.inr ⟨_, _, rfl⟩)
  refine ⟨ws.map m.tok.decode, by simp only [StringVGram.alphabet, h3, ok_bind, pure_M], ?_⟩
  rw [hd]
  exact forall_congr' fun s => by rw [h4]

/-! ## C62 -/

/-- **C62**: what has been written completely is read back as the same tree. -/
theorem C62_file_round_trip {O : FloatOps F} {T : TextOps F} (L : TextLaws O T) {j : Json F} (h : Saved O j) (hi : Ints64 j)
    (hd : (writeFile O T j).done = true) : readFile O T (writeFile O T j).text = .ok j := by
  rcases C56_crash_while_saving L h hi _ (List.prefix_refl _) with ⟨_, _, h⟩ | ⟨h1, _⟩
  · exact h
  · exact absurd rfl (h1 hd).1

/-- **C62** for a single number: the text of a double is a decimal number whose value is the one computed by `grisu2`, and `0` for a zero. -/
theorem C62_number_text {O : FloatOps F} {T : TextOps F} (L : TextLaws O T) {x : F} (h : O.isFinite x = true) :
    Denotes (toChars T x) (T.signbit x) (if T.isZero x then 0 else (numeral (T.grisu x).1 : ℚ) * 10 ^ (T.grisu x).2) := by
  obtain ⟨t, v, h1, h2, rfl⟩ := toChars_parts L h
  rw [h2]
  exact h1.denotes _

/-- The formats of numbers: without exponent, with exponent. -/
example : formatBuffer "12".toList 3 (-4) 15 = "12000.0".toList ∧ formatBuffer "12".toList (-1) (-4) 15 = "1.2".toList ∧
    formatBuffer "12".toList (-5) (-4) 15 = "0.00012".toList ∧ formatBuffer "12".toList (-24) (-4) 15 = "1.2e-23".toList ∧
    formatBuffer "1".toList 123 (-4) 15 = "1e+123".toList := by decide +kernel

/-! ## C63 -/

/-- **C63 is false**: whenever writing throws, the file that was there before has been replaced by one that cannot be loaded. -/
theorem C63_failed_save_false {O : FloatOps F} {T : TextOps F} (L : TextLaws O T) {j : Json F} (h : Saved O j) (hi : Ints64 j)
    (hd : (writeFile O T j).done = false) : readFile O T (writeFile O T j).text = .error .jsonParse := by
  rcases C56_crash_while_saving L h hi _ (List.prefix_refl _) with ⟨h, _⟩ | ⟨_, h⟩
  · rw [hd] at h; cases h
  · exact h

/-! ## C64 -/

/-- The texts passed to a text stream model. -/
def textsOf : List TextCall → List Str
  | [] => []
  | .accept s :: cs => s :: textsOf cs
  | .parse s :: cs => s :: textsOf cs
  | .update :: cs => textsOf cs

theorem textRun_utf8 {E : Env F} {o : EvalOrder} : ∀ (calls : List TextCall) {m m' : StringStream F}, TokUtf8 m.tok → (m.tok.kind = .char ∨ ∀ s ∈ textsOf calls, Utf8 s) →
    textRun E o m calls = .ok m' → TokUtf8 m'.tok := by
  intro calls
  induction calls with
  | nil => intro m m' h _ e; cases e; exact h
  | cons c cs ih =>
    intro m m' h hs e
    obtain ⟨m1, h1, e⟩ := bind_ok.1 e
    have step : TokUtf8 m1.tok ∧ m1.tok.kind = m.tok.kind := by
      cases c with
      | accept s =>
        obtain ⟨st, h2, h3⟩ := bind_ok.1 h1
        injection h3 with h3
        subst h3
        exact ⟨h.transform (hs.imp id fun h => h s (by simp [textsOf])) o, codeAll_kind o _ _⟩
      | parse s =>
        obtain ⟨⟨m2, ids⟩, h2, h3⟩ := bind_ok.1 h1
        obtain ⟨⟨st, ids'⟩, h4, h5⟩ := bind_ok.1 h2
        obtain ⟨ws, h6, h7⟩ := bind_ok.1 h5
        cases h7
        injection h3 with h3
        subst h3
        exact ⟨h.transform (hs.imp id fun h => h s (by simp [textsOf])) o, codeAll_kind o _ _⟩
      | update =>
        obtain ⟨st, h2, h3⟩ := bind_ok.1 h1
        injection h3 with h3
        subst h3
        exact ⟨h, rfl⟩
    refine ih step.1 ?_ e
    rw [step.2]
    refine hs.imp id fun h s hs1 => h s ?_
    cases c <;> simp [textsOf, hs1]

/-- **C64**, stream models: after any calls on a fresh model, writing the file of a model of characters never throws, and that of a model of words does not
throw if all texts were UTF-8. -/
theorem C64_text_stream_saves (E : Env F) (T : TextOps F) (o : EvalOrder) (size : Int) (split words : Bool) (calls : List TextCall) (m0 m : StringStream F)
    (j : Json F) (h0 : StringStream.new E.ops size split words = .ok m0) (hw : words = false ∨ ∀ s ∈ textsOf calls, Utf8 s) (hr : textRun E o m0 calls = .ok m)
    (hj : Saver.saveStringStream E.ops m = .ok j) (hi : Ints64 j) : (writeFile E.ops T j).done = true := by
  have e0 : m0.tok = Tokenizer.new (if words then .word else .char) := by
    simp only [StringStream.new] at h0
    split at h0
    · cases h0
    · cases h0; rfl
  have ht : TokUtf8 m.tok := textRun_utf8 calls (by rw [e0]; exact TokUtf8.new _) (by
    rcases hw with rfl | h
    · exact Or.inl (by rw [e0]; rfl)
    · exact Or.inr h) hr
  obtain ⟨ws, h1, h2⟩ := C61_text_stream_save T hj hi
  rw [h2]
  intro w hw
  obtain ⟨xs, _, h3⟩ := bind_ok.1 h1
  injection h3 with h3
  subst h3
  obtain ⟨x, _, rfl⟩ := List.mem_map.1 hw
  exact ht.decode x

/-- **C64**, fitted models: the same after `fit` and any `transform` calls. -/
theorem C64_text_saves (E : Env F) (T : TextOps F) (o : EvalOrder) (size iter : Int) (k : TokKind) (σ : IntVGram.Sched) (train : List Str)
    (batches : List (IntVGram.Sched × List Str)) (m m' : StringVGram F) (j : Json F)
    (hw : k = .char ∨ (∀ s ∈ train, Utf8 s) ∧ ∀ b ∈ batches, ∀ s ∈ b.2, Utf8 s) (hf : (StringVGram.new E.ops size iter k).fit E o σ train = .ok m)
    (hr : batches.foldlM (fun m b => do let (m, _) ← m.transform E.ops o b.1 b.2; pure m) m = (.ok m' : M (StringVGram F)))
    (hj : Saver.saveStringVGram E.ops m' = .ok j) (hi : Ints64 j) : (writeFile E.ops T j).done = true := by
  have h1 : TokUtf8 m.tok ∧ m.tok.kind = k := by
    obtain ⟨⟨i, r⟩, _, h2⟩ := bind_ok.1 hf
    injection h2 with h2
    subst h2
    exact TokUtf8.transformAll train (TokUtf8.new k) (hw.imp id fun h => h.1)
  have h2 : TokUtf8 m'.tok := by
    have hb : k = .char ∨ ∀ b ∈ batches, ∀ s ∈ b.2, Utf8 s := hw.imp id fun h => h.2
    clear hf hw hj
    induction batches generalizing m with
    | nil => cases hr; exact h1.1
    | cons b bs ih =>
      obtain ⟨m1, e1, e2⟩ := bind_ok.1 hr
      refine ih m1 e2 ?_ (hb.imp id fun h b hb => h b (List.mem_cons_of_mem _ hb))
      obtain ⟨⟨m2, outs⟩, e3, e4⟩ := bind_ok.1 e1
      injection e4 with e4
      subst e4
      obtain ⟨⟨i, ids⟩, _, e5⟩ := bind_ok.1 e3
      obtain ⟨al, _, e6⟩ := bind_ok.1 e5
      obtain ⟨ss, _, e7⟩ := bind_ok.1 e6
      cases e7
      have := TokUtf8.transformAll (o := o) b.2 h1.1 (by rw [h1.2]; exact hb.imp id fun h => h b (by simp))
      exact ⟨this.1, this.2.trans h1.2⟩
  obtain ⟨ws, h3, h4⟩ := C61_text_save T hj hi
  rw [h4]
  intro w hw
  obtain ⟨xs, _, h5⟩ := bind_ok.1 h3
  injection h5 with h5
  subst h5
  obtain ⟨x, _, rfl⟩ := List.mem_map.1 hw
  exact h2.decode x

/-! ## Examples -/

theorem quickText_laws : TextLaws quickEnv.ops ratText := ⟨ratText_laws.digits, ratText_laws.exponent, ratText_laws.read, ratText_laws.zero, ratText_laws.small⟩

mutual
/-- A test for `Ints64`. -/
def okInts : Json F → Bool
  | .int i => decide (-(2 ^ 63) ≤ i ∧ i < 2 ^ 64)
  | .arr l => okItems l
  | .obj l => okFields l
  | _ => true
termination_by structural j => j
/-- `okInts` for the elements of an array. -/
def okItems : List (Json F) → Bool
  | [] => true
  | j :: l => okInts j && okItems l
termination_by structural l => l
/-- `okInts` for the values of an object. -/
def okFields : List (Str × Json F) → Bool
  | [] => true
  | (_, j) :: l => okInts j && okFields l
termination_by structural l => l
end

theorem okItems_mem : ∀ {l : List (Json F)}, okItems l = true → ∀ j ∈ l, okInts j = true
  | _ :: _, h, j, hj => by
    simp only [okItems, Bool.and_eq_true] at h
    rcases List.mem_cons.1 hj with rfl | hj
    · exact h.1
    · exact okItems_mem h.2 j hj

theorem okFields_mem : ∀ {l : List (Str × Json F)}, okFields l = true → ∀ e ∈ l, okInts e.2 = true
  | _ :: _, h, j, hj => by
    simp only [okFields, Bool.and_eq_true] at h
    rcases List.mem_cons.1 hj with rfl | hj
    · exact h.1
    · exact okFields_mem h.2 j hj

theorem okInts_sound {j : Json F} (h : okInts j = true) : Ints64 j := by
  intro i hi
  generalize hx : Json.int i = x at hi
  induction hi with
  | refl => subst hx; exact of_decide_eq_true h
  | arr hy _ ih => exact ih (okItems_mem h _ hy)
  | obj hy _ ih => exact ih (okFields_mem h _ hy)

/-- The tree saved by a small text stream model, of words or of characters. -/
def smallModel (words : Bool) (calls : List TextCall) : M (Json (Ext Rat)) := do
  let m0 ← StringStream.new quickEnv.ops 3 false words
  let m ← textRun quickEnv .rhsFirst m0 calls
  Saver.saveStringStream quickEnv.ops m

/-- Reads a file and writes the tree again. -/
def rewrite (s : Str) : M Str := do
  let j ← readFile quickEnv.ops ratText s
  pure (writeFile quickEnv.ops ratText j).text

/-- `aé b` in UTF-8. -/
def utf8Text : Str := ['a', Char.ofNat 0xC3, Char.ofNat 0xA9, ' ', 'b']

/-- A text with a byte that does not occur in UTF-8. -/
def latinText : Str := ['a', Char.ofNat 0xE9, ' ', 'b']

theorem smallModel_saved {words : Bool} {calls : List TextCall} {d : Bool}
    (h : (do let j ← smallModel words calls; pure (okInts j, (writeFile quickEnv.ops ratText j).done) : M (Bool × Bool)) = .ok (true, d)) :
    ∃ j, smallModel words calls = .ok j ∧ Saved quickEnv.ops j ∧ Ints64 j ∧ (writeFile quickEnv.ops ratText j).done = d := by
  obtain ⟨j, h1, h2⟩ := bind_ok.1 h
  have h3 := h1
  obtain ⟨m0, _, h3⟩ := bind_ok.1 h3
  obtain ⟨m, _, h3⟩ := bind_ok.1 h3
  injection h2 with h2
  injection h2 with h4 h5
  exact ⟨j, h1, .textStream m h3, okInts_sound h4, h5⟩

/-- The hypotheses of C56, C61 and C62 hold of a model of words. -/
example : ∃ j, smallModel true [.accept utf8Text, .update] = .ok j ∧ Saved quickEnv.ops j ∧ Ints64 j ∧ (writeFile quickEnv.ops ratText j).done = true :=
  smallModel_saved (by decide +kernel)

/-- The file of that model has 351 bytes; only with 350 or 351 of them it is read, and then completely. -/
example : (do
    let j ← smallModel true [.accept utf8Text, .update]
    let s := (writeFile quickEnv.ops ratText j).text
    pure (s.length, (List.range (s.length + 1)).filter fun n => rewrite (s.take n) ≠ .error .jsonParse, rewrite s = .ok s) : M (Nat × List Nat × Bool)) =
  .ok (351, [350, 351], true) := by decide +kernel

/-- **C63 is false**, a witness: a model of words that has seen a text in Latin-1 writes 56 bytes, throws, and leaves a file that cannot be loaded. -/
theorem C63_latin_witness : (do
    let j ← smallModel true [.accept latinText, .update]
    let o := writeFile quickEnv.ops ratText j
    pure (o.done, o.text.length, rewrite o.text = .error .jsonParse) : M (Bool × Nat × Bool)) = .ok (false, 56, true) := by decide +kernel

/-- The hypotheses of C63 hold of that model. -/
example : ∃ j, smallModel true [.accept latinText, .update] = .ok j ∧ Saved quickEnv.ops j ∧ Ints64 j ∧ (writeFile quickEnv.ops ratText j).done = false :=
  smallModel_saved (by decide +kernel)

/-- C64: a model of characters ignores the byte. -/
example : ∃ j, smallModel false [.accept latinText, .update] = .ok j ∧ Saved quickEnv.ops j ∧ Ints64 j ∧ (writeFile quickEnv.ops ratText j).done = true :=
  smallModel_saved (by decide +kernel)

/-- C64: the text of the first example is UTF-8. -/
example : Utf8 utf8Text := ⟨"aé b".toList, by decide⟩

/-- C60: all three results occur. -/
example : (rewrite "[1, {\"b\": 2, \"a\": []}] 7".toList = .ok "[\n  1,\n  {\n    \"a\": [],\n    \"b\": 2\n  }\n]\n".toList) ∧
    rewrite "[1,]".toList = .error .jsonParse ∧ rewrite [] = .error .jsonParse ∧
    (do let _ ← readFile quickEnv.ops { ratText with strtod := fun _ => .nan } "[1e999]".toList; pure () : M Unit) = .error .outOfRange := by decide +kernel

end VGram.Props
