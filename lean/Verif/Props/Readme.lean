import Verif.Props.Persist
import Verif.Props.Interrupt
import Verif.Spec.Readme

/-!
# What README.md and docs/source promise (C95–C98)

- README.md:41, examples.rst:143: a `CharTokenizer` in front of an `IntVGram` is "equivalent" to a `VGram`;
- examples.rst:138, vgram_builder.rst:72: `split()` turns a transformed sequence into its list of ids;
- examples.rst "Construct VGram from file": a loaded model "fit only once and wouldn't be fitted again";
- vgram_builder.rst:67: `fit` "makes `iter_num` iterations on all data".
-/

namespace VGram.Props

open VGram Spec

variable {F : Type}

theorem forall₂_right {α β : Type} {R : α → β → Prop} {l : List α} {l' : List β} (h : List.Forall₂ R l l') {b : β} (hb : b ∈ l') : ∃ a ∈ l, R a b := by
  induction h with
  | nil => cases hb
  | @cons x y xs ys hxy _ ih =>
    rcases List.mem_cons.1 hb with rfl | hb
    · exact ⟨x, by simp, hxy⟩
    · obtain ⟨a, ha, hr⟩ := ih hb
      exact ⟨a, by simp [ha], hr⟩

/-! ## C95 -/

/-- Reading a token makes its code known, and keeps the codes that were known. -/
theorem codeOne_known (o : EvalOrder) (t : Tokenizer) (x : Str) : (t.codeOne o x).1.forward.get? x = some (t.codeOne o x).2 ∧
    ∀ y c, t.forward.get? y = some c → (t.codeOne o x).1.forward.get? y = some c := by
  unfold Tokenizer.codeOne
  split
  · next k hk => exact ⟨hk, fun _ _ h => h⟩
  · next hk =>
    refine ⟨by simp [AMap.get?_set], fun y c hy => ?_⟩
    have : y ≠ x := by rintro rfl; rw [hk] at hy; cases hy
    simp [AMap.get?_set, this, hy]

theorem codeAll_known (o : EvalOrder) : ∀ (xs : List Str) (t : Tokenizer),
    List.Forall₂ (fun x c => (t.codeAll o xs).1.forward.get? x = some c) xs (t.codeAll o xs).2 ∧
      ∀ y c, t.forward.get? y = some c → (t.codeAll o xs).1.forward.get? y = some c := by
  intro xs
  induction xs with
  | nil => intro t; exact ⟨.nil, fun _ _ h => h⟩
  | cons x xs ih =>
    intro t
    obtain ⟨h1, h2⟩ := codeOne_known o t x
    obtain ⟨g1, g2⟩ := ih (t.codeOne o x).1
    exact ⟨.cons (g2 _ _ h1) g1, fun y c hy => g2 y c (h2 y c hy)⟩

theorem codeAll_again (o : EvalOrder) {xs : List Str} {t : Tokenizer} {cs : List Int} (h : List.Forall₂ (fun x c => t.forward.get? x = some c) xs cs) :
    t.codeAll o xs = (t, cs) := by
  induction h with
  | nil => rfl
  | @cons x c xs cs hx _ ih =>
    have : t.codeOne o x = (t, c) := by simp only [Tokenizer.codeOne, hx]
    simp only [Tokenizer.codeAll, this, ih]

theorem transformAll_known (o : EvalOrder) : ∀ (texts : List Str) (t : Tokenizer),
    List.Forall₂ (fun s cs => List.Forall₂ (fun x c => (t.transformAll o texts).1.forward.get? x = some c) (tokensOf t.kind s) cs) texts (t.transformAll o texts).2 ∧
      ∀ y c, t.forward.get? y = some c → (t.transformAll o texts).1.forward.get? y = some c := by
  intro texts
  induction texts with
  | nil => intro t; exact ⟨.nil, fun _ _ h => h⟩
  | cons s texts ih =>
    intro t
    obtain ⟨h1, h2⟩ := codeAll_known o (tokensOf t.kind s) t
    obtain ⟨g1, g2⟩ := ih (t.transform o s).1
    rw [transform_kind] at g1
    exact ⟨.cons (h1.imp fun x c h => g2 x c h) g1, fun y c hy => g2 y c (h2 y c hy)⟩

/-- Tokenizing the same texts again changes nothing and gives the same codes, in either evaluation order: `tok_texts` can be used for `fit` and `transform`. -/
theorem C95_tokenize_again (o : EvalOrder) (t : Tokenizer) (texts : List Str) :
    (t.transformAll o texts).1.transformAll o texts = t.transformAll o texts := by
  have key : ∀ (texts : List Str) (t : Tokenizer) (css : List (List Int)),
      List.Forall₂ (fun s cs => List.Forall₂ (fun x c => t.forward.get? x = some c) (tokensOf t.kind s) cs) texts css → t.transformAll o texts = (t, css) := by
    intro texts
    induction texts with
    | nil => intro t css h; cases h; rfl
    | cons s texts ih =>
      intro t css h
      cases h with
      | cons a b =>
        have : t.transform o s = (t, _) := codeAll_again o a
        simp only [Tokenizer.transformAll, this, ih t _ b]
  have h := (transformAll_known o texts t).1
  have hk : (t.transformAll o texts).1.kind = t.kind := by
    clear h key
    induction texts generalizing t with
    | nil => rfl
    | cons s texts ih => simp only [Tokenizer.transformAll]; rw [ih, transform_kind]
  rw [← hk] at h
  exact key texts _ _ h

/-- **C95 (partial)**: a text model is a tokenizer in front of an integer model.  If `fit` of a fresh text model succeeds on some texts, then so does `fit` of a fresh
integer model on the token codes; the alphabet of the text model is the decoded alphabet of the integer model, with the same frequencies; and `transform` of the text
model on those texts prints, for every id the integer model finds, the decoded word of the alphabet with that number.
Missing: `tokenizer.decode` of the ids themselves, as README.md:53 writes, see `C95_decoded_ids_false`. -/
theorem C95_int_pipeline_partial (E : Env F) (L : EnvLaws E) (SL : ScoreLaws E.ops) (k : TokKind) (size iter : Int) (h1 : 1 ≤ size) (h2 : 1 ≤ iter)
    (σ σ' : IntVGram.Sched) (texts : List Str) (m : StringVGram F) (hcap : ((seen (texts.map (tokensOf k)).flatten).length : Int) ≤ size)
    (hσ : ∀ j, j < iter.toNat * texts.length + texts.length → σ.term j = false)
    (hf : (StringVGram.new E.ops size iter k).fit E .rhsFirst σ texts = .ok m) :
    ∃ t toks i ws ids outs, (Tokenizer.new k).transformAll .rhsFirst texts = (t, toks) ∧ (IntVGram.new E.ops size iter).fit E σ toks = .ok (i, true) ∧
      i.alphabet = .ok ws ∧ m.alphabet = .ok (ws.map t.decode) ∧ m.int.freqs = i.freqs ∧
      i.transform E.ops σ' toks = .ok (i, ids) ∧ m.transform E.ops .rhsFirst σ' texts = .ok (m, outs) ∧
      List.Forall₂ (fun l out => ∃ words, List.Forall₂ (IsWord ws) l words ∧ (∀ w ∈ words, t.decode w ≠ []) ∧ out = joinSp (words.map t.decode)) ids outs := by
  have htm : TextModel E k m _ := .fit h1 h2 hcap hσ hf
  obtain ⟨T, hist, hi⟩ := htm.inv L SL
  obtain ⟨seqs, g1, _⟩ := textFit_int L SL h1 h2 hcap hσ hf
  have hf' := hf
  simp only [StringVGram.fit, StringVGram.new] at hf
  obtain ⟨⟨i, r⟩, hfit, hf⟩ := bind_ok.1 hf
  have hm : m = ⟨i, ((Tokenizer.new k).transformAll .rhsFirst texts).1⟩ := by cases hf; rfl
  have hr : r = true := by
    cases r with
    | true => rfl
    | false =>
      have := (C45_interrupted_unfitted E σ _ i _ hfit).2.1
      rw [hm] at g1
      rw [(fit_flags g1).1] at this
      cases this
  subst hr
  have hi' : m.int = i := by rw [hm]
  have ht : m.tok = ((Tokenizer.new k).transformAll .rhsFirst texts).1 := by rw [hm]
  have hagain : m.tok.transformAll .rhsFirst texts = (m.tok, ((Tokenizer.new k).transformAll .rhsFirst texts).2) := by
    rw [ht, C95_tokenize_again]
  obtain ⟨d, d1, d2, d3, d4, d5⟩ := hi.total.words
  obtain ⟨n, ids, t', o1, o2, _⟩ := hi.total.transformLoop_any SL σ' d5 ((Tokenizer.new k).transformAll .rhsFirst texts).2 0
  have hmem := hi.total.inv.alphabet_mem d5
  generalize decodeWords hist d.seqs = ws at d5 o2 hmem
  have hjoin : ∀ {seqs : List IntSeq} {ids : List (List Int)}, List.Forall₂ (fun seq ids => Spells ws ids (seq.filter fun x => decide (x ∈ hist))) seqs ids →
      ∃ outs, StringVGram.joinAll m.tok ws ids = .ok outs ∧
        List.Forall₂ (fun l out => ∃ words, List.Forall₂ (IsWord ws) l words ∧ (∀ w ∈ words, m.tok.decode w ≠ []) ∧ out = joinSp (words.map m.tok.decode)) ids outs := by
    intro seqs ids h
    induction h with
    | nil => exact ⟨[], rfl, .nil⟩
    | @cons seq l seqs ids a _ ih =>
      obtain ⟨outs, e1, e2⟩ := ih
      obtain ⟨vs, v1, v2⟩ := a
      have hv : ∀ v ∈ vs, v ∈ ws := fun v hv => by
        obtain ⟨_, _, h⟩ := forall₂_right v1 hv
        exact List.mem_of_getElem? h.2
      have hd : ∀ v ∈ vs, m.tok.decode v ≠ [] := fun v hv' =>
        decode_ne_nil hi.tok hi.sub hi.ne (hmem v (hv v hv')).1 fun c hc => (hi.hist c).1 ((hmem v (hv v hv')).2 c hc)
      exact ⟨_ :: outs, by simp only [StringVGram.joinAll, joinWords_ok v1 hd, if_true, ok_bind, e1, pure_M], .cons ⟨vs, v1, hd, rfl⟩ e2⟩
  obtain ⟨outs, e1, e2⟩ := hjoin o2
  rw [hi'] at o1 d5
  refine ⟨m.tok, _, i, ws, ids, outs, by rw [ht], hfit, d5, ?_, by rw [hi'], ?_, ?_, e2⟩
  · simp only [StringVGram.alphabet, hi', d5, ok_bind, pure_M]
  · simp only [IntVGram.transform, o1, ok_bind, pure_M]
  · simp only [StringVGram.transform, hagain, IntVGram.transform, hi', o1, ok_bind, pure_M, d5, e1]
    rw [hm]

/-- **C95 is false** for the line `result = tokenizer.decode(vgram.transform(tok_texts))` of README.md:53, even with a `transform` that returns id lists (in Python it returns
strings, which `decode` does not take): the tokenizer takes the numbers of words for token codes.  Here are the texts that `VGram` finds and the ones that line gives. -/
theorem C95_decoded_ids_false : (do
    let texts := ["abab".toList, "ba".toList]
    let m ← (StringVGram.new quickEnv.ops 4 2 .char).fit quickEnv .rhsFirst (stopAt 100) texts
    let (_, outs) ← m.transform quickEnv.ops .rhsFirst (stopAt 100) texts
    let (t, toks) := (Tokenizer.new .char).transformAll .rhsFirst texts
    let (i, _) ← (IntVGram.new quickEnv.ops 4 2).fit quickEnv (stopAt 100) toks
    let (_, ids) ← i.transform quickEnv.ops (stopAt 100) toks
    pure (outs, ids.map t.decode) : M (List Str × List Str)) = .ok (["a ba b".toList, "ba".toList], ["ab".toList, [] ]) := by decide +kernel

set_option synthInstance.maxSize 2000 in
/-- The same texts and models as in `C95_int_pipeline_partial`: ids, decoded alphabet and texts. -/
example : (do
    let texts := ["abab".toList, "ba".toList]
    let m ← (StringVGram.new quickEnv.ops 4 2 .char).fit quickEnv .rhsFirst (stopAt 100) texts
    let (_, outs) ← m.transform quickEnv.ops .rhsFirst (stopAt 100) texts
    let (t, toks) := (Tokenizer.new .char).transformAll .rhsFirst texts
    let (i, r) ← (IntVGram.new quickEnv.ops 4 2).fit quickEnv (stopAt 100) toks
    let ws ← i.alphabet
    let (_, ids) ← i.transform quickEnv.ops (stopAt 100) toks
    pure (r, toks, ws, ws.map t.decode, ids, outs) : M (Bool × List IntSeq × List IntSeq × List Str × List (List Int) × List Str)) =
      .ok (true, [[0, 1, 0, 1], [1, 0]], [[0], [1], [1, 0]], ["a".toList, "b".toList, "ba".toList], [[0, 2, 1], [2]], ["a ba b".toList, "ba".toList]) := by decide +kernel

/-! ## C96 -/

theorem pySplitFrom_word {t : Str} (ht : ∀ c ∈ t, isPySpace c = false) : ∀ (cur s : Str), pySplitFrom cur (t ++ s) = pySplitFrom (cur ++ t) s := by
  induction t with
  | nil => intro cur s; simp
  | cons c t ih =>
    intro cur s
    rw [List.cons_append, pySplitFrom, ht c (by simp)]
    simp only [Bool.false_eq_true, if_false]
    rw [ih (fun d hd => ht d (by simp [hd]))]
    simp

theorem pySplitFrom_join : ∀ (nums : List Str) (cur : Str), (∀ t ∈ nums, t ≠ [] ∧ ∀ c ∈ t, isPySpace c = false) →
    pySplitFrom cur (nums.map fun t => ' ' :: t).flatten = (if cur = [] then [] else [cur]) ++ nums := by
  intro nums
  induction nums with
  | nil => intro cur _; simp [pySplitFrom]
  | cons t nums ih =>
    intro cur h
    have ht := h t (by simp)
    have hs : isPySpace ' ' = true := by decide
    simp only [List.map_cons, List.flatten_cons, List.cons_append, pySplitFrom, hs, if_true]
    rw [pySplitFrom_word ht.2, List.nil_append, ih t fun u hu => h u (by simp [hu]), if_neg ht.1]
    split <;> simp

theorem decimal_no_space {t : Str} {i : Int} (h : IsDecimal t i) : t ≠ [] ∧ ∀ c ∈ t, isPySpace c = false := by
  have hd : ∀ c : Char, IsDigit c → isPySpace c = false := by
    intro c hc
    obtain ⟨h1, h2⟩ := hc
    simp only [isPySpace, Bool.or_eq_false_iff, beq_eq_false_iff_ne, Bool.and_eq_false_iff, decide_eq_false_iff_not]
    omega
  obtain ⟨s, n, hs, ⟨rfl, _⟩ | ⟨rfl, _⟩⟩ := h
  · exact ⟨hs.nonempty, fun c hc => hd c (hs.digits c hc)⟩
  · refine ⟨by simp, fun c hc => ?_⟩
    rcases List.mem_cons.1 hc with rfl | hc
    · decide
    · exact hd c (hs.digits c hc)

/-- `split()` of a printed id list: the decimal forms of the ids, or `-1` for the empty list. -/
theorem split_printed {ids : List Int} {s : Str} (h : Printed ids s) :
    (ids ≠ [] → List.Forall₂ (fun i t => IsDecimal t i) ids (pySplit s)) ∧ (ids = [] → pySplit s = [['-', '1']]) := by
  rcases h with ⟨rfl, rfl⟩ | ⟨h1, nums, h2, rfl⟩
  · exact ⟨fun h => absurd rfl h, fun _ => by decide⟩
  · refine ⟨fun hne => ?_, fun h => absurd h h1⟩
    have : ∀ t ∈ nums, t ≠ [] ∧ ∀ c ∈ t, isPySpace c = false := by
      clear h1 hne
      intro t ht
      induction h2 with
      | nil => cases ht
      | cons a _ ih =>
        rcases List.mem_cons.1 ht with rfl | ht
        · exact decimal_no_space a
        · exact ih ht
    rw [pySplit, pySplitFrom_join nums [] this]
    simpa using h2

/-- **C96 (partial)**: on a fitted model an uninterrupted `transform_to_string`, which is Python's `transform`, returns one string per input; `split()` gives the
decimal forms of the ids `transform` finds, in order, whenever some symbol of the input is known; otherwise there is no id, and `split()` gives `-1`, which is
not an id.  So the result is `-1` exactly for the inputs without a known symbol.
Missing: the empty list for an input without known symbols, `C96_unknown_false`. -/
theorem C96_split_partial (E : Env F) (L : EnvLaws E) (SL : ScoreLaws E.ops) (m : IntVGram F) (hist : List Int) (h : Ready E m hist) (σ : IntVGram.Sched)
    (seqs : List IntSeq) (hσ : ∀ j, j < 2 * seqs.length → σ.term j = false) : ∃ ws outs strs, m.alphabet = .ok ws ∧ m.transform E.ops σ seqs = .ok (m, outs) ∧
      m.transformToString E.ops σ seqs = .ok (m, strs) ∧
      List.Forall₂ (fun seq ids => Spells ws ids (seq.filter fun x => decide (x ∈ hist))) seqs outs ∧
      List.Forall₂ (fun seq ids => (ids ≠ [] ↔ ∃ x ∈ seq, x ∈ hist)) seqs outs ∧
      List.Forall₂ (fun ids s => (ids ≠ [] → List.Forall₂ (fun i t => IsDecimal t i) ids (pySplit s)) ∧ (pySplit s = [['-', '1']] ↔ ids = [])) outs strs := by
  obtain ⟨ws, outs, w1, w2, w3, w4⟩ := C47_transform E L SL m hist h σ seqs fun j hj => hσ j (by omega)
  obtain ⟨outs', strs, o1, o2, o3, o4⟩ := C47_transform_to_string E L SL m hist h σ seqs hσ
  rw [w2] at o1
  cases o1
  obtain ⟨hist', ht, he⟩ := h.total L SL
  have hw := ht.inv.alphabet_mem w1
  have hsp : List.Forall₂ (fun seq ids => Spells ws ids (seq.filter fun x => decide (x ∈ hist))) seqs outs := w4.imp fun _ _ h => h.2
  have hid : ∀ ids ∈ outs, ∀ i ∈ ids, 0 ≤ i := by
    intro ids hi i him
    obtain ⟨seq, _, vs, v1, _⟩ := forall₂_right hsp hi
    obtain ⟨v, _, v2⟩ := forall₂_right v1.flip him
    exact v2.1
  refine ⟨ws, outs, strs, w1, w2, o2, hsp, hsp.imp fun seq ids hs => ?_, ?_⟩
  · obtain ⟨vs, v1, v2⟩ := hs
    constructor
    · intro hne
      cases v1 with
      | nil => exact absurd rfl hne
      | @cons i v ids vs a b =>
        obtain ⟨x, hx⟩ := List.exists_mem_of_ne_nil _ (hw v (List.mem_of_getElem? a.2)).1
        have : x ∈ seq.filter fun x => decide (x ∈ hist) := by
          rw [← v2, List.flatten_cons]
          exact List.mem_append_left _ hx
        exact ⟨x, (List.mem_filter.1 this).1, of_decide_eq_true (List.mem_filter.1 this).2⟩
    · rintro ⟨x, hx, hh⟩ rfl
      cases v1
      have : x ∈ seq.filter fun x => decide (x ∈ hist) := List.mem_filter.2 ⟨hx, decide_eq_true hh⟩
      rw [← v2] at this
      simp at this
  · clear w2 w3 o2 w4 hsp o3
    induction o4 with
    | nil => exact .nil
    | @cons ids s outs strs a _ ih =>
      refine .cons ⟨(split_printed a).1, fun hs => ?_, (split_printed a).2⟩ (ih fun ids hi => hid ids (by simp [hi]))
      by_contra hne
      have hf := (split_printed a).1 hne
      rw [hs] at hf
      cases hf with
      | @cons i _ _ _ hd hn =>
        cases hn
        have h0 := hid [i] (by simp) i (by simp)
        obtain ⟨t, n, hn, ⟨e, _⟩ | ⟨_, e, e'⟩⟩ := hd
        · have := hn.digits '-' (by rw [← e]; simp)
          revert this
          unfold IsDigit
          decide
        · omega

/-- **C96 is false** for a sequence without known symbols: it has no id, but `split()` gives the number `-1`. -/
theorem C96_unknown_false : (do
    let (m, _) ← (IntVGram.new quickEnv.ops 4 2).fit quickEnv (stopAt 100) [[7, 8, 7, 8]]
    let (_, ids) ← m.transform quickEnv.ops (stopAt 100) [[8, 7, 8], [9]]
    let (_, strs) ← m.transformToString quickEnv.ops (stopAt 100) [[8, 7, 8], [9]]
    pure (ids, strs.map pySplit) : M (List (List Int) × List (List Str))) =
      .ok ([[2, 1], []], [["2".toList, "1".toList], ["-1".toList]]) := by decide +kernel

/-! ## C97 -/

/-- Reading texts with the tokenizer keeps a text model. -/
theorem TextInv.reads {m : StringVGram F} {k : TokKind} {A T : List Str} {hist : List Int} (h : TextInv m k A T hist) (texts : List Str) :
    TextInv ⟨m.int, (m.tok.transformAll .rhsFirst texts).1⟩ k A (T ++ (texts.map (tokensOf k)).flatten) hist := by
  obtain ⟨t1, t2, t3⟩ := transformAll_codes (texts := texts) h.tok
  rw [h.kind] at t1 t2
  refine ⟨t2, t1, fun x hx => List.mem_append_left _ (h.sub x hx), h.pre.trans (List.prefix_append _ _), fun x hx => ?_, h.total, fun c => ?_⟩
  · rcases List.mem_append.1 hx with hx | hx
    · exact h.ne x hx
    · obtain ⟨l, hl, hx⟩ := List.mem_flatten.1 hx
      obtain ⟨s, _, rfl⟩ := List.mem_map.1 hl
      exact tokensOf_ne_nil k s x hx
  · rw [h.hist, codes_append h.sub]

theorem TextModel.flags {E : Env F} (L : EnvLaws E) (SL : ScoreLaws E.ops) {k : TokKind} {m : StringVGram F} {A : List Str} (h : TextModel E k m A) :
    m.int.fitted = true ∧ m.int.freqsComputed = true := by
  induction h with
  | fit h1 h2 hcap hσ hf =>
    obtain ⟨seqs, hi, _⟩ := textFit_int L SL h1 h2 hcap hσ hf
    exact fit_flags hi
  | @transform m m' A σ texts outs h ht ih =>
    obtain ⟨T, hist, hi⟩ := h.inv L SL
    obtain ⟨n, m2, ws, outs2, q1, _, _, _, q2, _⟩ := hi.transform SL σ texts
    rw [ht] at q1
    cases q1
    rw [q2]
    exact ih

/-- **C97 (partial)**: a fitted character-level text model, saved and loaded, is not fitted again: whatever texts and schedule `fit` is given, it returns with the dictionary
and frequencies as they were saved, and the model goes on answering every list of `transform` calls like the one that was saved.
Missing: models saved before they were fitted, `C97_loaded_no_training_false`. -/
theorem C97_not_fitted_again_partial (E : Env F) (L : EnvLaws E) (SL : ScoreLaws E.ops) (m : StringVGram F) (trained : List Str) (h : TextModel E .char m trained) :
    ∃ mp, m.int.minProb = some mp ∧ (E.ops.isFinite mp = true →
      ∃ j m' ws, Saver.saveStringVGram E.ops m = .ok j ∧ Loader.loadStringVGram E.ops j = .ok m' ∧ m.alphabet = .ok ws ∧
        ∀ σ texts, ∃ m'', m'.fit E .rhsFirst σ texts = .ok m'' ∧ m''.alphabet = .ok ws ∧ m''.int.freqs = m.int.freqs ∧
          ∀ batches, ∃ r, textTalk E.ops m batches = .ok r ∧ textTalk E.ops m'' batches = .ok r) := by
  obtain ⟨T, hist, hi⟩ := h.inv L SL
  obtain ⟨f1, f2⟩ := h.flags L SL
  obtain ⟨mp, hmp⟩ := hi.total.inv.prob hi.total.dict
  refine ⟨mp, hmp, fun hfin => ?_⟩
  obtain ⟨j, m', h1, h2, h3, h4, h5, h6, h7⟩ := hi.reload (h.kept L SL) hmp hfin
  obtain ⟨d, d1, d2, d3, d4, d5⟩ := hi.total.words
  have hal : m.alphabet = .ok ((decodeWords hist d.seqs).map m.tok.decode) := by simp only [StringVGram.alphabet, d5, ok_bind, pure_M]
  refine ⟨j, m', _, h1, h2, hal, fun σ texts => ?_⟩
  have hp : TextPair m ⟨m'.int, (m'.tok.transformAll .rhsFirst texts).1⟩ trained T _ hist (seen hist) := ⟨h3.left, h3.right.reads texts, h3.same⟩
  refine ⟨⟨m'.int, (m'.tok.transformAll .rhsFirst texts).1⟩, ?_, hp.alphabet.trans hal, h4, fun batches => hp.talk SL batches⟩
  simp only [StringVGram.fit, IntVGram.fit, h6, h7, f1, f2, if_true, pure_M, ok_bind]

/-- **C97 is false** for every model loaded from a file that does not say `"fitted": true`: the number of rounds is not stored, so `fit` makes none.  It only counts the words of the
texts with the dictionary of the file, and declares the model fitted. -/
theorem C97_loaded_no_training_false (E : Env F) (j : Json F) (m : IntVGram F) (h : Loader.loadIntVGram E.ops j = .ok m) (hm : m.fitted = false)
    (σ : IntVGram.Sched) (seqs : List IntSeq) : m.fit E σ seqs =
      (IntVGram.recomputeFreqs E.ops σ 0 { m with fitted := true } seqs).bind fun m' => .ok ({ m' with freqsComputed := true }, true) := by
  have h0 : m.iterNum = 0 := by
    simp only [Loader.loadIntVGram] at h
    obtain ⟨i, _, h⟩ := bind_ok.1 h
    obtain ⟨jf, _, h⟩ := bind_ok.1 h
    obtain ⟨f, _, h⟩ := bind_ok.1 h
    obtain ⟨jc, _, h⟩ := bind_ok.1 h
    obtain ⟨c, _, h⟩ := bind_ok.1 h
    simp only [IntVGram.ofSaved] at h
    obtain ⟨s, _, h⟩ := bind_ok.1 h
    cases h
    rfl
  simp only [IntVGram.fit, hm, Bool.false_eq_true, if_false, h0, Int.toNat_zero, IntVGram.fitOuter, ok_bind]
  rfl

/-- Training on `abab`, `ab` interrupted in the second of three rounds; saving, loading and `fit`: is the result fitted, the alphabets in the file and after `fit`, and the alphabet when the
interrupted model itself is fitted. -/
def unfittedReload (texts : List Str) : M (Bool × Bool × List Str × List Str × List Str) := do
  let m ← (StringVGram.new quickEnv.ops 4 3 .char).fit quickEnv .rhsFirst (stopAt 2) ["abab".toList, "ab".toList]
  let j ← Saver.saveStringVGram quickEnv.ops m
  let m' ← Loader.loadStringVGram quickEnv.ops j
  let a ← m'.alphabet
  let m'' ← m'.fit quickEnv .rhsFirst (stopAt 100) texts
  let b ← m''.alphabet
  let n ← m.fit quickEnv .rhsFirst (stopAt 100) texts
  let c ← n.alphabet
  pure (m'.int.fitted, m''.int.fitted, a, b, c)

set_option synthInstance.maxSize 2000 in
/-- **C97 is false**, end to end: the loaded model is declared fitted without learning anything; the model that was not stored learns `abab`. -/
theorem C97_unfitted_file_false : unfittedReload ["abab".toList, "ab".toList] =
    .ok (false, true, ["a".toList, "ab".toList, "b".toList], ["a".toList, "ab".toList, "b".toList], ["a".toList, "abab".toList, "b".toList]) := by decide +kernel

set_option synthInstance.maxSize 2000 in
/-- With a new character in the texts, `fit` of the loaded model counts past the end of the frequencies. -/
theorem C97_unfitted_file_oob_false : unfittedReload ["abc".toList] = .error .oob := by decide +kernel

/-! ## C98 -/

/-- What `fit` does when its rounds read the given sequences: `accept` them, `update_dict` after each round, and count the words at the end. -/
def fitReading (E : Env F) (σ : IntVGram.Sched) (m : IntVGram F) (seqs : List IntSeq) (reads : List (List IntSeq)) : M (IntVGram F × Bool) :=
  (run E m.toStream (reads.map fun l => l.map Call.accept ++ [.update]).flatten).bind fun s =>
    (IntVGram.recomputeFreqs E.ops σ (m.iterNum.toNat * seqs.length) { m with toStream := s, fitted := true } seqs).bind fun m2 =>
      .ok ({ m2 with freqsComputed := true }, true)

/-- The sequences one round reads. -/
def roundReads (seqs : List IntSeq) (rand : Nat → Nat) (r : Nat) : List IntSeq := (List.range seqs.length).map fun t => sample seqs rand (r * seqs.length + t)

theorem rounds_reads (seqs : List IntSeq) (rand : Nat → Nat) : ∀ (n r : Nat),
    rounds seqs rand (r * seqs.length) n = (((List.range' r n).map (roundReads seqs rand)).map fun l => l.map Call.accept ++ [.update]).flatten := by
  intro n
  induction n with
  | zero => intro r; rfl
  | succ n ih =>
    intro r
    have h := ih (r + 1)
    rw [Nat.succ_mul] at h
    simp only [rounds, List.range'_succ, List.map_cons, List.flatten_cons, h]
    rw [List.append_assoc]
    congr 1
    simp only [samples, roundReads, List.range'_eq_map_range, List.map_map]
    rfl

theorem fit_reads (E : Env F) (σ : IntVGram.Sched) (m : IntVGram F) (seqs : List IntSeq) (hm : m.fitted = false)
    (hσ : ∀ j, j < m.iterNum.toNat * seqs.length → σ.term j = false) :
    m.fit E σ seqs = fitReading E σ m seqs ((List.range m.iterNum.toNat).map (roundReads seqs σ.rand)) := by
  have h := rounds_reads seqs σ.rand m.iterNum.toNat 0
  rw [Nat.zero_mul, ← List.range_eq_range'] at h
  rw [C44_uninterrupted E σ m seqs hm hσ, h]
  rfl

theorem roundReads_spec (seqs : List IntSeq) (hd : seqs.Nodup) (rand : Nat → Nat) (r : Nat) :
    (roundReads seqs rand r).length = seqs.length ∧ (∀ s ∈ roundReads seqs rand r, s ∈ seqs) ∧
      ((∀ s ∈ seqs, s ∈ roundReads seqs rand r) ↔ (roundReads seqs rand r).Nodup) ∧
      ((roundReads seqs rand r).Nodup ↔ ∀ a b, a < seqs.length → b < seqs.length →
        rand (r * seqs.length + a) % seqs.length = rand (r * seqs.length + b) % seqs.length → a = b) := by
  have hlen : (roundReads seqs rand r).length = seqs.length := by simp [roundReads]
  have hget : ∀ t, t < seqs.length → ∃ h : rand (r * seqs.length + t) % seqs.length < seqs.length,
      sample seqs rand (r * seqs.length + t) = seqs[rand (r * seqs.length + t) % seqs.length] := by
    intro t ht
    have h := Nat.mod_lt (rand (r * seqs.length + t)) (show 0 < seqs.length by omega)
    exact ⟨h, by rw [sample, List.getElem?_eq_getElem h, Option.getD_some]⟩
  have hsub : ∀ s ∈ roundReads seqs rand r, s ∈ seqs := by
    intro s hs
    obtain ⟨t, ht, rfl⟩ := List.mem_map.1 hs
    obtain ⟨h, e⟩ := hget t (List.mem_range.1 ht)
    rw [e]
    exact List.getElem_mem _
  refine ⟨hlen, hsub, ⟨fun h => ?_, fun h s hs => ?_⟩, ⟨fun h a b ha hb he => ?_, fun h => ?_⟩⟩
  · exact ((List.subperm_of_subset hd h).perm_of_length_le (by omega)).nodup_iff.1 hd
  · exact ((List.subperm_of_subset h hsub).perm_of_length_le (by omega)).mem_iff.2 hs
  · refine List.inj_on_of_nodup_map h (List.mem_range.2 ha) (List.mem_range.2 hb) ?_
    obtain ⟨_, ea⟩ := hget a ha
    obtain ⟨_, eb⟩ := hget b hb
    rw [ea, eb]
    simp only [he]
  · refine List.Nodup.map_on (fun a ha b hb he => ?_) List.nodup_range
    rw [List.mem_range] at ha hb
    obtain ⟨_, ea⟩ := hget a ha
    obtain ⟨_, eb⟩ := hget b hb
    rw [ea, eb] at he
    exact h a b ha hb ((hd.getElem_inj_iff).1 he)

/-- **C98 (partial)**: an uninterrupted `fit` makes `iter_num` rounds; every round reads as many sequences as there are training sequences, and only such.  If these are
different, a round reads every one of them exactly if it reads none of them twice, that is if its random numbers have different remainders.
Missing: that this happens, see `C98_unread_false`. -/
theorem C98_round_partial (E : Env F) (σ : IntVGram.Sched) (m : IntVGram F) (seqs : List IntSeq) (hd : seqs.Nodup) (hm : m.fitted = false)
    (hσ : ∀ j, j < m.iterNum.toNat * seqs.length → σ.term j = false) :
    ∃ reads, m.fit E σ seqs = fitReading E σ m seqs reads ∧ reads.length = m.iterNum.toNat ∧
      ∀ r l, reads[r]? = some l → l.length = seqs.length ∧ (∀ s ∈ l, s ∈ seqs) ∧ ((∀ s ∈ seqs, s ∈ l) ↔ l.Nodup) ∧
        (l.Nodup ↔ ∀ a b, a < seqs.length → b < seqs.length →
          σ.rand (r * seqs.length + a) % seqs.length = σ.rand (r * seqs.length + b) % seqs.length → a = b) := by
  refine ⟨_, fit_reads E σ m seqs hm hσ, by simp, fun r l hl => ?_⟩
  rw [List.getElem?_map] at hl
  obtain ⟨r', hr, rfl⟩ := Option.map_eq_some_iff.1 hl
  obtain ⟨_, hr⟩ := List.getElem?_eq_some_iff.1 hr
  rw [List.getElem_range] at hr
  subst hr
  exact roundReads_spec seqs hd σ.rand r

/-- **C98 is false**: whatever the number of rounds, a generator can make `fit` read the first sequence only. -/
theorem C98_unread_false (E : Env F) (m : IntVGram F) (s : IntSeq) (seqs : List IntSeq) (hm : m.fitted = false) :
    ∃ σ reads, m.fit E σ (s :: seqs) = fitReading E σ m (s :: seqs) reads ∧ reads.length = m.iterNum.toNat ∧
      ∀ l ∈ reads, l.length = (s :: seqs).length ∧ ∀ x ∈ l, x = s := by
  refine ⟨⟨fun _ => 0, fun _ => false⟩, _, fit_reads E _ m (s :: seqs) hm fun _ _ => rfl, by simp, fun l hl => ?_⟩
  obtain ⟨r, _, rfl⟩ := List.mem_map.1 hl
  refine ⟨by simp [roundReads], fun x hx => ?_⟩
  obtain ⟨t, _, rfl⟩ := List.mem_map.1 hx
  simp [sample]

/-- **C98 is false**, what follows: the second training sequence is not read in any round, and counting its words afterwards writes past the end of the frequencies. -/
theorem C98_unread_oob_false : ((IntVGram.new quickEnv.ops 4 3).fit quickEnv ⟨fun _ => 0, fun _ => false⟩ [[7, 7], [8]]).map (fun p => p.1.freqs) = .error .oob ∧
    ((IntVGram.new quickEnv.ops 4 3).fit quickEnv ⟨id, fun _ => false⟩ [[7, 7], [8]]).map (fun p => p.1.freqs) = .ok [2, 1] := by decide +kernel

/-- Two rounds over three sequences: the first one reads all of them, the second one does not. -/
example : roundReads [[1], [2], [3]] (fun t => [4, 0, 5, 1, 1, 2].getD t 0) 0 = [[2], [1], [3]] ∧
    roundReads [[1], [2], [3]] (fun t => [4, 0, 5, 1, 1, 2].getD t 0) 1 = [[2], [2], [3]] := by decide +kernel

end VGram.Props
