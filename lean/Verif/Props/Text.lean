import Verif.Proofs.Text

/-!
# Text models (C49, C50)

`tokensOf k s` are the tokens of the normalised text (C32, C35).  Everything here except the `_false` theorems is for
the evaluation order `rhsFirst` of base_tokenizer.cc:36; for the other one decoding is wrong.
-/

namespace VGram.Props

open VGram Spec

variable {F : Type}

/-! ## C49 -/

/-- Fitted text models with the tokens they were trained on: a fresh `StringVGram` after a successful uninterrupted `fit`
with at least one round, when the model has room for the tokens; and after any number of `transform` calls. -/
inductive TextModel (E : Env F) (k : TokKind) : StringVGram F → List Str → Prop
  | fit {size iter : Int} {σ : IntVGram.Sched} {train : List Str} {m : StringVGram F} (h1 : 1 ≤ size) (h2 : 1 ≤ iter)
      (hcap : ((seen (train.map (tokensOf k)).flatten).length : Int) ≤ size)
      (hσ : ∀ j, j < iter.toNat * train.length + train.length → σ.term j = false)
      (hf : (StringVGram.new E.ops size iter k).fit E .rhsFirst σ train = .ok m) : TextModel E k m (train.map (tokensOf k)).flatten
  | transform {m m' : StringVGram F} {trained : List Str} {σ : IntVGram.Sched} {texts : List Str} {outs : List Str} (h : TextModel E k m trained)
      (ht : m.transform E.ops .rhsFirst σ texts = .ok (m', outs)) : TextModel E k m' trained

/-- What is true of text models: the tokenizer met the tokens `T`, the codes of the trained tokens are known to the model. -/
structure TextInv (m : StringVGram F) (k : TokKind) (A T : List Str) (hist : List Int) : Prop where
  kind : m.tok.kind = k
  tok : TokInv .rhsFirst m.tok (seen T)
  sub : ∀ x ∈ A, x ∈ T
  pre : A <+: T
  ne : ∀ x ∈ T, x ≠ []
  total : Total m.int.toStream hist
  hist : ∀ c, c ∈ hist ↔ c ∈ A.map (code T)

theorem TextInv.transform {E : Env F} (SL : ScoreLaws E.ops) {m : StringVGram F} {k : TokKind} {A T : List Str} {hist : List Int} (h : TextInv m k A T hist)
    (σ : IntVGram.Sched) (texts : List Str) : ∃ n m' ws outs, m.transform E.ops .rhsFirst σ texts = .ok (m', outs) ∧ m.alphabet = .ok ws ∧ m'.alphabet = .ok ws ∧
      TextInv m' k A (T ++ (texts.map (tokensOf k)).flatten) hist ∧ m'.int = m.int ∧
      List.Forall₂ (fun s out => ∃ pieces, out = joinSp pieces ∧ (∀ p ∈ pieces, p ≠ [] ∧ p ∈ ws) ∧
        pieces.flatten = ((tokensOf k s).filter fun x => decide (x ∈ A)).flatten) (texts.take n) outs ∧
      ((∀ j, j < texts.length → σ.term j = false) → n = texts.length) := by
  obtain ⟨d, d1, d2, d3, d4, d5⟩ := h.total.words
  obtain ⟨t1, t2, t3⟩ := transformAll_codes (texts := texts) h.tok
  rw [h.kind] at t1 t2 t3
  generalize hT : T ++ (texts.map (tokensOf k)).flatten = T' at t1 t3
  have hst : A.map (code T') = A.map (code T) := by rw [← hT]; exact codes_append h.sub _
  have hh : ∀ c, c ∈ hist ↔ c ∈ A.map (code T') := by rw [hst]; exact h.hist
  have hA : ∀ x ∈ A, x ∈ T' := fun x hx => by rw [← hT]; exact List.mem_append_left _ (h.sub x hx)
  have hne : ∀ x ∈ T', x ≠ [] := by
    rw [← hT]
    intro x hx
    rcases List.mem_append.1 hx with hx | hx
    · exact h.ne x hx
    · obtain ⟨l, hl, hx⟩ := List.mem_flatten.1 hx
      obtain ⟨s, _, rfl⟩ := List.mem_map.1 hl
      exact tokensOf_ne_nil k s x hx
  have hmem := h.total.inv.alphabet_mem d5
  obtain ⟨n, outs, t', o1, o2, o3⟩ := h.total.transformLoop_any SL σ d5 (m.tok.transformAll .rhsFirst texts).2 0
  generalize decodeWords hist d.seqs = ws at d5 hmem o2
  generalize htk : (m.tok.transformAll .rhsFirst texts).1 = tk at t1 t2
  rw [t3, ← List.map_take] at o2
  have hjoin : ∀ {texts : List Str} {outs : List (List Int)}, List.Forall₂ (fun seq ids => Spells ws ids (seq.filter fun x => decide (x ∈ hist)))
      (texts.map fun s => (tokensOf k s).map (code T')) outs → ∃ strs, StringVGram.joinAll tk ws outs = .ok strs ∧
        List.Forall₂ (fun s out => ∃ pieces, out = joinSp pieces ∧ (∀ p ∈ pieces, p ≠ [] ∧ p ∈ ws.map tk.decode) ∧
          pieces.flatten = ((tokensOf k s).filter fun x => decide (x ∈ A)).flatten) texts strs := by
    intro texts
    induction texts with
    | nil => intro outs ho; cases ho; exact ⟨[], rfl, .nil⟩
    | cons s texts ih =>
      intro outs ho
      cases ho with
      | cons a b =>
        obtain ⟨pieces, p1, p2, p3⟩ := joinWords_text t1 hA hne hh hmem a
        obtain ⟨strs, q1, q2⟩ := ih b
        exact ⟨_ :: strs, by simp only [StringVGram.joinAll, p1, ok_bind, q1, pure_M], .cons ⟨pieces, rfl, p2, p3⟩ q2⟩
  obtain ⟨strs, q1, q2⟩ := hjoin o2
  have halpha : ws.map tk.decode = ws.map m.tok.decode := by
    apply List.map_congr_left
    intro w hw
    rw [← hT] at t1
    exact decode_stable h.tok t1 h.sub fun c hc => (h.hist c).1 ((hmem w hw).2 c hc)
  rw [halpha] at q2
  refine ⟨n, ⟨m.int, tk⟩, ws.map m.tok.decode, strs, ?_, ?_, ?_, ⟨t2, t1, hA, by rw [← hT]; exact h.pre.trans (List.prefix_append _ _), hne, h.total, hh⟩, rfl, q2, fun hσ => ?_⟩
  · simp only [StringVGram.transform, IntVGram.transform, o1, ok_bind, pure_M, d5, htk, q1]
  · simp only [StringVGram.alphabet, d5, ok_bind, pure_M]
  · simp only [StringVGram.alphabet, d5, ok_bind, pure_M, halpha]
  · rw [t3, List.length_map] at o3
    exact o3 fun j _ hj => hσ j (by omega)

/-- A text `fit` is a `fit` on codes. -/
theorem textFit_int {E : Env F} (L : EnvLaws E) (SL : ScoreLaws E.ops) {k : TokKind} {size iter : Int} {σ : IntVGram.Sched} {train : List Str} {m : StringVGram F}
    (h1 : 1 ≤ size) (h2 : 1 ≤ iter) (hcap : ((seen (train.map (tokensOf k)).flatten).length : Int) ≤ size)
    (hσ : ∀ j, j < iter.toNat * train.length + train.length → σ.term j = false)
    (hf : (StringVGram.new E.ops size iter k).fit E .rhsFirst σ train = .ok m) :
    ∃ seqs, (IntVGram.new E.ops size iter).fit E σ seqs = .ok (m.int, true) ∧ ((seen seqs.flatten).length : Int) ≤ size ∧ seqs.length = train.length ∧
      seqs.flatten = (train.map (tokensOf k)).flatten.map (code (train.map (tokensOf k)).flatten) ∧
      TokInv .rhsFirst m.tok (seen (train.map (tokensOf k)).flatten) ∧ m.tok.kind = k := by
  simp only [StringVGram.fit, StringVGram.new] at hf
  obtain ⟨⟨i, r⟩, hi, hf⟩ := bind_ok.1 hf
  cases hf
  obtain ⟨t1, t2, t3⟩ := transformAll_codes (texts := train) (T := []) (TokInv.new .rhsFirst k)
  rw [show (Tokenizer.new k).kind = k from rfl, List.nil_append] at t1 t3
  rw [t3] at hi
  have hmap : (train.map fun s => (tokensOf k s).map (code (train.map (tokensOf k)).flatten)).flatten =
      (train.map (tokensOf k)).flatten.map (code (train.map (tokensOf k)).flatten) := by
    rw [List.map_flatten, List.map_map]
    rfl
  have hcap' : ((seen (train.map fun s => (tokensOf k s).map (code (train.map (tokensOf k)).flatten)).flatten).length : Int) ≤ size := by
    rw [hmap]
    exact le_trans (by exact_mod_cast seen_map_length _ _) hcap
  have hr : r = true := by
    cases r with
    | true => rfl
    | false =>
      obtain ⟨s, ws, _, _, hiff, hbad⟩ := C46_fit_iff_covered E L SL size iter h1 h2 σ _ hcap' (by simpa using hσ)
      by_cases hc : ∀ seq ∈ train.map fun s => (tokensOf k s).map (code (train.map (tokensOf k)).flatten), ∀ x ∈ seq, [x] ∈ ws
      · obtain ⟨m, hm⟩ := hiff.2 hc
        rw [hm] at hi
        cases hi
      · rw [hbad hc] at hi
        cases hi
  subst hr
  exact ⟨_, hi, hcap', by simp, hmap, t1, t2⟩

theorem TextModel.inv {E : Env F} (L : EnvLaws E) (SL : ScoreLaws E.ops) {k : TokKind} {m : StringVGram F} {A : List Str} (h : TextModel E k m A) :
    ∃ T hist, TextInv m k A T hist := by
  induction h with
  | @fit size iter σ train m h1 h2 hcap hσ hf =>
    obtain ⟨seqs, hi, hcap', hl, hmap, t1, t2⟩ := textFit_int L SL h1 h2 hcap hσ hf
    obtain ⟨hist, ht, hh⟩ := (Ready.fit h1 h2 hcap' (by rw [hl]; exact hσ) hi).total L SL
    refine ⟨(train.map (tokensOf k)).flatten, hist, t2, t1, fun x hx => hx, List.prefix_refl _, fun x hx => ?_, ht, fun c => ?_⟩
    · obtain ⟨l, hl, hx⟩ := List.mem_flatten.1 hx
      obtain ⟨s, _, rfl⟩ := List.mem_map.1 hl
      exact tokensOf_ne_nil k s x hx
    · rw [← hh, hmap]
  | @transform m m' A σ texts outs h ht ih =>
    obtain ⟨T, hist, hi⟩ := ih
    obtain ⟨n, m2, ws, outs2, q1, _, _, q2, _⟩ := hi.transform SL σ texts
    rw [ht] at q1
    cases q1
    exact ⟨_, _, q2⟩

/-- **C49 (partial)**, tokens.  `transform` of a fitted text model never fails and changes neither the integer model nor
`alphabet()`.  It returns one text per input, in order: nonempty members of `alphabet()` joined with single spaces, whose
concatenation is the concatenation of those tokens of the normalised input that were trained on.  The tokenizer remembers every
token of the texts, also the unknown ones, and keeps its codes.
Missing: the other evaluation order, see `C49_lhs_first_false`. -/
theorem C49_transform_tokens_partial (E : Env F) (L : EnvLaws E) (SL : ScoreLaws E.ops) (k : TokKind) (m : StringVGram F) (trained : List Str)
    (h : TextModel E k m trained) (σ : IntVGram.Sched) (texts : List Str) (hσ : ∀ j, j < texts.length → σ.term j = false) :
    ∃ m' ws outs, m.transform E.ops .rhsFirst σ texts = .ok (m', outs) ∧ m'.int = m.int ∧ m.alphabet = .ok ws ∧ m'.alphabet = .ok ws ∧ outs.length = texts.length ∧
      List.Forall₂ (fun s out => ∃ pieces, out = joinSp pieces ∧ (∀ p ∈ pieces, p ≠ [] ∧ p ∈ ws) ∧
        pieces.flatten = ((tokensOf k s).filter fun x => decide (x ∈ trained)).flatten) texts outs ∧
      (∀ x c, m.tok.forward.get? x = some c → m'.tok.forward.get? x = some c) ∧
      ∀ x, (m'.tok.forward.get? x).isSome ↔ (m.tok.forward.get? x).isSome ∨ ∃ s ∈ texts, x ∈ tokensOf k s := by
  obtain ⟨T, hist, hi⟩ := h.inv L SL
  obtain ⟨n, m', ws, outs, q1, q2, q3, hi', q4, q5, q6⟩ := hi.transform SL σ texts
  rw [q6 hσ, List.take_length] at q5
  refine ⟨m', ws, outs, q1, q4, q2, q3, q5.length_eq.symm, q5, fun x c hc => ?_, fun x => ?_⟩
  · rw [hi.tok.fwd] at hc
    split at hc
    · next hx =>
      cases hc
      rw [hi'.tok.fwd, if_pos (seen_mem.2 (List.mem_append_left _ (seen_mem.1 hx)))]
      exact congrArg some (code_append (seen_mem.1 hx) _)
    · cases hc
  · simp only [hi'.tok.fwd, hi.tok.fwd, seen_mem, Option.isSome_ite, List.mem_append, List.mem_flatten, List.mem_map]
    constructor
    · rintro (h | ⟨l, ⟨s, hs, rfl⟩, hx⟩)
      · exact Or.inl h
      · exact Or.inr ⟨s, hs, hx⟩
    · rintro (h | ⟨s, hs, hx⟩)
      · exact Or.inl h
      · exact Or.inr ⟨_, ⟨s, hs, rfl⟩, hx⟩

theorem char_tokens_filter (s : Str) (trained : List Char) : ((tokensOf .char s).filter fun x => decide (x ∈ trained.map fun c => [c])).flatten =
    (Tokenizer.normalize .char s).filter fun c => decide (c ∈ trained) := by
  simp only [tokensOf, Tokenizer.tokenize]
  generalize Tokenizer.normalize .char s = l
  induction l with
  | nil => rfl
  | cons c l ih =>
    simp only [List.map_cons, List.filter_cons]
    by_cases hc : c ∈ trained
    · simp [hc] at ih ⊢
      exact ih
    · simp [hc] at ih ⊢
      exact ih

/-- **C49 (partial)**, characters: for a character-level model the transformed text without spaces is the normalised text
without the characters that do not occur in the normalised training texts; in particular it is the normalised text if
all its characters do.  Missing: the other evaluation order. -/
theorem C49_transform_lossless_partial (E : Env F) (L : EnvLaws E) (SL : ScoreLaws E.ops) (size iter : Int) (h1 : 1 ≤ size) (h2 : 1 ≤ iter) (σ : IntVGram.Sched)
    (train : List Str) (m : StringVGram F) (hcap : ((seen (train.map (Tokenizer.normalize .char)).flatten).length : Int) ≤ size)
    (hσ : ∀ j, j < iter.toNat * train.length + train.length → σ.term j = false)
    (hf : (StringVGram.new E.ops size iter .char).fit E .rhsFirst σ train = .ok m)
    (σ' : IntVGram.Sched) (texts : List Str) (hσ' : ∀ j, j < texts.length → σ'.term j = false) :
    ∃ m' outs, m.transform E.ops .rhsFirst σ' texts = .ok (m', outs) ∧ outs.length = texts.length ∧
      List.Forall₂ (fun s out => out.filter (fun c => decide (c ≠ ' ')) =
          (Tokenizer.normalize .char s).filter (fun c => decide (∃ t ∈ train, c ∈ Tokenizer.normalize .char t)) ∧
        ((∀ c ∈ Tokenizer.normalize .char s, ∃ t ∈ train, c ∈ Tokenizer.normalize .char t) →
          out.filter (fun c => decide (c ≠ ' ')) = Tokenizer.normalize .char s)) texts outs := by
  have hmap : (train.map (tokensOf .char)).flatten = (train.map (Tokenizer.normalize .char)).flatten.map fun c => [c] := by
    rw [List.map_flatten, List.map_map]
    rfl
  have hm : TextModel E .char m (train.map (tokensOf .char)).flatten := by
    refine .fit h1 h2 ?_ hσ hf
    rw [hmap]
    exact le_trans (by exact_mod_cast seen_map_length _ _) hcap
  obtain ⟨m', ws, outs, q1, _, _, _, q2, q3, _⟩ := C49_transform_tokens_partial E L SL .char m _ hm σ' texts hσ'
  refine ⟨m', outs, q1, q2, q3.imp ?_⟩
  rintro s out ⟨pieces, rfl, _, hp⟩
  have key : (joinSp pieces).filter (fun c => decide (c ≠ ' ')) =
      (Tokenizer.normalize .char s).filter (fun c => decide (∃ t ∈ train, c ∈ Tokenizer.normalize .char t)) := by
    rw [joinSp_filter, hp, hmap, char_tokens_filter, List.filter_eq_self.2]
    · apply List.filter_congr
      intro c _
      rw [decide_eq_decide]
      simp [List.mem_flatten]
    · intro c hc
      have := C32_only_lower_digits s c (List.mem_of_mem_filter hc)
      have hl : ∀ c ∈ lowerDigits, c ≠ ' ' := by decide +kernel
      simpa using hl c this
  refine ⟨key, fun hall => ?_⟩
  rw [key, List.filter_eq_self]
  exact fun c hc => decide_eq_true (hall c hc)

/-- Two tokens make a word; unknown characters are dropped; upper case and punctuation are normalised away. -/
example : (do
    let m ← (StringVGram.new quickEnv.ops 4 3 .char).fit quickEnv .rhsFirst (stopAt 100) ["A b".toList, "aba".toList, "b".toList]
    let ws ← m.alphabet
    let (_, outs) ← m.transform quickEnv.ops .rhsFirst (stopAt 100) ["b-ABx a".toList, "zz".toList]
    pure (ws, outs) : M (List Str × List Str)) = .ok (["a".toList, "ab".toList, "b".toList], ["b ab a".toList, [] ]) := by decide +kernel

/-- **C49 is false** when the left-hand side of base_tokenizer.cc:36 is evaluated first: trained on `ab`, the text `ab` is
transformed to `b`. -/
theorem C49_lhs_first_false : (do
    let m ← (StringVGram.new quickEnv.ops 4 1 .char).fit quickEnv .lhsFirst (stopAt 100) ["ab".toList]
    let (_, outs) ← m.transform quickEnv.ops .lhsFirst (stopAt 100) ["ab".toList]
    pure outs : M (List Str)) = .ok ["b".toList] := by decide +kernel

/-! ## C50 -/

/-- **C50**, constructor: `invalid_argument` exactly when both options are set. -/
theorem C50_constructor (O : FloatOps F) (size : Int) (innerWordsSplit wordsAreTokens : Bool) :
    (StringStream.new O size innerWordsSplit wordsAreTokens = .error .invalidArg ↔ innerWordsSplit = true ∧ wordsAreTokens = true) ∧
    (¬ (innerWordsSplit = true ∧ wordsAreTokens = true) → ∃ m, StringStream.new O size innerWordsSplit wordsAreTokens = .ok m) := by
  cases innerWordsSplit <;> cases wordsAreTokens <;> simp [StringStream.new]

/-- A client's call on a text stream model. -/
inductive TextCall where
  | accept (s : Str)
  | parse (s : Str)
  | update

/-- Perform one call, ignoring its answer. -/
def textCall (E : Env F) (o : EvalOrder) (m : StringStream F) : TextCall → M (StringStream F)
  | .accept s => m.accept E o s
  | .parse s => do
    let (m', _) ← m.parse E.ops o s
    pure m'
  | .update => m.updateDict E.ops

/-- Perform the calls one after the other. -/
def textRun (E : Env F) (o : EvalOrder) (m : StringStream F) : List TextCall → M (StringStream F)
  | [] => .ok m
  | c :: cs => do
    let m' ← textCall E o m c
    textRun E o m' cs

/-- The tokens of all accepted texts. -/
def acceptedTokens (k : TokKind) : List TextCall → List Str
  | [] => []
  | .accept s :: cs => tokensOf k s ++ acceptedTokens k cs
  | _ :: cs => acceptedTokens k cs

/-- `parse` is only called once a dictionary is published; `r`/`r'`: one is published before/afterwards. -/
inductive TextLegal : Bool → List TextCall → Bool → Prop
  | nil {r : Bool} : TextLegal r [] r
  | accept {r r' : Bool} {s : Str} {cs : List TextCall} (h : TextLegal r cs r') : TextLegal r (.accept s :: cs) r'
  | parse {r' : Bool} {s : Str} {cs : List TextCall} (h : TextLegal true cs r') : TextLegal true (.parse s :: cs) r'
  | update {r r' : Bool} {cs : List TextCall} (h : TextLegal true cs r') : TextLegal r (.update :: cs) r'

/-- What is true of text stream models: `A` are the accepted tokens, `T` all tokens met. -/
structure TStreamInv (m : StringStream F) (k : TokKind) (A T : List Str) : Prop where
  kind : m.tok.kind = k
  tok : TokInv .rhsFirst m.tok (seen T)
  sub : ∀ x ∈ A, x ∈ T
  ne : ∀ x ∈ T, x ≠ []
  inv : StreamInv m.stream (A.map (code T))

theorem ne_append {k : TokKind} {T : List Str} (h : ∀ x ∈ T, x ≠ []) (s : Str) : ∀ x ∈ T ++ tokensOf k s, x ≠ [] := by
  intro x hx
  rcases List.mem_append.1 hx with hx | hx
  · exact h x hx
  · exact tokensOf_ne_nil k s x hx

theorem wordsOf_ok {st : Stream F} {hist : List Int} (h : StreamInv st hist) {d : IntDict} (hd : st.getDict = .ok d) (ok : DOk (seen hist).length d)
    (t : Tokenizer) : ∀ {ids : List Int} {vs : List IntSeq}, List.Forall₂ (IsWord (decodeWords hist d.seqs)) ids vs →
      StringStream.wordsOf st t ids = .ok (vs.map t.decode) := by
  intro ids vs hf
  induction hf with
  | nil => rfl
  | @cons i v ids vs a _ ih =>
    obtain ⟨a1, a2⟩ := a
    simp only [decodeWords, List.getElem?_map, Option.map_eq_some_iff] at a2
    obtain ⟨w, w1, rfl⟩ := a2
    simp only [StringStream.wordsOf, hd, ok_bind, rd_isWord (w := w) ⟨a1, w1⟩, ih, h.coder.decode]
    rw [if_pos (ok.symbols w (List.mem_of_getElem? w1))]
    rfl

theorem TStreamInv.parse {E : Env F} (SL : ScoreLaws E.ops) {m : StringStream F} {k : TokKind} {A T : List Str} (h : TStreamInv m k A T)
    (hd : m.stream.dict ≠ .null) (s : Str) : ∃ m' ws pieces, m.parse E.ops .rhsFirst s = .ok (m', pieces) ∧ m'.alphabet = .ok ws ∧
      (∀ p ∈ pieces, p ≠ [] ∧ p ∈ ws) ∧ pieces.flatten = ((tokensOf k s).filter fun x => decide (x ∈ A)).flatten ∧
      TStreamInv m' k A (T ++ tokensOf k s) ∧ m'.stream.dict ≠ .null ∧ m'.stream.builder.size = m.stream.builder.size := by
  obtain ⟨t1, t2⟩ := transform_codes h.tok s
  rw [h.kind] at t1 t2
  have hst : A.map (code (T ++ tokensOf k s)) = A.map (code T) := codes_append h.sub _
  have hA : ∀ x ∈ A, x ∈ T ++ tokensOf k s := fun x hx => List.mem_append_left _ (h.sub x hx)
  have hne := ne_append (k := k) h.ne s
  obtain ⟨d, d', ids, p1, p2, p3, p4, p5, p6, p7, p8, p9⟩ := h.inv.parse SL hd (m.tok.transform .rhsFirst s).2
  have hg := Stream.getDict_setDict p1 d'
  obtain ⟨f1, f2, f3, f4, f5, f6, f7, f8, f9, f10⟩ := m.stream.setDict_frame d'
  obtain ⟨vs, v1, v2⟩ := p8
  have hal := p5.alphabet hg p4
  have hmem := p5.alphabet_mem hal
  have hv : ∀ v ∈ vs, v ∈ decodeWords (A.map (code T)) d'.seqs := by
    have : ∀ {ws : List IntSeq} {ids : List Int} {vs : List IntSeq}, List.Forall₂ (IsWord ws) ids vs → ∀ v ∈ vs, v ∈ ws := by
      intro ws ids vs hf
      induction hf with
      | nil => intro v hv; cases hv
      | cons a _ ih =>
        intro v hv
        rcases List.mem_cons.1 hv with rfl | hv
        · exact List.mem_of_getElem? a.2
        · exact ih v hv
    exact this v1
  have hw := wordsOf_ok p5 hg p4 (m.tok.transform .rhsFirst s).1 v1
  generalize htk : (m.tok.transform .rhsFirst s).1 = tk at t1 hw
  have hkind : tk.kind = k := by rw [← htk, transform_kind, h.kind]
  refine ⟨{ m with tok := tk, stream := m.stream.setDict d' }, (decodeWords (A.map (code T)) d'.seqs).map tk.decode, vs.map tk.decode, ?_, ?_, ?_, ?_, ⟨hkind, t1, hA, hne, by rw [hst]; exact p5⟩,
    by rw [f1]; exact hd, f7⟩
  · simp only [StringStream.parse, p2, ok_bind, htk, hw, pure_M]
  · simp only [StringStream.alphabet, hal, ok_bind, pure_M]
  · intro p hp
    obtain ⟨v, hv', rfl⟩ := List.mem_map.1 hp
    refine ⟨decode_ne_nil t1 hA hne (hmem v (hv v hv')).1 fun c hc => ?_, List.mem_map.2 ⟨v, hv v hv', rfl⟩⟩
    rw [hst]
    exact (hmem v (hv v hv')).2 c hc
  · rw [← decode_flatten, v2, t2, code_filter hA (by rw [hst]; exact fun c => Iff.rfl),
      t1.decode_map fun x hx => hA x (of_decide_eq_true (List.mem_filter.1 hx).2)]

/-- No token is accepted for the first time after a text with a token not accepted before was parsed; `A` are the tokens accepted so far, `u` says whether such
a text was parsed. -/
def KnownFirst (k : TokKind) : Bool → List Str → List TextCall → Prop
  | _, _, [] => True
  | u, A, .accept s :: cs => (u = true → ∀ x ∈ tokensOf k s, x ∈ A) ∧ KnownFirst k u (A ++ tokensOf k s) cs
  | u, A, .parse s :: cs => KnownFirst k (u || (tokensOf k s).any fun x => decide (x ∉ A)) A cs
  | u, A, .update :: cs => KnownFirst k u A cs

theorem textRun_inv {E : Env F} (L : EnvLaws E) (SL : ScoreLaws E.ops) {k : TokKind} {calls : List TextCall} {r r' : Bool} (h : TextLegal r calls r') :
    ∀ {m : StringStream F} {A T : List Str}, TStreamInv m k A T → (r = true → m.stream.dict ≠ .null) →
      ((seen (A ++ acceptedTokens k calls)).length : Int) ≤ m.stream.builder.size + 1 →
      ∃ m' T', textRun E .rhsFirst m calls = .ok m' ∧ TStreamInv m' k (A ++ acceptedTokens k calls) T' ∧ (r' = true → m'.stream.dict ≠ .null) ∧
        ∀ u, KnownFirst k u A calls → seen A <+: seen T → (u = false → seen T = seen A) → seen (A ++ acceptedTokens k calls) <+: seen T' := by
  induction h with
  | nil =>
    intro m A T h hd _
    exact ⟨m, T, rfl, by simpa [acceptedTokens] using h, hd, fun _ _ e _ => by simpa [acceptedTokens] using e⟩
  | @accept r r' s cs hl ih =>
    intro m A T h hd hcap
    simp only [acceptedTokens] at hcap ⊢
    rw [← List.append_assoc] at hcap ⊢
    obtain ⟨t1, t2⟩ := transform_codes h.tok s
    rw [h.kind] at t1 t2
    have hcodes : A.map (code T) ++ (m.tok.transform .rhsFirst s).2 = (A ++ tokensOf k s).map (code (T ++ tokensOf k s)) := by
      rw [t2, List.map_append, codes_append h.sub]
    have hs := seen_map_length (code (T ++ tokensOf k s)) (A ++ tokensOf k s)
    obtain ⟨st, a1, a2, a3⟩ := h.inv.accept L SL (m.tok.transform .rhsFirst s).2 (by
      rw [hcodes]
      have := (seen_append_prefix (A ++ tokensOf k s) (acceptedTokens k cs)).length_le
      omega)
    rw [hcodes] at a2
    obtain ⟨m2, T2, b1, b2, b3, b4⟩ := ih (m := { m with tok := (m.tok.transform .rhsFirst s).1, stream := st }) (A := A ++ tokensOf k s) (T := T ++ tokensOf k s)
      ⟨by simp [h.kind], t1, fun x hx => by
        rcases List.mem_append.1 hx with hx | hx
        · exact List.mem_append_left _ (h.sub x hx)
        · exact List.mem_append_right _ hx, ne_append h.ne s, a2⟩ (by rw [a3.dict]; exact hd) (by rw [a3.bsize]; exact hcap)
    exact ⟨m2, T2, by simp only [textRun, textCall, StringStream.accept, a1, ok_bind, pure_M, b1], b2, b3, fun u hk e eu => by
      cases u with
      | false => exact b4 false hk.2 (by rw [seen_append_congr (eu rfl)]) fun _ => seen_append_congr (eu rfl) _
      | true =>
        refine b4 true hk.2 ?_ fun h => by cases h
        rw [seen_append_sub (hk.1 rfl), seen_append_sub fun x hx => h.sub x (hk.1 rfl x hx)]
        exact e⟩
  | @parse r' s cs hl ih =>
    intro m A T h hd hcap
    obtain ⟨m1, ws, pieces, p1, _, _, _, p2, p3, p4⟩ := h.parse SL (hd rfl) s
    obtain ⟨m2, T2, b1, b2, b3, b4⟩ := ih p2 (fun _ => p3) (by rw [p4]; exact hcap)
    exact ⟨m2, T2, by simp only [textRun, textCall, p1, ok_bind, pure_M, b1], b2, b3, fun u hk e eu =>
      b4 _ hk (e.trans (seen_append_prefix _ _)) fun hu => by
        rw [Bool.or_eq_false_iff, List.any_eq_false] at hu
        rw [seen_append_sub fun x hx => h.sub x (by simpa using hu.2 x hx), eu hu.1]⟩
  | @update r r' cs hl ih =>
    intro m A T h hd hcap
    obtain ⟨st, u1, u2, u3, u4, _⟩ := h.inv.updateDict (O := E.ops)
    obtain ⟨m2, T2, b1, b2, b3, b4⟩ := ih (m := { m with stream := st }) ⟨h.kind, h.tok, h.sub, h.ne, u2⟩ (by simp [u3]) (by rw [u4]; exact hcap)
    exact ⟨m2, T2, by simp only [textRun, textCall, StringStream.updateDict, u1, ok_bind, pure_M, b1], b2, b3, b4⟩

/-- **C50 (partial)**, parse: whatever the options, after any history of `accept`, `parse`, `update_dict` calls whose tokens fit
into the model and that has published a dictionary, `parse` of any text succeeds.  The strings are nonempty members of
`alphabet()` (as it is after the call) and their concatenation is the concatenation of those tokens of the normalised text that
were accepted before.  Missing: the other evaluation order (`C50_lhs_first_false`). -/
theorem C50_parse_lossless_partial (E : Env F) (L : EnvLaws E) (SL : ScoreLaws E.ops) (size : Int) (hsize : 1 ≤ size) (split words : Bool)
    (m0 : StringStream F) (h0 : StringStream.new E.ops size split words = .ok m0) (calls : List TextCall) (hl : TextLegal false calls true)
    (k : TokKind) (hk : k = if words then .word else .char) (hcap : ((seen (acceptedTokens k calls)).length : Int) ≤ size) (s : Str) :
    ∃ m m' ws pieces, textRun E .rhsFirst m0 calls = .ok m ∧ m.parse E.ops .rhsFirst s = .ok (m', pieces) ∧ m'.alphabet = .ok ws ∧
      (∀ p ∈ pieces, p ≠ [] ∧ p ∈ ws) ∧
      pieces.flatten = ((tokensOf k s).filter fun x => decide (x ∈ acceptedTokens k calls)).flatten ∧
      ((∀ x ∈ tokensOf k s, x ∈ acceptedTokens k calls) → pieces.flatten = (tokensOf k s).flatten) := by
  have e0 : m0 = ⟨Stream.new E.ops size, Tokenizer.new k, words, split⟩ := by
    subst hk
    simp only [StringStream.new] at h0
    split at h0
    · cases h0
    · cases h0; rfl
  obtain ⟨i1, i2, i3⟩ := (SStart.fresh (O := E.ops) hsize).inv
  have hi : TStreamInv m0 k [] [] := by
    rw [e0]
    exact ⟨rfl, TokInv.new _ _, by simp, by simp, i1⟩
  obtain ⟨m, T, r1, r2, r3, _⟩ := textRun_inv L SL hl hi (by simp) (by
    rw [e0]
    simp only [List.nil_append]
    omega)
  rw [List.nil_append] at r2
  obtain ⟨m', ws, pieces, p1, p2, p3, p4, _⟩ := r2.parse SL (r3 rfl) s
  refine ⟨m, m', ws, pieces, r1, p1, p2, p3, p4, fun hall => ?_⟩
  rw [p4, List.filter_eq_self.2 fun x hx => decide_eq_true (hall x hx)]

/-- For characters the concatenation is the normalised text. -/
theorem C50_char_tokens (s : Str) : (tokensOf .char s).flatten = Tokenizer.normalize .char s := tokenize_char_flatten _

/-- Two accepted texts, a published dictionary, an unknown word. -/
example : (do
    let m0 ← StringStream.new quickEnv.ops 4 false true
    let m ← textRun quickEnv .rhsFirst m0 [.accept "to be".toList, .accept "to be to".toList, .accept "be to".toList, .update, .parse "or not".toList]
    let (m', ps) ← m.parse quickEnv.ops .rhsFirst "be or to be".toList
    let ws ← m'.alphabet
    pure (ps, ws) : M (List Str × List Str)) = .ok (["be".toList, "tobe".toList], ["to".toList, "tobe".toList, "be".toList]) := by decide +kernel

/-- **C50 is false** for the other evaluation order: `ab` is parsed to `b`. -/
theorem C50_lhs_first_false : (do
    let m0 ← StringStream.new quickEnv.ops 4 false false
    let m ← textRun quickEnv .lhsFirst m0 [.accept "ab".toList, .update]
    let (_, ps) ← m.parse quickEnv.ops .lhsFirst "ab".toList
    pure ps : M (List Str)) = .ok ["b".toList] := by decide +kernel

end VGram.Props
