import Verif.Props.Builder
import Verif.Props.Tokenizer
import Verif.Proofs.Persist
import Verif.Props.Text

/-!
# Saving and loading (C36, C51-C55)
-/

namespace VGram.Props

open VGram Spec

/-- A character-level stream model is trained on `a`, parses `b` (which gives the tokenizer a code for
`b` but the dictionary no word), is trained on `c`, saved and loaded; the loaded model parses `d`, then `c`. -/
def collisionRun : M (AMap Str Int × List Str × AMap Str Int × List Str) := do
  let O := quickEnv.ops
  let m ← StringStream.new O 10 false false
  let m ← m.accept quickEnv .rhsFirst ['a']
  let m ← m.updateDict O
  let (m, _) ← m.parse O .rhsFirst ['b']
  let m ← m.accept quickEnv .rhsFirst ['c']
  let m ← m.updateDict O
  let j ← Saver.saveStringStream O m
  let l ← Loader.loadStringStream O j
  let (_, before) ← l.parse O .rhsFirst ['c']
  let (l', _) ← l.parse O .rhsFirst ['d']
  let (_, out) ← l'.parse O .rhsFirst ['c']
  pure (l.tok.forward, before, l'.tok.forward, out)

set_option synthInstance.maxSize 2000 in
/-- **C36 is false.** The restored tokenizer gives the new token `d` the code of `c`; from then on the
text `c` is printed as `d`. -/
theorem C36_collision_false :
    collisionRun = .ok ([(['a'], 0), (['c'], 2)], [['c']], [(['a'], 0), (['c'], 2), (['d'], 2)], [['d']]) := by decide +kernel

variable {F : Type}

/-! ## C51 -/

/-- A client's conversation: for every sequence the returned ids and the alphabet after the call. -/
def talk (O : FloatOps F) (m : Stream F) : List IntSeq → M (List (List Int × List IntSeq))
  | [] => .ok []
  | seq :: seqs => do
    let (m', ids) ← m.parse O seq
    let ws ← m'.alphabet
    let rest ← talk O m' seqs
    pure ((ids, ws) :: rest)

theorem Restored.talk {O : FloatOps F} : ∀ (seqs : List IntSeq) {m m' : Stream F}, Restored m m' → talk O m' seqs = talk O m seqs := by
  intro seqs
  induction seqs with
  | nil => intro m m' _; rfl
  | cons seq seqs ih =>
    intro m m' h
    simp only [Props.talk]
    rcases h.parse (O := O) seq with ⟨e, h1, h2⟩ | ⟨m1, m1', ids, h1, h2, h3⟩
    · rw [h1, h2]
    · rw [h1, h2]
      simp only [ok_bind, h3.alphabet, ih h3]

theorem talk_ok {O : FloatOps F} (SL : ScoreLaws O) : ∀ (seqs : List IntSeq) {m : Stream F} {hist : List Int}, StreamInv m hist →
    m.dict ≠ .null → ∃ r, talk O m seqs = .ok r := by
  intro seqs
  induction seqs with
  | nil => intro m hist _ _; exact ⟨[], rfl⟩
  | cons seq seqs ih =>
    intro m hist h hd
    obtain ⟨d, d', ids, p1, p2, p3, p4, p5, _⟩ := h.parse SL hd seq
    obtain ⟨r, hr⟩ := ih p5 (by rw [(m.setDict_frame d').1]; exact hd)
    exact ⟨(ids, decodeWords hist d'.seqs) :: r, by simp only [talk, p2, ok_bind, p5.alphabet (Stream.getDict_setDict p1 d') p4, hr, pure_M]⟩

theorem run_total {E : Env F} : ∀ {calls : List Call} {m m' : Stream F}, m.totalFreqs = sumI m.freqs → run E m calls = .ok m' →
    m'.totalFreqs = sumI m'.freqs := by
  intro calls
  induction calls with
  | nil => intro m m' h hr; cases hr; exact h
  | cons c cs ih =>
    intro m m' h hr
    simp only [run] at hr
    obtain ⟨m1, h1, hr⟩ := bind_ok.1 hr
    refine ih ?_ hr
    cases c with
    | accept seq =>
      obtain ⟨_, a2, a3, _⟩ := accept_dict (E := E) h1
      rw [a2, a3, h]
    | parse seq =>
      simp only [call, Stream.parse] at h1
      obtain ⟨⟨m2, ids⟩, h2, h1⟩ := bind_ok.1 h1
      obtain ⟨_, _, h2⟩ := bind_ok.1 h2
      obtain ⟨d, _, h2⟩ := bind_ok.1 h2
      obtain ⟨⟨d', r⟩, _, h2⟩ := bind_ok.1 h2
      cases h1
      cases h2
      obtain ⟨_, _, f3, f4, _⟩ := m.setDict_frame d'
      rw [f3, f4, h]
    | update =>
      simp only [call, Stream.updateDict] at h1
      split at h1
      · cases h1; exact h
      · obtain ⟨_, _, h1⟩ := bind_ok.1 h1
        obtain ⟨_, _, h1⟩ := bind_ok.1 h1
        cases h1
        rfl

theorem SStart.sum {O : FloatOps F} {m : Stream F} {vals : List Int} {r : Bool} {cap : Int} (h : SStart O m vals r cap) :
    m.totalFreqs = sumI m.freqs := by
  cases h with
  | fresh => rfl
  | loaded h1 h2 h3 h4 =>
    simp only [Stream.ofSaved] at h4
    obtain ⟨d, hd, h4⟩ := bind_ok.1 h4
    obtain ⟨b, hb, h4⟩ := bind_ok.1 h4
    cases h4
    rfl

/-- C51: take any admissible history that published a dictionary.  If the words of the dictionary are
strictly sorted, there is one frequency per word and the probability is a finite number, then saving and
loading succeed; the loaded model has the same alphabet, frequencies, size, probability and coder, and
answers every list of `parse` calls with the same ids, the alphabets staying equal as well.
Missing: models with more frequencies than words, see `C51_surplus_false`. -/
theorem C51_load_save_partial (E : Env F) (L : EnvLaws E) (SL : ScoreLaws E.ops) (m0 : Stream F) (vals : List Int) (calls : List Call)
    (h : Admissible E.ops m0 vals calls true) : ∃ m d ws mp, run E m0 calls = .ok m ∧ m.getDict = .ok d ∧ m.alphabet = .ok ws ∧
      m.minProb = some mp ∧
      (d.seqs.Pairwise (· < ·) → m.freqs.length = ws.length → E.ops.isFinite mp = true →
        ∃ j m', Saver.saveStream E.ops m = .ok j ∧ Loader.loadStream E.ops j = .ok m' ∧ m'.alphabet = .ok ws ∧ m'.freqs = m.freqs ∧
          m'.size = m.size ∧ m'.minProb = some mp ∧ m'.coder.codeMap = m.coder.codeMap ∧ (∀ w, m'.coder.decode w = m.coder.decode w) ∧
          ∀ seqs, ∃ r, talk E.ops m seqs = .ok r ∧ talk E.ops m' seqs = .ok r) := by
  obtain ⟨m, r1, inv, hd, _⟩ := h.inv L SL
  obtain ⟨d, d1, d2⟩ := inv.getDict (hd rfl)
  obtain ⟨mp, hmp⟩ := inv.prob (hd rfl)
  have hl : (decodeWords (vals ++ accepted calls) d.seqs).length = d.seqs.length := by simp [decodeWords]
  refine ⟨m, d, _, mp, r1, d1, inv.alphabet d1 d2, hmp, fun hs hf hfin => ?_⟩
  rw [hl] at hf
  obtain ⟨j, m', k1, k2, k3, k4, k5, k6, k7, k8, k9⟩ := load_saved E.ops inv.coder d1 (d2.sorted hs) hmp hfin (by omega)
  rw [← hf, List.take_length] at k5 k6
  obtain ⟨r0, cap, s1, _, _⟩ := h.start
  have hr : Restored m m' := ⟨⟨d, d1, k3⟩, ⟨_, inv.coder, k4⟩, k5, by rw [k6, run_total s1.sum r1], alpha_ok inv.tinv, k9⟩
  refine ⟨j, m', k1, k2, hr.alphabet.trans (inv.alphabet d1 d2), k5, k7, k8, ?_, fun w => ?_, fun seqs => ?_⟩
  · rw [SeqCoder.codeMap, SeqCoder.codeMap, k4.entries, inv.coder.entries]
  · rw [k4.decode, inv.coder.decode]
  · obtain ⟨r, hr'⟩ := talk_ok SL seqs inv (hd rfl)
    exact ⟨r, hr', (Restored.talk seqs hr).trans hr'⟩

/-- The model is not changed by a `Total` parse, has one frequency per word and the total is their sum. -/
structure Kept (m : Stream F) : Prop where
  len : ∀ d, m.getDict = .ok d → m.freqs.length = d.seqs.length
  sum : m.totalFreqs = sumI m.freqs

theorem fit_kept {E : Env F} (L : EnvLaws E) (SL : ScoreLaws E.ops) {size iter : Int} {σ : IntVGram.Sched} {seqs : List IntSeq} {m : IntVGram F} (h1 : 1 ≤ size)
    (h2 : 1 ≤ iter) (hcap : ((seen seqs.flatten).length : Int) ≤ size) (hσ : ∀ j, j < iter.toNat * seqs.length + seqs.length → σ.term j = false)
    (hf : (IntVGram.new E.ops size iter).fit E σ seqs = .ok (m, true)) : Kept m.toStream := by
  obtain ⟨s, ws, hr, ha, hiff, _⟩ := C46_fit_iff_covered E L SL size iter h1 h2 σ seqs hcap hσ
  obtain ⟨s', ws', hr', ha', hk⟩ := C46_recomputed_freqs E L SL size iter h1 h2 σ seqs hcap hσ
  rw [hr] at hr'
  cases hr'
  rw [ha] at ha'
  cases ha'
  obtain ⟨m2, b, prior, outs, q1, q2, _, _, _, q3, _, q4, _⟩ := hk (hiff.1 ⟨m, hf⟩)
  rw [hf] at q1
  cases q1
  refine ⟨fun d hd => ?_, by rw [sumI_eq]; exact q4⟩
  rw [q3]
  obtain ⟨hist, ht, _⟩ := (Ready.fit h1 h2 hcap hσ hf).total L SL
  obtain ⟨d', e1, e2, e3, e4, e5⟩ := ht.words
  rw [hd] at e1
  cases e1
  rw [q2] at e5
  cases e5
  simp [decodeWords]

/-- C51 for fitted models: what `IntVGram::save` writes after a successful `fit` loads as a stream model that answers
every list of `parse` calls like the fitted model. -/
theorem C51_fitted (E : Env F) (L : EnvLaws E) (SL : ScoreLaws E.ops) (size iter : Int) (h1 : 1 ≤ size) (h2 : 1 ≤ iter) (σ : IntVGram.Sched)
    (seqs : List IntSeq) (m : IntVGram F) (hcap : ((seen seqs.flatten).length : Int) ≤ size)
    (hσ : ∀ j, j < iter.toNat * seqs.length + seqs.length → σ.term j = false) (hf : (IntVGram.new E.ops size iter).fit E σ seqs = .ok (m, true)) :
    ∃ ws mp, m.alphabet = .ok ws ∧ m.minProb = some mp ∧ (E.ops.isFinite mp = true →
      ∃ j m', Saver.saveIntVGram E.ops m = .ok j ∧ Loader.loadStream E.ops j = .ok m' ∧ m'.alphabet = .ok ws ∧ m'.freqs = m.freqs ∧
        m'.size = m.size ∧ m'.coder.codeMap = m.coder.codeMap ∧
        ∀ seqs, ∃ r, talk E.ops m.toStream seqs = .ok r ∧ talk E.ops m' seqs = .ok r) := by
  obtain ⟨hist, ht, _⟩ := (Ready.fit h1 h2 hcap hσ hf).total L SL
  have hk := fit_kept L SL h1 h2 hcap hσ hf
  obtain ⟨d, d1, d2, d3, d4, d5⟩ := ht.words
  obtain ⟨mp, hmp⟩ := ht.inv.prob ht.dict
  refine ⟨_, mp, d5, hmp, fun hfin => ?_⟩
  have hl := hk.len d d1
  obtain ⟨j, m', k1, k2, k3, k4, k5, k6, k7, k8, k9⟩ := load_saved E.ops ht.inv.coder d1 d3 hmp hfin (by omega)
  rw [← hl, List.take_length] at k5 k6
  have hr : Restored m.toStream m' := ⟨⟨d, d1, k3⟩, ⟨_, ht.inv.coder, k4⟩, k5, by rw [k6, hk.sum], alpha_ok ht.inv.tinv, k9⟩
  refine ⟨j, m', k1, k2, hr.alphabet.trans d5, k5, k7, ?_, fun seqs => ?_⟩
  · rw [SeqCoder.codeMap, SeqCoder.codeMap, k4.entries, ht.inv.coder.entries]
  · obtain ⟨r, hr'⟩ := talk_ok SL seqs ht.inv ht.dict
    exact ⟨r, hr', (Restored.talk seqs hr).trans hr'⟩

/-- A probability that is not a finite number is written as `null`; the file cannot be loaded. -/
theorem C51_not_finite_false (O : FloatOps F) (m : Stream F) (vals : List Int) (d : IntDict) (mp : F) (hc : CInv m.coder vals)
    (hd : m.getDict = .ok d) (hmp : m.minProb = some mp) (hl : d.seqs.length ≤ m.freqs.length) (hf : O.isFinite mp = false) :
    ∃ j, Saver.saveStream O m = .ok j ∧ Loader.loadStream O j = .error .jsonType := by
  refine ⟨_, saveStream_eq O hc hd hmp hl, ?_⟩
  have e1 : (Json.obj (savedJson O m vals d mp)).field Json.kSize = .ok (.int m.size) := rfl
  have e2 : (Json.obj (savedJson O m vals d mp)).field Json.kMinProb = .ok .null := by
    have : (Json.obj (savedJson O m vals d mp)).field Json.kMinProb = .ok (Json.ofNum O mp) := rfl
    rw [this, Json.ofNum, hf]
    rfl
  simp only [Loader.loadStream, Loader.readDict, e1, e2, ok_bind, Json.getInt]
  rfl

/-! ## C52 -/

theorem TextModel.kept {E : Env F} (L : EnvLaws E) (SL : ScoreLaws E.ops) {k : TokKind} {m : StringVGram F} {A : List Str} (h : TextModel E k m A) :
    Kept m.int.toStream := by
  induction h with
  | @fit size iter σ train m h1 h2 hcap hσ hf =>
    obtain ⟨seqs, hi, hcap', hl, _⟩ := textFit_int L SL h1 h2 hcap hσ hf
    exact fit_kept L SL h1 h2 hcap' (by rw [hl]; exact hσ) hi
  | @transform m m' A σ texts outs h ht ih =>
    obtain ⟨T, hist, hi⟩ := h.inv L SL
    obtain ⟨n, m2, ws, outs2, q1, _, _, _, q2, _⟩ := hi.transform SL σ texts
    rw [ht] at q1
    cases q1
    rw [q2]
    exact ih

/-- A conversation with a text model: one `transform` call per batch of texts, each with its own interruption schedule. -/
def textTalk (O : FloatOps F) (m : StringVGram F) : List (IntVGram.Sched × List Str) → M (List (List Str))
  | [] => .ok []
  | (σ, texts) :: rest => do
    let (m', outs) ← m.transform O .rhsFirst σ texts
    let more ← textTalk O m' rest
    pure (outs :: more)

/-- A text model and its restored copy. -/
structure TextPair (m m' : StringVGram F) (A T T' : List Str) (hist hist' : List Int) : Prop where
  left : TextInv m .char A T hist
  right : TextInv m' .char A T' hist'
  same : Restored m.int.toStream m'.int.toStream

theorem TextInv.imm {m : StringVGram F} {k : TokKind} {A T : List Str} {hist : List Int} (h : TextInv m k A T hist) (T' toks : List Str) :
    m.int.coder.encodeImm (toks.map (code (T ++ T'))) = m.int.coder.encodeImm ((toks.filter fun x => decide (x ∈ A)).map (code A)) := by
  obtain ⟨R, hR⟩ := h.pre
  have hA : ∀ x ∈ A, x ∈ T ++ T' := fun x hx => List.mem_append_left _ (h.sub x hx)
  have hh : ∀ c, c ∈ seen hist ↔ c ∈ A.map (code (T ++ T')) := fun c => by
    rw [seen_mem, h.hist, codes_append h.sub]
  rw [h.total.inv.coder.imm, h.total.inv.coder.imm, code_filter hA hh]
  have he : (toks.filter fun x => decide (x ∈ A)).map (code (T ++ T')) = (toks.filter fun x => decide (x ∈ A)).map (code A) := by
    rw [← hR, List.append_assoc]
    exact codes_append (fun x hx => of_decide_eq_true (List.mem_filter.1 hx).2) _
  rw [he]
  congr 1
  symm
  rw [List.filter_eq_self]
  intro c hc
  rw [← he] at hc
  obtain ⟨x, hx, rfl⟩ := List.mem_map.1 hc
  exact decide_eq_true ((hh _).2 (List.mem_map.2 ⟨x, of_decide_eq_true (List.mem_filter.1 hx).2, rfl⟩))

theorem joinWords_congr {t t' : Tokenizer} {ws : List IntSeq} (h : ∀ w ∈ ws, t'.decode w = t.decode w) : ∀ (ids : List Int) (acc : Str),
    StringVGram.joinWords t' ws ids acc = StringVGram.joinWords t ws ids acc := by
  intro ids
  induction ids with
  | nil => intro acc; rfl
  | cons i ids ih =>
    intro acc
    simp only [StringVGram.joinWords]
    cases hr : rd ws i with
    | error e => rfl
    | ok w =>
      obtain ⟨n, _, hn⟩ := rd_ok.1 hr
      simp only [ok_bind, h w (List.mem_of_getElem? hn), ih]

theorem joinAll_congr {t t' : Tokenizer} {ws : List IntSeq} (h : ∀ w ∈ ws, t'.decode w = t.decode w) (outs : List (List Int)) :
    StringVGram.joinAll t' ws outs = StringVGram.joinAll t ws outs := by
  induction outs with
  | nil => rfl
  | cons o os ih => simp only [StringVGram.joinAll, joinWords_congr h, ih]

/-- Decoding words of the alphabet does not depend on later tokens. -/
theorem TextInv.decode {m : StringVGram F} {k : TokKind} {A T : List Str} {hist : List Int} (h : TextInv m k A T hist) {w : IntSeq} (hw : ∀ c ∈ w, c ∈ hist) :
    ∃ toks : List Str, (∀ x ∈ toks, x ∈ A) ∧ w = toks.map (code A) ∧ m.tok.decode w = toks.flatten := by
  obtain ⟨R, hR⟩ := h.pre
  obtain ⟨toks, h1, h2⟩ := codes_of fun c hc => (h.hist c).1 (hw c hc)
  have e : toks.map (code T) = toks.map (code A) := by rw [← hR]; exact codes_append h1 R
  exact ⟨toks, h1, h2.trans e, by rw [h2, h.tok.decode_map fun x hx => h.sub x (h1 x hx)]⟩

theorem TextPair.decode {m m' : StringVGram F} {A T T' : List Str} {hist hist' : List Int} (h : TextPair m m' A T T' hist hist') {ws : List IntSeq}
    (hw : m.int.alphabet = .ok ws) : ∀ w ∈ ws, m'.tok.decode w = m.tok.decode w := by
  intro w hm
  obtain ⟨toks, t1, t2, t3⟩ := h.left.decode (h.left.total.inv.alphabet_mem hw w hm).2
  obtain ⟨toks', t1', t2', t3'⟩ := h.right.decode (h.right.total.inv.alphabet_mem (h.same.alphabet.trans hw) w hm).2
  have : toks = toks' := by
    rw [t2] at t2'
    revert t1 t1' t2'
    clear t2 t3 t3' hm
    induction toks generalizing toks' with
    | nil => intro _ _ e; simpa using e
    | cons x xs ih =>
      intro h1 h2 e
      cases toks' with
      | nil => simp at e
      | cons y ys =>
        simp only [List.map_cons, List.cons.injEq] at e
        rw [code_inj (h1 x (by simp)) e.1, ih ys (fun z hz => h1 z (by simp [hz])) (fun z hz => h2 z (by simp [hz])) e.2]
  rw [t3, t3', this]

theorem TextPair.transform {E : Env F} (SL : ScoreLaws E.ops) {m m' : StringVGram F} {A T T' : List Str} {hist hist' : List Int}
    (h : TextPair m m' A T T' hist hist') (σ : IntVGram.Sched) (texts : List Str) :
    ∃ m1 m1' outs T1 T1', m.transform E.ops .rhsFirst σ texts = .ok (m1, outs) ∧ m'.transform E.ops .rhsFirst σ texts = .ok (m1', outs) ∧
      TextPair m1 m1' A T1 T1' hist hist' := by
  obtain ⟨n, m1, ws, outs, q1, q2, q3, q4, q5, _⟩ := h.left.transform SL σ texts
  obtain ⟨n', m1', ws', outs', q1', q2', q3', q4', q5', _⟩ := h.right.transform SL σ texts
  have hp : TextPair m1 m1' A _ _ hist hist' := ⟨q4, q4', by rw [q5, q5']; exact h.same⟩
  refine ⟨m1, m1', outs, _, _, q1, ?_, hp⟩
  have hi := q5
  have hi' := q5'
  obtain ⟨t1, t2, t3⟩ := transformAll_codes (texts := texts) h.left.tok
  obtain ⟨t1', t2', t3'⟩ := transformAll_codes (texts := texts) h.right.tok
  rw [h.left.kind] at t3
  rw [h.right.kind] at t3'
  have hcodes : List.Forall₂ (fun seq seq' => m'.int.coder.encodeImm seq' = m.int.coder.encodeImm seq) (m.tok.transformAll .rhsFirst texts).2
      (m'.tok.transformAll .rhsFirst texts).2 := by
    rw [t3, t3', List.forall₂_map_left_iff, List.forall₂_map_right_iff]
    exact List.forall₂_same.2 fun s _ => by rw [h.left.imm, h.right.imm, h.same.imm]
  obtain ⟨d, d1, d2, d3, d4, d5⟩ := h.left.total.words
  have d5' := h.same.alphabet.trans d5
  rcases h.same.transformLoop (O := E.ops) σ 0 hcodes with ⟨e, e1, e2⟩ | ⟨s, s', ids, t, p1, p2, p3⟩
  · simp only [StringVGram.transform, IntVGram.transform, e1] at q1
    cases q1
  · simp only [StringVGram.transform, IntVGram.transform, p1, ok_bind, pure_M] at q1
    simp only [StringVGram.transform, IntVGram.transform, p2, ok_bind, pure_M] at q1' ⊢
    obtain ⟨al, a1, q1⟩ := bind_ok.1 q1
    obtain ⟨ss, a2, q1⟩ := bind_ok.1 q1
    obtain ⟨al', a1', q1'⟩ := bind_ok.1 q1'
    obtain ⟨ss', a2', q1'⟩ := bind_ok.1 q1'
    cases q1
    cases q1'
    have hal : al' = al := by
      have := p3.alphabet.symm.trans a1'
      rw [show s.alphabet = .ok al from a1] at this
      cases this
      rfl
    subst hal
    have := joinAll_congr (hp.decode (ws := al') a1) ids
    rw [show StringVGram.joinAll _ al' ids = .ok _ from a2', a2] at this
    cases this
    simp only [a1', ok_bind, a2']

theorem TextPair.talk {E : Env F} (SL : ScoreLaws E.ops) : ∀ (batches : List (IntVGram.Sched × List Str)) {m m' : StringVGram F} {A T T' : List Str}
    {hist hist' : List Int}, TextPair m m' A T T' hist hist' → ∃ r, textTalk E.ops m batches = .ok r ∧ textTalk E.ops m' batches = .ok r := by
  intro batches
  induction batches with
  | nil => intro m m' A T T' hist hist' _; exact ⟨[], rfl, rfl⟩
  | cons b bs ih =>
    intro m m' A T T' hist hist' h
    obtain ⟨σ, texts⟩ := b
    obtain ⟨m1, m1', outs, T1, T1', h1, h2, h3⟩ := h.transform SL σ texts
    obtain ⟨r, r1, r2⟩ := ih h3
    exact ⟨outs :: r, by simp only [textTalk, h1, ok_bind, r1, pure_M], by simp only [textTalk, h2, ok_bind, r2, pure_M]⟩

/-- What saving a text model writes. -/
def textJson (O : FloatOps F) (m : StringVGram F) (vals : List Int) (d : IntDict) (mp : F) : List (Str × Json F) :=
  [(Json.kAlphabet, .ofPushed (textEntries (fun w => m.tok.decode (deco vals w)) d.seqs m.int.freqs)), (Json.kCoder, .ofPushed (vals.map .int)),
    (Json.kFitted, .bool m.int.fitted), (Json.kFreqsComputed, .bool m.int.freqsComputed), (Json.kMinProb, Json.ofNum O mp), (Json.kSize, .int m.int.size)]

theorem saveText_eq (O : FloatOps F) {m : StringVGram F} {vals : List Int} {d : IntDict} {mp : F} (hc : CInv m.int.coder vals)
    (hd : m.int.toStream.getDict = .ok d) (hmp : m.int.minProb = some mp) (hl : d.seqs.length ≤ m.int.freqs.length)
    (hw : ∀ w ∈ d.seqs, ∀ x ∈ w, 0 ≤ x ∧ x < (vals.length : Int)) :
    Saver.saveStringVGram O m = .ok (.obj (textJson O m vals d mp)) := by
  simp only [Saver.saveStringVGram, Saver.baseInfo, hmp, pure_M, ok_bind, hd]
  rw [alphabetLoop_text hc _ _ _ 0 hw (by omega), coderJson_eq hc]
  rfl

theorem loadText_eq (O : FloatOps F) {m : StringVGram F} {vals : List Int} {d : IntDict} {mp : F} (hn : vals.Nodup) (hs : Sorted d)
    (hf : O.isFinite mp = true) (hl : d.seqs.length ≤ m.int.freqs.length) (hw : ∀ w ∈ d.seqs, ∀ x ∈ w, 0 ≤ x ∧ x < (vals.length : Int)) :
    ∃ m', Loader.loadStringVGram O (.obj (textJson O m vals d mp)) = .ok m' ∧
      IntVGram.ofSaved O (SeqCoder.new.encode vals).1 (m.int.freqs.take d.seqs.length) d.seqs m.int.size mp m.int.fitted m.int.freqsComputed = .ok m'.int ∧
      m'.tok = Tokenizer.ofMap .char ((singles (fun w => m.tok.decode (deco vals w)) vals d.seqs).foldl (fun m p => AMap.set m p.1 p.2) []) := by
  have e1 : (Json.obj (textJson O m vals d mp)).field Json.kSize = .ok (.int m.int.size) := rfl
  have e2 : (Json.obj (textJson O m vals d mp)).field Json.kMinProb = .ok (.num mp) := by
    have : (Json.obj (textJson O m vals d mp)).field Json.kMinProb = .ok (Json.ofNum O mp) := rfl
    rw [this, Json.ofNum, if_pos hf]
  have e3 : (Json.obj (textJson O m vals d mp)).field Json.kCoder = .ok (.ofPushed (vals.map .int)) := rfl
  have e4 : (Json.obj (textJson O m vals d mp)).field Json.kAlphabet =
    .ok (.ofPushed (textEntries (fun w => m.tok.decode (deco vals w)) d.seqs m.int.freqs)) := rfl
  have e5 : (Json.obj (textJson O m vals d mp)).field Json.kFitted = .ok (.bool m.int.fitted) := rfl
  have e6 : (Json.obj (textJson O m vals d mp)).field Json.kFreqsComputed = .ok (.bool m.int.freqsComputed) := rfl
  obtain ⟨s, s1, s2, s3, _⟩ := ofSaved_spec O hs (SeqCoder.new.encode vals).1 (m.int.freqs.take d.seqs.length) m.int.size mp
  have hi : IntVGram.ofSaved O (SeqCoder.new.encode vals).1 (m.int.freqs.take d.seqs.length) d.seqs m.int.size mp m.int.fitted m.int.freqsComputed =
      .ok { s with iterNum := 0, fitted := m.int.fitted, freqsComputed := m.int.freqsComputed } := by
    simp only [IntVGram.ofSaved, s1, ok_bind, pure_M]
  refine ⟨⟨_, _⟩, ?_, hi, rfl⟩
  simp only [Loader.loadStringVGram, Loader.loadIntVGram, Loader.readDict, e1, e2, e3, e4, e5, e6, ok_bind, Json.getInt, Json.getNum, Json.getBool,
    elems_ofPushed, readCoder_ints, readAlphabet_text O _ _ _ hl, pure_M, hi, Loader.loadTokenizer]
  rw [tokenizerLoop_text O (show CInv s.coder vals from s3 ▸ coder_loaded hn) _ _ _ [] hw hl]
  rfl

/-- Saving and loading a character-level text model gives a pair of models. -/
theorem TextInv.reload {O : FloatOps F} {m : StringVGram F} {A T : List Str} {hist : List Int} {mp : F} (h : TextInv m .char A T hist)
    (hk : Kept m.int.toStream) (hmp : m.int.minProb = some mp) (hfin : O.isFinite mp = true) :
    ∃ j m', Saver.saveStringVGram O m = .ok j ∧ Loader.loadStringVGram O j = .ok m' ∧ TextPair m m' A T A hist (seen hist) ∧
      m'.int.freqs = m.int.freqs ∧ m'.int.size = m.int.size ∧ m'.int.fitted = m.int.fitted ∧ m'.int.freqsComputed = m.int.freqsComputed := by
  obtain ⟨d, d1, d2, d3, d4, d5⟩ := h.total.words
  have hl := hk.len d d1
  have hn := seen_nodup hist
  have hnd : d.seqs.Nodup := d3.sorted.imp fun h => ne_of_lt h
  obtain ⟨m', l1, l2, l3⟩ := loadText_eq O (m := m) hn d3 hfin (by omega) d2.symbols
  refine ⟨_, m', saveText_eq O h.total.inv.coder d1 hmp (by omega) d2.symbols, l1, ?_⟩
  obtain ⟨s, s1, s2, s3, s4, s5, s6, s7, s8⟩ := ofSaved_spec O d3 (SeqCoder.new.encode (seen hist)).1 (m.int.freqs.take d.seqs.length) m.int.size mp
  have hi : m'.int = { s with iterNum := 0, fitted := m.int.fitted, freqsComputed := m.int.freqsComputed } := by
    simp only [IntVGram.ofSaved, s1, ok_bind, pure_M] at l2
    injection l2 with l2
    exact l2.symm
  have hs : m'.int.toStream = s := by rw [hi]
  rw [← hl, List.take_length] at s1 s4 s5
  obtain ⟨p1, p2, p3⟩ := singles_spec h d2 d4 hnd
  have hr : Restored m.int.toStream m'.int.toStream := by
    rw [hs]
    exact ⟨⟨d, d1, s2⟩, ⟨_, h.total.inv.coder, s3 ▸ coder_loaded hn⟩, s4, by rw [s5, hk.sum], alpha_ok h.total.inv.tinv, s8⟩
  have hcode : ∀ x ∈ A, code T x = code A x := fun x hx => by
    obtain ⟨R, hR⟩ := h.pre
    rw [← hR]
    exact code_append hx R
  refine ⟨⟨h, ⟨by rw [l3]; rfl, by rw [l3]; exact restored_tok p1 p2 p3, fun x hx => hx, List.prefix_refl _, fun x hx => h.ne x (h.sub x hx), ?_, fun c => ?_⟩, hr⟩, ?_⟩
  · rw [hs]
    exact SStart.total hn ⟨hnd, fun hm => d3.nonempty _ hm rfl, d2.symbols, d4⟩ h.total.inv.freqs s1
  · rw [seen_mem, h.hist, List.map_congr_left hcode]
  · have hi' := hi
    have f1 : m'.int.freqs = s.freqs := by rw [hi]
    have f2 : m'.int.size = s.size := by rw [hi]
    exact ⟨f1.trans s4, f2.trans s6, by rw [hi], by rw [hi]⟩

theorem TextPair.alphabet {m m' : StringVGram F} {A T T' : List Str} {hist hist' : List Int} (h : TextPair m m' A T T' hist hist') :
    m'.alphabet = m.alphabet := by
  obtain ⟨d, d1, d2, d3, d4, d5⟩ := h.left.total.words
  have d5' := h.same.alphabet.trans d5
  simp only [StringVGram.alphabet, d5, d5', ok_bind, pure_M]
  rw [List.map_congr_left (h.decode d5)]

/-- C52: a fitted character-level text model, after any number of `transform` calls, can be saved and loaded, provided the
probability is a finite number; the loaded model has the same text alphabet, frequencies and flags, and answers every sequence of
`transform` calls, with arbitrary interruptions, with the same texts.
Missing: word-level models (false, `C54_word_reload_false`) and the other evaluation order of base_tokenizer.cc:36. -/
theorem C52_load_save_partial (E : Env F) (L : EnvLaws E) (SL : ScoreLaws E.ops) (m : StringVGram F) (trained : List Str)
    (h : TextModel E .char m trained) : ∃ mp, m.int.minProb = some mp ∧ (E.ops.isFinite mp = true →
      ∃ j m' ws, Saver.saveStringVGram E.ops m = .ok j ∧ Loader.loadStringVGram E.ops j = .ok m' ∧ m.alphabet = .ok ws ∧ m'.alphabet = .ok ws ∧
        m'.int.freqs = m.int.freqs ∧ m'.int.size = m.int.size ∧ m'.int.fitted = m.int.fitted ∧ m'.int.freqsComputed = m.int.freqsComputed ∧
        ∀ batches, ∃ r, textTalk E.ops m batches = .ok r ∧ textTalk E.ops m' batches = .ok r) := by
  obtain ⟨T, hist, hi⟩ := h.inv L SL
  obtain ⟨mp, hmp⟩ := hi.total.inv.prob hi.total.dict
  refine ⟨mp, hmp, fun hfin => ?_⟩
  obtain ⟨j, m', h1, h2, h3, h4⟩ := hi.reload (h.kept L SL) hmp hfin
  obtain ⟨d, d1, d2, d3, d4, d5⟩ := hi.total.words
  have hal : m.alphabet = .ok ((decodeWords hist d.seqs).map m.tok.decode) := by simp only [StringVGram.alphabet, d5, ok_bind, pure_M]
  exact ⟨j, m', _, h1, h2, hal, h3.alphabet.trans hal, h4.1, h4.2.1, h4.2.2.1, h4.2.2.2, fun batches => h3.talk SL batches⟩

/-- C52: saving and loading keeps size and both flags of any text model whatsoever, whenever both calls succeed. -/
theorem C52_flags (O : FloatOps F) (m m' : StringVGram F) (j : Json F) (h : Saver.saveStringVGram O m = .ok j)
    (hl : Loader.loadStringVGram O j = .ok m') :
    m'.int.fitted = m.int.fitted ∧ m'.int.freqsComputed = m.int.freqsComputed ∧ m'.int.size = m.int.size := by
  obtain ⟨b, hb, h⟩ := bind_ok.1 h
  cases h
  obtain ⟨mp, al, rfl⟩ : ∃ mp al, b = [(Json.kAlphabet, .ofPushed al), (Json.kCoder, Saver.coderJson m.int.coder)] ++ Saver.fittedInfo m.int ++
      [(Json.kMinProb, Json.ofNum O mp), (Json.kSize, .int m.int.size)] := by
    simp only [Saver.baseInfo] at hb
    split at hb
    · simp only [pure_M, ok_bind] at hb
      obtain ⟨d, _, hb⟩ := bind_ok.1 hb
      obtain ⟨al, _, hb⟩ := bind_ok.1 hb
      cases hb
      exact ⟨_, _, rfl⟩
    · cases hb
  obtain ⟨n, hn, hl⟩ := bind_ok.1 hl
  obtain ⟨t, _, hl⟩ := bind_ok.1 hl
  cases hl
  obtain ⟨i, hi, hn⟩ := bind_ok.1 hn
  obtain ⟨jf, f1, hn⟩ := bind_ok.1 hn
  obtain ⟨fi, f2, hn⟩ := bind_ok.1 hn
  obtain ⟨jc, f3, hn⟩ := bind_ok.1 hn
  obtain ⟨co, f4, hn⟩ := bind_ok.1 hn
  obtain ⟨st, hs, hn⟩ := bind_ok.1 hn
  cases hn
  cases f1; cases f2; cases f3; cases f4
  refine ⟨rfl, rfl, ?_⟩
  obtain ⟨d', _, hs⟩ := bind_ok.1 hs
  obtain ⟨b', _, hs⟩ := bind_ok.1 hs
  cases hs
  show i.size = _
  obtain ⟨js, s1, hi⟩ := bind_ok.1 hi
  obtain ⟨sz, s2, hi⟩ := bind_ok.1 hi
  obtain ⟨_, _, hi⟩ := bind_ok.1 hi
  obtain ⟨_, _, hi⟩ := bind_ok.1 hi
  obtain ⟨_, _, hi⟩ := bind_ok.1 hi
  obtain ⟨_, _, hi⟩ := bind_ok.1 hi
  obtain ⟨_, _, hi⟩ := bind_ok.1 hi
  obtain ⟨_, _, hi⟩ := bind_ok.1 hi
  cases hi
  cases s1; cases s2
  rfl

/-! ## C51: more frequencies than words -/

/-- Rational arithmetic with the integer logarithm of the cube; a few dozen tokens are enough statistics for an update. -/
def cubeEnv : Env (Ext Rat) := Ext.env Rat (fun x => if x < 1 then (x - 1) / 30 else (Nat.log2 (x * x * x).floor.toNat : Rat))

/-- Two publications, `save`, `load`: the words, the frequencies before and after, and the parses of one sequence before and after. -/
def surplusRun : M (List IntSeq × List Int × List Int × List Int × List Int) := do
  let m ← run cubeEnv (Stream.new cubeEnv.ops 3) [.accept [7, 8, 7, 8, 7, 8], .update, .accept [7, 8, 7, 8, 7, 8],
    .accept [8, 7, 8, 7, 8, 7, 7, 7, 8, 8], .accept [8, 7, 8, 7, 8, 7, 7, 7, 8, 8], .update]
  let ws ← m.alphabet
  let j ← Saver.saveStream cubeEnv.ops m
  let l ← Loader.loadStream cubeEnv.ops j
  let (_, a) ← m.parse cubeEnv.ops [8, 7, 8, 7, 8, 7, 7, 7, 8, 8]
  let (_, b) ← l.parse cubeEnv.ops [8, 7, 8, 7, 8, 7, 7, 7, 8, 8]
  pure (ws, m.freqs, l.freqs, a, b)

set_option synthInstance.maxSize 2000 in
/-- **C51 is false** for a model whose dictionary was published twice: the frequencies of both publications are kept, only the
first ones are saved, and the loaded model parses differently. -/
theorem C51_surplus_false : surplusRun = .ok ([[7], [7, 8], [8], [8, 7]], [3, 3, 1, 1, 1, 3], [3, 3, 1, 1], [3, 3, 3, 0, 1, 2],
    [2, 1, 1, 0, 0, 1, 2]) := by decide +kernel

/-- The arithmetic of the witness satisfies all laws used by the theorems. -/
example : Nonempty (EnvLaws cubeEnv) ∧ Nonempty (ScoreLaws cubeEnv.ops) := ⟨⟨Ext.envLaws _⟩, ⟨Ext.scoreLaws _⟩⟩

set_option synthInstance.maxSize 2000 in
/-- A model as in `C51_load_save_partial`: one publication, a two-symbol word, different frequencies. -/
example : (do
    let m ← run cubeEnv (Stream.new cubeEnv.ops 3) [.accept [7, 8, 7, 8, 7, 8], .accept [7, 8, 7, 8, 7, 8], .accept [8, 7, 8, 7, 8, 7, 7, 7, 8, 8],
      .accept [8, 7, 8, 7, 8, 7, 7, 7, 8, 8], .update]
    let j ← Saver.saveStream cubeEnv.ops m
    let l ← Loader.loadStream cubeEnv.ops j
    let r ← talk cubeEnv.ops m [[8, 7, 7, 9, 8], [7]]
    let r' ← talk cubeEnv.ops l [[8, 7, 7, 9, 8], [7]]
    pure (m.freqs, r, decide (r = r')) : M (List Int × List (List Int × List IntSeq) × Bool)) =
    .ok ([1, 1, 1, 3], [([3, 1], [[7], [7, 8], [8], [8, 7]]), ([0], [[7], [7, 8], [8], [8, 7]])], true) := by decide +kernel

/-- The probability of a fitted model is a number: C52 applies to it. -/
example : (do
    let m ← (StringVGram.new quickEnv.ops 4 3 .char).fit quickEnv .rhsFirst (stopAt 100) ["A b".toList, "aba".toList, "b".toList]
    let j ← Saver.saveStringVGram quickEnv.ops m
    let l ← Loader.loadStringVGram quickEnv.ops j
    let r ← textTalk quickEnv.ops m [(stopAt 100, ["abxba".toList, "b".toList]), (stopAt 0, ["xab".toList, "a".toList])]
    let r' ← textTalk quickEnv.ops l [(stopAt 100, ["abxba".toList, "b".toList]), (stopAt 0, ["xab".toList, "a".toList])]
    pure (m.int.minProb.map quickEnv.ops.isFinite, r, decide (r = r')) : M (Option Bool × List (List Str) × Bool)) =
    .ok (some true, [["ab b a".toList, "b".toList], ["ab".toList]], true) := by decide +kernel

/-- The two flags are kept apart, `C52_flags`. -/
example : (do
    let m ← (StringVGram.new quickEnv.ops 4 3 .char).fit quickEnv .rhsFirst (stopAt 100) ["A b".toList, "aba".toList, "b".toList]
    let j ← Saver.saveStringVGram quickEnv.ops { m with int := { m.int with freqsComputed := false } }
    let l ← Loader.loadStringVGram quickEnv.ops j
    pure (l.int.fitted, l.int.freqsComputed, l.int.size) : M (Bool × Bool × Int)) = .ok (true, false, 4) := by decide +kernel

/-! ## C53 -/

/-- The file of an int stream model lacks the two flags; reading it as an int model or as a text model ends in a type error. -/
theorem loadInt_stream {O : FloatOps F} {m : Stream F} {j : Json F} (h : Saver.saveStream O m = .ok j) : Loader.loadIntVGram O j = .error .jsonType := by
  obtain ⟨b, hb, h⟩ := bind_ok.1 h
  cases h
  simp only [Saver.baseInfo] at hb
  cases hmp : m.minProb with
  | none => simp only [hmp] at hb; cases hb
  | some mp =>
    simp only [hmp, pure_M, ok_bind] at hb
    obtain ⟨d, hd, hb⟩ := bind_ok.1 hb
    obtain ⟨al, ha, hb⟩ := bind_ok.1 hb
    cases hb
    rw [alphabetLoop_none] at ha
    split at ha
    · next hl =>
      cases ha
      rw [List.drop_zero]
      have hr : ∃ r, Loader.readAlphabet O (entries d.seqs m.freqs) = .ok r := by
        rcases hl with e | hl
        · rw [e]; exact ⟨_, rfl⟩
        · exact ⟨_, readAlphabet_entries O _ _ (by omega)⟩
      obtain ⟨r, hr⟩ := hr
      generalize hJ : (Json.obj ([(Json.kAlphabet, Json.ofPushed (entries d.seqs m.freqs)), (Json.kCoder, Saver.coderJson m.coder)] ++ [] ++ [(Json.kMinProb, Json.ofNum O mp),
        (Json.kSize, .int m.size)]) : Json F) = J
      have e1 : J.field Json.kSize = .ok (.int m.size) := by rw [← hJ]; rfl
      have e2 : J.field Json.kMinProb = .ok (Json.ofNum O mp) := by rw [← hJ]; rfl
      have e3 : J.field Json.kCoder = .ok (.ofPushed ((Saver.sortByCode m.coder.codeMap).map fun p => .int p.1)) := by rw [← hJ]; rfl
      have e4 : J.field Json.kAlphabet = .ok (Json.ofPushed (entries d.seqs m.freqs)) := by rw [← hJ]; rfl
      have e5 : J.field Json.kFitted = .ok .null := by rw [← hJ]; rfl
      have hc := readCoder_ints O ((Saver.sortByCode m.coder.codeMap).map (·.1)) SeqCoder.new
      rw [List.map_map] at hc
      simp only [Loader.loadIntVGram, Loader.readDict, e1, e2, e3, e4, e5, ok_bind, Json.getInt, elems_ofPushed, hr]
      rw [Json.ofNum]
      split
      · simp only [Json.getNum, ok_bind]
        rw [show Loader.readCoder O ((Saver.sortByCode m.coder.codeMap).map fun p => Json.int p.1) SeqCoder.new = _ from hc]
        rfl
      · rfl
    · cases ha

/-- **C53 is false** for every int model: whatever `save()` writes, `load_int_vgram` rejects with a type error. -/
theorem C53_int_reload_false (O : FloatOps F) (m : IntVGram F) (j : Json F) (h : Saver.saveIntVGram O m = .ok j) :
    Loader.loadIntVGram O j = .error .jsonType := loadInt_stream h

/-- C53, the part that holds: after a successful `fit` the model can be saved, and the file loads as a stream model with the same
alphabet.  Missing: loading it as the fitted model it was, which always fails, `C53_int_reload_false`. -/
theorem C53_reload_as_stream_partial (E : Env F) (L : EnvLaws E) (SL : ScoreLaws E.ops) (size iter : Int) (h1 : 1 ≤ size) (h2 : 1 ≤ iter)
    (σ : IntVGram.Sched) (seqs : List IntSeq) (m : IntVGram F) (hcap : ((seen seqs.flatten).length : Int) ≤ size)
    (hσ : ∀ j, j < iter.toNat * seqs.length + seqs.length → σ.term j = false) (hf : (IntVGram.new E.ops size iter).fit E σ seqs = .ok (m, true)) :
    ∃ ws mp j, m.alphabet = .ok ws ∧ m.minProb = some mp ∧ Saver.saveIntVGram E.ops m = .ok j ∧ Loader.loadIntVGram E.ops j = .error .jsonType ∧
      (E.ops.isFinite mp = true → ∃ m', Loader.loadStream E.ops j = .ok m' ∧ m'.alphabet = .ok ws) := by
  obtain ⟨hist, ht, _⟩ := (Ready.fit h1 h2 hcap hσ hf).total L SL
  have hk := fit_kept L SL h1 h2 hcap hσ hf
  obtain ⟨d, d1, d2, d3, d4, d5⟩ := ht.words
  obtain ⟨mp, hmp⟩ := ht.inv.prob ht.dict
  have hs := saveStream_eq E.ops ht.inv.coder d1 hmp (le_of_eq (hk.len d d1).symm)
  refine ⟨_, mp, _, d5, hmp, hs, loadInt_stream hs, fun hfin => ?_⟩
  obtain ⟨ws, mp', q1, q2, q3⟩ := C51_fitted E L SL size iter h1 h2 σ seqs m hcap hσ hf
  rw [hmp] at q2
  cases q2
  obtain ⟨j, m', r1, r2, r3, _⟩ := q3 hfin
  rw [show Saver.saveIntVGram E.ops m = _ from hs] at r1
  cases r1
  rw [q1] at d5
  cases d5
  exact ⟨m', r2, r3⟩

/-! ## C54 -/

/-- Every loaded text model, stream or not, tokenizes into characters. -/
theorem loaded_kind (O : FloatOps F) (j : Json F) : (∀ m, Loader.loadStringStream O j = .ok m → m.tok.kind = .char) ∧
    ∀ m, Loader.loadStringVGram O j = .ok m → m.tok.kind = .char := by
  have key : ∀ c t, Loader.loadTokenizer O c j = .ok t → t.kind = .char := by
    intro c t h
    simp only [Loader.loadTokenizer] at h
    obtain ⟨_, _, h⟩ := bind_ok.1 h
    obtain ⟨_, _, h⟩ := bind_ok.1 h
    cases h
    rfl
  constructor <;> intro m h <;> obtain ⟨i, _, h⟩ := bind_ok.1 h <;> obtain ⟨t, ht, h⟩ := bind_ok.1 h <;> cases h <;> exact key _ _ ht

end VGram.Props
