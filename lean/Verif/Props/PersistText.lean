import Verif.Props.Persist

/-!
# Saving and loading text stream models (C54, C55, C59)
-/

namespace VGram.Props

open VGram Spec

variable {F : Type}

/-! ## The loaded tokenizer -/

/-- What the single-symbol words of a dictionary contribute to the loaded tokenizer. -/
theorem singles_gen {t : Tokenizer} {T : List Str} (ht : TokInv .rhsFirst t (seen T)) {vals : List Int} (hn : vals.Nodup)
    (hv : ∀ v ∈ vals, ∃ x ∈ T, code T x = v) {words : List IntSeq} (hr : ∀ w ∈ words, ∀ x ∈ w, 0 ≤ x ∧ x < (vals.length : Int)) (hw : words.Nodup) :
    (∀ p ∈ singles (fun w => t.decode (deco vals w)) vals words, p.1 ∈ T ∧ p.2 = code T p.1) ∧
      (∀ (c : Nat) (v : Int), [(c : Int)] ∈ words → vals[c]? = some v → (t.decode [v], v) ∈ singles (fun w => t.decode (deco vals w)) vals words) ∧
      ((singles (fun w => t.decode (deco vals w)) vals words).map (·.2)).Nodup ∧
      ∀ p ∈ singles (fun w => t.decode (deco vals w)) vals words, p.2 ∈ vals := by
  have hsing : ∀ w ∈ words, ∀ y, deco vals w = [y] → ∃ c : Nat, w = [(c : Int)] ∧ vals[c]? = some y := by
    intro w hw y hy
    cases w with
    | nil => simp [deco] at hy
    | cons c w =>
      cases w with
      | nil =>
        obtain ⟨c1, c2⟩ := hr _ hw c (by simp)
        simp only [deco, List.map_cons, List.map_nil, List.cons.injEq, and_true] at hy
        rw [List.getElem?_eq_getElem (by omega), Option.getD_some] at hy
        refine ⟨c.toNat, by rw [show ((c.toNat : Nat) : Int) = c by omega], ?_⟩
        rw [List.getElem?_eq_getElem (by omega), hy]
      | cons => simp [deco] at hy
  refine ⟨?_, ?_, ?_, fun p hp => by
    obtain ⟨w, hw, hp⟩ := List.mem_filterMap.1 hp
    split at hp
    · next y hy =>
      cases hp
      obtain ⟨c, _, hc'⟩ := hsing w hw y hy
      exact List.mem_of_getElem? hc'
    · cases hp⟩
  · intro p hp
    obtain ⟨w, hw, hp⟩ := List.mem_filterMap.1 hp
    split at hp
    · next y hy =>
      cases hp
      obtain ⟨c, _, hc'⟩ := hsing w hw y hy
      obtain ⟨x, hx, hxy⟩ := hv y (List.mem_of_getElem? hc')
      have : t.decode [y] = x := by
        have := ht.decode_map (toks := [x]) (by simpa using hx)
        rw [List.map_singleton, hxy] at this
        simpa using this
      simp only [hy, this]
      exact ⟨hx, hxy.symm⟩
    · cases hp
  · intro c v hc hcv
    refine List.mem_filterMap.2 ⟨[(c : Int)], hc, ?_⟩
    have hdeco : deco vals [(c : Int)] = [v] := by simp [deco, hcv]
    simp only [hdeco]
  · rw [singles, List.map_filterMap, List.Nodup, List.pairwise_filterMap]
    refine hw.imp_of_mem ?_
    intro w w' hw hw' hne y hy y' hy' e
    subst e
    have key : ∀ w ∈ words, Option.map (·.2) (match deco vals w with
        | [x] => some (t.decode (deco vals w), x)
        | _ => none) = some y → deco vals w = [y] := by
      intro w _ h
      split at h
      · next z hz =>
        simp only [Option.map_some, Option.some.injEq] at h
        rw [hz, h]
      · cases h
    obtain ⟨c, c1, c2⟩ := hsing w hw y (key w hw hy)
    obtain ⟨c', c1', c2'⟩ := hsing w' hw' y (key w' hw' hy')
    have : c = c' := by
      obtain ⟨i1, i2⟩ := List.getElem?_eq_some_iff.1 c2
      obtain ⟨j1, j2⟩ := List.getElem?_eq_some_iff.1 c2'
      exact hn.getElem_inj_iff.1 (i2.trans j2.symm)
    exact hne (by rw [c1, c1', this])

/-- The loaded tokenizer decodes the codes it was given as before. -/
theorem ofMap_decode {t : Tokenizer} {T : List Str} {l : List (Str × Int)} (h1 : ∀ p ∈ l, p.1 ∈ T ∧ p.2 = code T p.1) (h3 : (l.map (·.2)).Nodup)
    (ht : TokInv .rhsFirst t (seen T)) {w : List Int} (hw : ∀ v ∈ w, v ∈ l.map (·.2)) :
    (Tokenizer.ofMap .char (l.foldl (fun m p => AMap.set m p.1 p.2) [])).decode w = t.decode w := by
  have hk : (l.map (·.1)).Nodup := by
    rw [List.Nodup, List.pairwise_map] at h3 ⊢
    refine h3.imp_of_mem ?_
    intro p q hp hq hne e
    exact hne (by rw [(h1 p hp).2, (h1 q hq).2, e])
  have hf : l.foldl (fun m p => AMap.set m p.1 p.2) [] = l := by
    have := foldl_set (fun p : Str × Int => p) l [] (by simpa using hk)
    simpa using this
  have hb : l.foldl (fun b p => AMap.set b p.2 p.1) [] = l.map fun p => (p.2, p.1) := by
    have := foldl_set (fun p : Str × Int => (p.2, p.1)) l [] (by simpa using h3)
    simpa using this
  rw [hf]
  simp only [Tokenizer.ofMap, hb]
  induction w with
  | nil => rfl
  | cons v w ih =>
    have e1 : ∀ t : Tokenizer, t.decode (v :: w) = t.decode [v] ++ t.decode w := fun t => decode_append t [v] w
    rw [e1, e1 t, ih fun v hv => hw v (by simp [hv])]
    congr 1
    obtain ⟨p, hp, rfl⟩ := List.mem_map.1 (hw v (by simp))
    have : t.decode [p.2] = p.1 := by
      have := ht.decode_map (toks := [p.1]) (by simpa using (h1 p hp).1)
      rw [List.map_singleton, ← (h1 p hp).2] at this
      simpa using this
    rw [this]
    have hg : AMap.get? (l.map fun p => (p.2, p.1)) p.2 = some p.1 :=
      get?_some (by rw [List.map_map]; exact h3) (List.mem_map.2 ⟨p, hp, rfl⟩)
    simp [Tokenizer.decode, hg]

/-! ## Text stream files -/

/-- What saving a text stream model writes. -/
def streamTextJson (O : FloatOps F) (m : StringStream F) (vals : List Int) (d : IntDict) (mp : F) : List (Str × Json F) :=
  [(Json.kAlphabet, .ofPushed (textEntries (fun w => m.tok.decode (deco vals w)) d.seqs m.stream.freqs)), (Json.kCoder, .ofPushed (vals.map .int)),
    (Json.kMinProb, Json.ofNum O mp), (Json.kSize, .int m.stream.size)]

theorem saveStreamText_eq (O : FloatOps F) {m : StringStream F} {vals : List Int} {d : IntDict} {mp : F} (hc : CInv m.stream.coder vals)
    (hd : m.stream.getDict = .ok d) (hmp : m.stream.minProb = some mp) (hl : d.seqs.length ≤ m.stream.freqs.length)
    (hw : ∀ w ∈ d.seqs, ∀ x ∈ w, 0 ≤ x ∧ x < (vals.length : Int)) :
    Saver.saveStringStream O m = .ok (.obj (streamTextJson O m vals d mp)) := by
  simp only [Saver.saveStringStream, Saver.baseInfo, hmp, pure_M, ok_bind, hd]
  rw [alphabetLoop_text hc _ _ _ 0 hw (by omega), coderJson_eq hc]
  rfl

theorem loadStreamText_eq (O : FloatOps F) {m : StringStream F} {vals : List Int} {d : IntDict} {mp : F} (hn : vals.Nodup) (hs : Sorted d)
    (hf : O.isFinite mp = true) (hl : d.seqs.length ≤ m.stream.freqs.length) (hw : ∀ w ∈ d.seqs, ∀ x ∈ w, 0 ≤ x ∧ x < (vals.length : Int)) :
    ∃ m', Loader.loadStringStream O (.obj (streamTextJson O m vals d mp)) = .ok m' ∧
      Stream.ofSaved O (SeqCoder.new.encode vals).1 (m.stream.freqs.take d.seqs.length) d.seqs m.stream.size mp = .ok m'.stream ∧
      m'.tok = Tokenizer.ofMap .char ((singles (fun w => m.tok.decode (deco vals w)) vals d.seqs).foldl (fun m p => AMap.set m p.1 p.2) []) := by
  have e1 : (Json.obj (streamTextJson O m vals d mp)).field Json.kSize = .ok (.int m.stream.size) := rfl
  have e2 : (Json.obj (streamTextJson O m vals d mp)).field Json.kMinProb = .ok (.num mp) := by
    have : (Json.obj (streamTextJson O m vals d mp)).field Json.kMinProb = .ok (Json.ofNum O mp) := rfl
    rw [this, Json.ofNum, if_pos hf]
  have e3 : (Json.obj (streamTextJson O m vals d mp)).field Json.kCoder = .ok (.ofPushed (vals.map .int)) := rfl
  have e4 : (Json.obj (streamTextJson O m vals d mp)).field Json.kAlphabet =
    .ok (.ofPushed (textEntries (fun w => m.tok.decode (deco vals w)) d.seqs m.stream.freqs)) := rfl
  obtain ⟨s, s1, s2, s3, _⟩ := ofSaved_spec O hs (SeqCoder.new.encode vals).1 (m.stream.freqs.take d.seqs.length) m.stream.size mp
  refine ⟨StringStream.ofParts s _, ?_, s1, rfl⟩
  simp only [Loader.loadStringStream, Loader.loadStream, Loader.readDict, e1, e2, e3, e4, ok_bind, Json.getInt, Json.getNum,
    elems_ofPushed, readCoder_ints, readAlphabet_text O _ _ _ hl, pure_M, s1, Loader.loadTokenizer]
  rw [tokenizerLoop_text O (show CInv s.coder vals from s3 ▸ coder_loaded hn) _ _ _ [] hw hl]
  rfl

theorem textRun_total {E : Env F} {o : EvalOrder} : ∀ {calls : List TextCall} {m m' : StringStream F}, m.stream.totalFreqs = sumI m.stream.freqs →
    textRun E o m calls = .ok m' → m'.stream.totalFreqs = sumI m'.stream.freqs := by
  have one : ∀ (c : Call) {m m' : Stream F}, m.totalFreqs = sumI m.freqs → call E m c = .ok m' → m'.totalFreqs = sumI m'.freqs := by
    intro c m m' h hc
    exact run_total (E := E) (calls := [c]) h (by simp only [run, hc, ok_bind])
  intro calls
  induction calls with
  | nil => intro m m' h hr; cases hr; exact h
  | cons c cs ih =>
    intro m m' h hr
    simp only [textRun] at hr
    obtain ⟨m1, h1, hr⟩ := bind_ok.1 hr
    refine ih ?_ hr
    cases c with
    | accept s =>
      simp only [textCall, StringStream.accept] at h1
      obtain ⟨st, h2, h1⟩ := bind_ok.1 h1
      cases h1
      exact one (.accept _) h h2
    | parse s =>
      simp only [textCall, StringStream.parse] at h1
      obtain ⟨⟨m2, ws⟩, h2, h1⟩ := bind_ok.1 h1
      obtain ⟨⟨st, ids⟩, h3, h2⟩ := bind_ok.1 h2
      obtain ⟨_, _, h2⟩ := bind_ok.1 h2
      cases h1
      cases h2
      exact one (.parse (m.tok.transform o s).2) h (by simp only [call, h3, ok_bind, pure_M])
    | update =>
      simp only [textCall, StringStream.updateDict] at h1
      obtain ⟨st, h2, h1⟩ := bind_ok.1 h1
      cases h1
      exact one .update h h2

/-- Saving and loading a text stream model: the integer model is restored, the tokenizer decodes all words as before. -/
theorem TStreamInv.reload {O : FloatOps F} {m : StringStream F} {k : TokKind} {A T : List Str} (h : TStreamInv m k A T) {d : IntDict} {mp : F}
    (hd : m.stream.getDict = .ok d) (hok : DOk (seen (A.map (code T))).length d) (hs : d.seqs.Pairwise (· < ·)) (hmp : m.stream.minProb = some mp)
    (hfin : O.isFinite mp = true) (hl : m.stream.freqs.length = d.seqs.length) (hsum : m.stream.totalFreqs = sumI m.stream.freqs) :
    ∃ j m', Saver.saveStringStream O m = .ok j ∧ Loader.loadStringStream O j = .ok m' ∧ Restored m.stream m'.stream ∧ m'.tok.kind = .char ∧
      Stream.ofSaved O (coderAfter [seen (A.map (code T))]) m.stream.freqs d.seqs m.stream.size mp = .ok m'.stream ∧
      m'.alphabet = m.alphabet ∧
      ((∀ x : Int, 0 ≤ x → x < ((seen (A.map (code T))).length : Int) → [x] ∈ d.seqs) → seen A <+: seen T → TokInv .rhsFirst m'.tok (seen A)) := by
  have hn := seen_nodup (A.map (code T))
  have hsd := hok.sorted hs
  have hnd : d.seqs.Nodup := hs.imp fun h => ne_of_lt h
  obtain ⟨m', l1, l2, l3⟩ := loadStreamText_eq O (m := m) hn hsd hfin (by omega) hok.symbols
  obtain ⟨s, s1, s2, s3, s4, s5, s6, s7, s8⟩ := ofSaved_spec O hsd (SeqCoder.new.encode (seen (A.map (code T)))).1 (m.stream.freqs.take d.seqs.length)
    m.stream.size mp
  rw [s1] at l2
  cases l2
  rw [← hl, List.take_length] at s1 s4 s5
  have hr : Restored m.stream m'.stream :=
    ⟨⟨d, hd, s2⟩, ⟨_, h.inv.coder, s3 ▸ coder_loaded hn⟩, s4, by rw [s5, hsum], alpha_ok h.inv.tinv, s8⟩
  have hv : ∀ v ∈ seen (A.map (code T)), ∃ x ∈ T, code T x = v := fun v hv => by
    obtain ⟨x, hx, e⟩ := List.mem_map.1 (seen_mem.1 hv)
    exact ⟨x, h.sub x hx, e⟩
  obtain ⟨p1, p2, p3, p4⟩ := singles_gen h.tok hn hv hok.symbols hnd
  refine ⟨_, m', saveStreamText_eq O h.inv.coder hd hmp (by omega) hok.symbols, l1, hr, by rw [l3]; rfl, s1, ?_, ?_⟩
  · have ha := h.inv.alphabet hd hok
    simp only [StringStream.alphabet, hr.alphabet, ha, ok_bind, pure_M]
    congr 1
    refine List.map_congr_left fun w hw => ?_
    obtain ⟨u, hu, rfl⟩ := List.mem_map.1 hw
    rw [l3]
    refine ofMap_decode p1 p3 h.tok fun v hv' => ?_
    obtain ⟨c, hc, rfl⟩ := List.mem_map.1 hv'
    obtain ⟨c1, c2⟩ := hok.symbols u hu c hc
    have hlt : c.toNat < (seen (A.map (code T))).length := by omega
    have hm := p2 c.toNat (seen (A.map (code T)))[c.toNat] (by
      rw [show ((c.toNat : Nat) : Int) = c by omega]
      exact hok.closed u hu c hc) (List.getElem?_eq_getElem hlt)
    refine List.mem_map.2 ⟨_, hm, ?_⟩
    simp [List.getElem?_eq_getElem hlt]
  · intro hcov hAT
    have hcode : ∀ x ∈ A, code T x = code A x := fun x hx => by
      unfold code
      rw [idxOf_prefix hAT (seen_mem.2 hx)]
    rw [l3]
    refine restored_tok (fun p hp => ?_) (fun x hx => ?_) p3
    · obtain ⟨e1, e2⟩ := p1 p hp
      obtain ⟨x, hx, hxv⟩ := List.mem_map.1 (seen_mem.1 (p4 p hp))
      have : p.1 = x := code_inj e1 (e2.symm.trans hxv.symm)
      rw [this] at e2 ⊢
      exact ⟨hx, e2.trans (hcode x hx)⟩
    · have hm : code T x ∈ seen (A.map (code T)) := seen_mem.2 (List.mem_map.2 ⟨x, hx, rfl⟩)
      obtain ⟨c, c1, c2⟩ := List.getElem_of_mem hm
      have := p2 c (code T x) (hcov c (by omega) (by omega)) (by rw [List.getElem?_eq_getElem c1, c2])
      have hdec : m.tok.decode [code T x] = x := by
        have := h.tok.decode_map (toks := [x]) (by simpa using h.sub x hx)
        rw [List.map_singleton] at this
        simpa using this
      rwa [hdec, hcode x hx] at this

/-- A text stream history from a fresh model, as in C50: everything that is known afterwards. -/
theorem textRun_fresh {E : Env F} (L : EnvLaws E) (SL : ScoreLaws E.ops) {size : Int} (hsize : 1 ≤ size) {split words : Bool} {m0 : StringStream F}
    (h0 : StringStream.new E.ops size split words = .ok m0) {calls : List TextCall} (hl : TextLegal false calls true) {k : TokKind}
    (hk : k = if words then .word else .char) (hcap : ((seen (acceptedTokens k calls)).length : Int) ≤ size) :
    ∃ m T, textRun E .rhsFirst m0 calls = .ok m ∧ TStreamInv m k (acceptedTokens k calls) T ∧ m.stream.dict ≠ .null ∧
      m.stream.totalFreqs = sumI m.stream.freqs ∧ (KnownFirst k false [] calls → seen (acceptedTokens k calls) <+: seen T) := by
  have e0 : m0 = ⟨Stream.new E.ops size, Tokenizer.new k, words, split⟩ := by
    subst hk
    simp only [StringStream.new] at h0
    split at h0
    · cases h0
    · cases h0; rfl
  obtain ⟨i1, i2, i3⟩ := (SStart.fresh (O := E.ops) hsize).inv
  have hi : TStreamInv m0 k [] [] := by
    rw [e0]
    exact ⟨rfl, TokInv.new _ _, by simp, by simp, i1⟩
  obtain ⟨m, T, r1, r2, r3, r4⟩ := textRun_inv L SL hl hi (by simp) (by
    rw [e0]
    simp only [List.nil_append]
    omega)
  rw [List.nil_append] at r2
  refine ⟨m, T, r1, r2, r3 rfl, textRun_total ?_ r1, fun hp => r4 false hp (List.prefix_refl _) fun _ => rfl⟩
  rw [e0]
  rfl

/-! ## C54 -/

/-- Characters and words give the same tokens exactly when every word of the text is one lower-case letter or digit. -/
theorem char_eq_word (s : Str) : tokensOf .char s = tokensOf .word s ↔ ∀ w ∈ tokensOf .word s, ∃ c ∈ lowerDigits, w = [c] := by
  constructor
  · intro h w hw
    rw [← h] at hw
    obtain ⟨c, hc, rfl⟩ := List.mem_map.1 hw
    exact ⟨c, C32_only_lower_digits s c hc, rfl⟩
  · intro h
    have hsp : Tokenizer.normalize .char [' '] = [] := by decide
    have happ : ∀ a b : Str, Tokenizer.normalize .char (a ++ b) = Tokenizer.normalize .char a ++ Tokenizer.normalize .char b := fun a b => by
      simp [Tokenizer.normalize]
    have hj : ∀ ws : List Str, (∀ w ∈ ws, ∃ c ∈ lowerDigits, w = [c]) → Tokenizer.normalize .char (joinSp ws) = ws.flatten := by
      intro ws
      induction ws with
      | nil => intro _; rfl
      | cons w ws ih =>
        intro hw
        obtain ⟨c, hc, rfl⟩ := hw w (by simp)
        have hcn : Tokenizer.normalize .char [c] = [c] := normalize_fixed _ (by simpa using hc)
        cases ws with
        | nil => simpa [joinSp] using hcn
        | cons v vs =>
          have := ih fun w hw' => hw w (by simp [hw'])
          show Tokenizer.normalize .char ([c] ++ [' '] ++ joinSp (v :: vs)) = _
          rw [happ, happ, hcn, hsp, this]
          rfl
    have hn : Tokenizer.normalize .char s = (tokensOf .word s).flatten := by
      rcases C35_words_join s with e | e
      · conv_lhs => rw [← e]
        exact hj _ h
      · conv_lhs => rw [← e]
        rw [happ, hsp, List.append_nil]
        exact hj _ h
    show (Tokenizer.normalize .char s).map (fun c => [c]) = _
    rw [hn]
    generalize tokensOf .word s = ws at h
    induction ws with
    | nil => rfl
    | cons w ws ih =>
      obtain ⟨c, _, rfl⟩ := h w (by simp)
      simp only [List.flatten_cons, List.map_append, ih fun w hw => h w (by simp [hw])]
      rfl

/-- **C54 is false**: whatever file is loaded, the loaded model cuts a text into the words a word-level model would use only if
each of them is a single lower-case letter or digit. -/
theorem C54_reload_splits_false (O : FloatOps F) (j : Json F) (m : StringStream F) (h : Loader.loadStringStream O j = .ok m) (s : Str) :
    tokensOf m.tok.kind s = tokensOf .word s ↔ ∀ w ∈ tokensOf .word s, ∃ c ∈ lowerDigits, w = [c] := by
  rw [(loaded_kind O j).1 m h]
  exact char_eq_word s

/-- Training on words, saving, loading: the parses of `to be` before and after. -/
def wordReload : M (List Str × List Str × List Str × List Str) := do
  let m0 ← StringStream.new quickEnv.ops 4 false true
  let m ← textRun quickEnv .rhsFirst m0 [.accept "to be".toList, .accept "to be to a".toList, .update]
  let ws ← m.alphabet
  let (_, a) ← m.parse quickEnv.ops .rhsFirst "to be a".toList
  let j ← Saver.saveStringStream quickEnv.ops m
  let l ← Loader.loadStringStream quickEnv.ops j
  let vs ← l.alphabet
  let (_, b) ← l.parse quickEnv.ops .rhsFirst "to be a".toList
  pure (ws, a, vs, b)

set_option synthInstance.maxSize 2000 in
/-- **C54 is false**, end to end: the alphabet survives, the known words are no longer recognised. -/
theorem C54_word_reload_false : wordReload = .ok (["to".toList, "tobe".toList, "be".toList, "a".toList], ["tobe".toList, "a".toList],
    ["to".toList, "tobe".toList, "be".toList, "a".toList], ["a".toList]) := by decide +kernel

/-- C54, the part that holds, for both kinds of tokens: after a history of calls on a fresh model that published a dictionary, if its words
are sorted, there is one frequency per word and the probability is finite, then saving and loading succeed, the text alphabet
is the same and the underlying integer model answers every list of `parse` calls as before.
Missing: cutting texts into words, see `C54_reload_splits_false`. -/
theorem C54_alphabet_partial (E : Env F) (L : EnvLaws E) (SL : ScoreLaws E.ops) (size : Int) (hsize : 1 ≤ size) (split words : Bool)
    (m0 : StringStream F) (h0 : StringStream.new E.ops size split words = .ok m0) (calls : List TextCall) (hl : TextLegal false calls true)
    (k : TokKind) (hk : k = if words then .word else .char) (hcap : ((seen (acceptedTokens k calls)).length : Int) ≤ size) :
    ∃ m d mp ws, textRun E .rhsFirst m0 calls = .ok m ∧ m.stream.getDict = .ok d ∧ m.stream.minProb = some mp ∧ m.alphabet = .ok ws ∧
      (d.seqs.Pairwise (· < ·) → m.stream.freqs.length = ws.length → E.ops.isFinite mp = true →
        ∃ j m', Saver.saveStringStream E.ops m = .ok j ∧ Loader.loadStringStream E.ops j = .ok m' ∧ m'.alphabet = .ok ws ∧
          m'.stream.freqs = m.stream.freqs ∧ ∀ seqs, ∃ r, talk E.ops m.stream seqs = .ok r ∧ talk E.ops m'.stream seqs = .ok r) := by
  obtain ⟨m, T, r1, r2, r3, r4, _⟩ := textRun_fresh L SL hsize h0 hl hk hcap
  obtain ⟨d, d1, d2⟩ := r2.inv.getDict r3
  obtain ⟨mp, hmp⟩ := r2.inv.prob r3
  have ha : m.alphabet = .ok ((decodeWords ((acceptedTokens k calls).map (code T)) d.seqs).map m.tok.decode) := by
    simp only [StringStream.alphabet, r2.inv.alphabet d1 d2, ok_bind, pure_M]
  refine ⟨m, d, mp, _, r1, d1, hmp, ha, fun hs hf hfin => ?_⟩
  obtain ⟨j, m', q1, q2, q3, _, _, q4, _⟩ := r2.reload d1 d2 hs hmp hfin (by simpa [decodeWords] using hf) r4
  refine ⟨j, m', q1, q2, q4.trans ha, q3.freqs, fun seqs => ?_⟩
  obtain ⟨r, hr⟩ := talk_ok SL seqs r2.inv r3
  exact ⟨r, hr, (Restored.talk seqs q3).trans hr⟩

/-! ## C59 -/

theorem acceptedTokens_char {calls : List TextCall} {a : Str} (h : a ∈ acceptedTokens .char calls) : ∃ c, a = [c] := by
  induction calls with
  | nil => simp [acceptedTokens] at h
  | cons x xs ih =>
    cases x with
    | accept s =>
      rcases List.mem_append.1 h with h | h
      · obtain ⟨c, _, rfl⟩ := List.mem_map.1 h
        exact ⟨c, rfl⟩
      · exact ih h
    | parse s => exact ih h
    | update => exact ih h

theorem _root_.VGram.StreamInv.congr {m : Stream F} {h h' : List Int} (hi : StreamInv m h) (e : seen h = seen h') : StreamInv m h' :=
  ⟨e ▸ hi.coder, e ▸ hi.tinv, e ▸ hi.own, hi.ptr, hi.freqs, hi.total, hi.prob⟩

/-- A conversation with a text stream model: the strings returned by every `parse` call and the alphabet after it. -/
def streamTalk (O : FloatOps F) (m : StringStream F) : List Str → M (List (List Str × List Str))
  | [] => .ok []
  | s :: ss => do
    let (m', ps) ← m.parse O .rhsFirst s
    let ws ← m'.alphabet
    let rest ← streamTalk O m' ss
    pure ((ps, ws) :: rest)

/-- A character-level text stream model and its restored copy. -/
structure StreamPair (m m' : StringStream F) (A T T' : List Str) : Prop where
  left : TStreamInv m .char A T
  right : TStreamInv m' .char A T'
  ext : ∀ x ∈ A, code T x = code A x
  ext' : ∀ x ∈ A, code T' x = code A x
  same : Restored m.stream m'.stream
  dict : m.stream.dict ≠ .null

theorem TStreamInv.imm {m : StringStream F} {k : TokKind} {A T : List Str} (h : TStreamInv m k A T) (hext : ∀ x ∈ A, code T x = code A x)
    (T' toks : List Str) :
    m.stream.coder.encodeImm (toks.map (code (T ++ T'))) = m.stream.coder.encodeImm ((toks.filter fun x => decide (x ∈ A)).map (code A)) := by
  have hA : ∀ x ∈ A, x ∈ T ++ T' := fun x hx => List.mem_append_left _ (h.sub x hx)
  have hh : ∀ c, c ∈ seen (A.map (code T)) ↔ c ∈ A.map (code (T ++ T')) := fun c => by
    rw [seen_mem, codes_append h.sub]
  rw [h.inv.coder.imm, h.inv.coder.imm, code_filter hA hh]
  have he : (toks.filter fun x => decide (x ∈ A)).map (code (T ++ T')) = (toks.filter fun x => decide (x ∈ A)).map (code A) :=
    List.map_congr_left fun x hx => by
      have hx := of_decide_eq_true (List.mem_filter.1 hx).2
      rw [code_append (h.sub x hx), hext x hx]
  rw [he]
  congr 1
  symm
  rw [List.filter_eq_self]
  intro c hc
  rw [← he] at hc
  obtain ⟨x, hx, rfl⟩ := List.mem_map.1 hc
  exact decide_eq_true ((hh _).2 (List.mem_map.2 ⟨x, of_decide_eq_true (List.mem_filter.1 hx).2, rfl⟩))

theorem map_code_inj {A : List Str} : ∀ {a b : List Str}, (∀ x ∈ a, x ∈ A) → a.map (code A) = b.map (code A) → a = b := by
  intro a
  induction a with
  | nil => intro b _ e; simpa using e
  | cons x xs ih =>
    intro b h e
    cases b with
    | nil => simp at e
    | cons y ys =>
      simp only [List.map_cons, List.cons.injEq] at e
      rw [code_inj (h x (by simp)) e.1, ih (fun z hz => h z (by simp [hz])) e.2]

theorem StreamPair.decode {m m' : StringStream F} {A T T' : List Str} (h : StreamPair m m' A T T') {w : List Int}
    (hw : ∀ c ∈ w, c ∈ A.map (code A)) : m'.tok.decode w = m.tok.decode w := by
  obtain ⟨toks, h1, rfl⟩ := codes_of hw
  have e1 : toks.map (code A) = toks.map (code T) := List.map_congr_left fun x hx => (h.ext x (h1 x hx)).symm
  have e2 : toks.map (code A) = toks.map (code T') := List.map_congr_left fun x hx => (h.ext' x (h1 x hx)).symm
  rw [e2, h.right.tok.decode_map fun x hx => h.right.sub x (h1 x hx), ← e2, e1, h.left.tok.decode_map fun x hx => h.left.sub x (h1 x hx)]

theorem StreamPair.alphabet {m m' : StringStream F} {A T T' : List Str} (h : StreamPair m m' A T T') : ∃ ws, m.alphabet = .ok ws ∧ m'.alphabet = .ok ws := by
  obtain ⟨d, d1, d2⟩ := h.left.inv.getDict h.dict
  have ha := h.left.inv.alphabet d1 d2
  refine ⟨_, by simp only [StringStream.alphabet, ha, ok_bind, pure_M]; rfl, ?_⟩
  simp only [StringStream.alphabet, h.same.alphabet, ha, ok_bind, pure_M]
  congr 1
  refine List.map_congr_left fun w hw => h.decode fun c hc => ?_
  have := (h.left.inv.alphabet_mem ha w hw).2 c hc
  rwa [List.map_congr_left h.ext] at this

theorem StreamPair.parse {E : Env F} (SL : ScoreLaws E.ops) {m m' : StringStream F} {A T T' : List Str} (h : StreamPair m m' A T T') (s : Str) :
    ∃ m1 m1' ps T1 T1', m.parse E.ops .rhsFirst s = .ok (m1, ps) ∧ m'.parse E.ops .rhsFirst s = .ok (m1', ps) ∧ StreamPair m1 m1' A T1 T1' := by
  have hd' : m'.stream.dict ≠ .null := by
    obtain ⟨d, _, d2⟩ := h.same.dict
    intro e
    simp only [Stream.getDict, e] at d2
    cases d2
  obtain ⟨m1, _, ps, p1, _, _, _, p2, p3, _⟩ := h.left.parse SL h.dict s
  obtain ⟨m1', _, ps', p1', _, _, _, p2', _⟩ := h.right.parse SL hd' s
  obtain ⟨t1, t2⟩ := transform_codes h.left.tok s
  obtain ⟨t1', t2'⟩ := transform_codes h.right.tok s
  rw [h.left.kind] at t1 t2
  rw [h.right.kind] at t1' t2'
  have himm : m'.stream.coder.encodeImm (m'.tok.transform .rhsFirst s).2 = m.stream.coder.encodeImm (m.tok.transform .rhsFirst s).2 := by
    rw [t2, t2', h.left.imm h.ext, h.right.imm h.ext', h.same.imm]
  have hext : ∀ x ∈ A, code (T ++ tokensOf .char s) x = code A x := fun x hx => by rw [code_append (h.left.sub x hx), h.ext x hx]
  have hext' : ∀ x ∈ A, code (T' ++ tokensOf .char s) x = code A x := fun x hx => by rw [code_append (h.right.sub x hx), h.ext' x hx]
  rcases h.same.parse' (O := E.ops) himm with ⟨e, e1, _⟩ | ⟨st, st', ids, q1, q2, q3, _⟩
  · simp only [StringStream.parse, e1] at p1
    cases p1
  · simp only [StringStream.parse, q1, ok_bind] at p1
    simp only [StringStream.parse, q2, ok_bind] at p1'
    obtain ⟨ws, w1, p1⟩ := bind_ok.1 p1
    obtain ⟨ws', w1', p1'⟩ := bind_ok.1 p1'
    cases p1
    cases p1'
    have hp : StreamPair { m with tok := (m.tok.transform .rhsFirst s).1, stream := st } { m' with tok := (m'.tok.transform .rhsFirst s).1, stream := st' }
      A _ _ := ⟨p2, p2', hext, hext', q3, p3⟩
    have hw : ps' = ps := by
      obtain ⟨d, d1, d2⟩ := q3.dict
      obtain ⟨vals, c1, c2⟩ := q3.coder
      obtain ⟨d', d1', d2'⟩ := p2.inv.getDict p3
      rw [show st.getDict = .ok d from d1] at d1'
      cases d1'
      have key : ∀ ids us, StringStream.wordsOf st (m.tok.transform .rhsFirst s).1 ids = .ok us →
          StringStream.wordsOf st' (m'.tok.transform .rhsFirst s).1 ids = .ok us := by
        intro ids
        induction ids with
        | nil => intro us h; exact h
        | cons i ids ih =>
          intro us h
          simp only [StringStream.wordsOf, d1, ok_bind] at h
          obtain ⟨raw, r1, h⟩ := bind_ok.1 h
          obtain ⟨w, r2, h⟩ := bind_ok.1 h
          obtain ⟨us', r3, h⟩ := bind_ok.1 h
          cases h
          obtain ⟨n, _, hn⟩ := rd_ok.1 r1
          have hm := d2'.symbols raw (List.mem_of_getElem? hn)
          have r2' : st'.coder.decode raw = .ok w := by rw [c2.decode, ← c1.decode]; exact r2
          have hwA : ∀ c ∈ w, c ∈ A.map (code A) := by
            rw [p2.inv.coder.decode, if_pos hm] at r2
            cases r2
            intro c hc
            obtain ⟨x, hx, rfl⟩ := List.mem_map.1 hc
            obtain ⟨x1, x2⟩ := hm x hx
            rw [List.getElem?_eq_getElem (by omega), Option.getD_some]
            have := seen_mem.1 (List.getElem_mem (l := seen (A.map (code (T ++ tokensOf .char s)))) (n := x.toNat) (by omega))
            have hl := List.map_congr_left hext
            exact hl ▸ this
          simp only [StringStream.wordsOf, d2, ok_bind, r1, r2', ih us' r3, pure_M]
          rw [show (m'.tok.transform .rhsFirst s).1.decode w = (m.tok.transform .rhsFirst s).1.decode w from hp.decode hwA]
      have := key ids ps w1
      rw [w1'] at this
      cases this
      rfl
    subst hw
    refine ⟨_, _, ps', _, _, ?_, ?_, hp⟩
    · simp only [StringStream.parse, q1, ok_bind, w1, pure_M]
    · simp only [StringStream.parse, q2, ok_bind, w1', pure_M]

theorem StreamPair.talk {E : Env F} (SL : ScoreLaws E.ops) : ∀ (texts : List Str) {m m' : StringStream F} {A T T' : List Str}, StreamPair m m' A T T' →
    ∃ r, streamTalk E.ops m texts = .ok r ∧ streamTalk E.ops m' texts = .ok r := by
  intro texts
  induction texts with
  | nil => intro m m' A T T' _; exact ⟨[], rfl, rfl⟩
  | cons s ss ih =>
    intro m m' A T T' h
    obtain ⟨m1, m1', ps, T1, T1', h1, h2, h3⟩ := h.parse SL s
    obtain ⟨ws, a1, a2⟩ := h3.alphabet
    obtain ⟨r, r1, r2⟩ := ih h3
    exact ⟨(ps, ws) :: r, by simp only [streamTalk, h1, ok_bind, a1, r1, pure_M], by simp only [streamTalk, h2, ok_bind, a2, r2, pure_M]⟩

/-- C59: a character-level text stream model survives a reload: after a history of calls on a fresh model that published a dictionary
and accepted no new character after parsing an unknown one, if the words are sorted and contain every accepted character, there is one frequency per word and
the probability is finite, then saving and loading succeed and the loaded model answers every list of `parse` calls with
the same strings, the alphabets staying equal as well.
Missing: characters accepted after an unknown one was parsed (`C59_unknown_first_false`), characters without a word (`C59_lost_character_false`), later
publications (`C51_surplus_false`), the other evaluation order. -/
theorem C59_text_stream_reload_partial (E : Env F) (L : EnvLaws E) (SL : ScoreLaws E.ops) (size : Int) (hsize : 1 ≤ size) (split : Bool)
    (m0 : StringStream F) (h0 : StringStream.new E.ops size split false = .ok m0) (calls : List TextCall) (hl : TextLegal false calls true)
    (hp : KnownFirst .char false [] calls) (hcap : ((seen (acceptedTokens .char calls)).length : Int) ≤ size) :
    ∃ m d mp ws, textRun E .rhsFirst m0 calls = .ok m ∧ m.stream.getDict = .ok d ∧ m.stream.minProb = some mp ∧ m.alphabet = .ok ws ∧
      (d.seqs.Pairwise (· < ·) → (∀ x ∈ acceptedTokens .char calls, x ∈ ws) → m.stream.freqs.length = ws.length → E.ops.isFinite mp = true →
        ∃ j m', Saver.saveStringStream E.ops m = .ok j ∧ Loader.loadStringStream E.ops j = .ok m' ∧ m'.alphabet = .ok ws ∧
          ∀ texts, ∃ r, streamTalk E.ops m texts = .ok r ∧ streamTalk E.ops m' texts = .ok r) := by
  obtain ⟨m, T, r1, r2, r3, r4, r5⟩ := textRun_fresh (k := .char) L SL hsize h0 hl rfl hcap
  have hT := r5 hp
  obtain ⟨d, d1, d2⟩ := r2.inv.getDict r3
  obtain ⟨mp, hmp⟩ := r2.inv.prob r3
  have ha : m.alphabet = .ok ((decodeWords ((acceptedTokens .char calls).map (code T)) d.seqs).map m.tok.decode) := by
    simp only [StringStream.alphabet, r2.inv.alphabet d1 d2, ok_bind, pure_M]
  refine ⟨m, d, mp, _, r1, d1, hmp, ha, fun hs hcov hf hfin => ?_⟩
  obtain ⟨j, m', q1, q2, q3, q4, q5, q6, q7⟩ := r2.reload d1 d2 hs hmp hfin (by simpa [decodeWords] using hf) r4
  have hcode : ∀ x ∈ acceptedTokens .char calls, code T x = code (acceptedTokens .char calls) x := fun x hx => by
    unfold code
    rw [idxOf_prefix hT (seen_mem.2 hx)]
  have hfull : ∀ x : Int, 0 ≤ x → x < ((seen ((acceptedTokens .char calls).map (code T))).length : Int) → [x] ∈ d.seqs := by
    intro x h0 hx
    obtain ⟨n, rfl⟩ := Int.eq_ofNat_of_zero_le h0
    have hn : n < (seen ((acceptedTokens .char calls).map (code T))).length := by omega
    obtain ⟨a, ha', hv⟩ := List.mem_map.1 (seen_mem.1 (List.getElem_mem hn))
    obtain ⟨v, hv', hva⟩ := List.mem_map.1 (hcov a ha')
    obtain ⟨u, hu, rfl⟩ := List.mem_map.1 hv'
    have hmem := (r2.inv.alphabet_mem (r2.inv.alphabet d1 d2) _ hv').2
    obtain ⟨toks, k1, k2⟩ := codes_of hmem
    rw [k2, r2.tok.decode_map fun x hx => r2.sub x (k1 x hx)] at hva
    have htoks : toks = [a] := by
      obtain ⟨c, rfl⟩ := acceptedTokens_char ha'
      have hne : ∀ y ∈ toks, y ≠ [] := fun y hy => r2.ne y (r2.sub y (k1 y hy))
      clear k1 k2
      match toks, hva, hne with
      | [y], h, _ => simpa using h
      | y :: z :: ys, h, hne =>
        exfalso
        have e1 := List.length_pos_iff.2 (hne y (by simp))
        have e2 := List.length_pos_iff.2 (hne z (by simp))
        have := congrArg List.length h
        simp at this
        omega
    rw [htoks, List.map_singleton, hv] at k2
    cases u with
    | nil => simp at k2
    | cons c u =>
      cases u with
      | nil =>
        obtain ⟨c1, c2⟩ := d2.symbols _ hu c (by simp)
        simp only [List.map_cons, List.map_nil, List.cons.injEq, and_true] at k2
        rw [List.getElem?_eq_getElem (by omega), Option.getD_some] at k2
        have : c.toNat = n := (seen_nodup _).getElem_inj_iff.1 k2
        rw [show (n : Int) = c by omega]
        exact hu
      | cons => simp at k2
  have htok := q7 hfull hT
  have hpair : StreamPair m m' (acceptedTokens .char calls) T (acceptedTokens .char calls) := by
    refine ⟨r2, ⟨q4, htok, fun x hx => hx, fun x hx => r2.ne x (r2.sub x hx), ?_⟩, hcode, fun x _ => rfl, q3, r3⟩
    have hn := seen_nodup ((acceptedTokens .char calls).map (code T))
    have := (SStart.loaded (O := E.ops) hn ⟨hs.imp fun h => ne_of_lt h, fun hm => d2.wf.nonempty _ hm rfl, d2.symbols, hfull⟩ r2.inv.freqs q5).inv.1
    refine this.congr ?_
    rw [seen_id hn, List.map_congr_left hcode]
  exact ⟨j, m', q1, q2, q6.trans ha, fun texts => hpair.talk SL texts⟩

set_option synthInstance.maxSize 2000 in
/-- A character-level model as in C59: unknown characters, a two-character word. -/
example : (do
    let m0 ← StringStream.new quickEnv.ops 3 false false
    let m ← textRun quickEnv .rhsFirst m0 [.accept "ab".toList, .accept "ABab".toList, .update, .parse "ba".toList]
    let d ← m.stream.getDict
    let j ← Saver.saveStringStream quickEnv.ops m
    let l ← Loader.loadStringStream quickEnv.ops j
    let a ← streamTalk quickEnv.ops m ["xaba".toList]
    let b ← streamTalk quickEnv.ops l ["xaba".toList]
    pure (decide (d.seqs.Pairwise (· < ·)), decide (m.stream.freqs.length = d.seqs.length), decide (a = b), a) : M (Bool × Bool × Bool × List (List Str × List Str))) =
  .ok (true, true, true, [(["ab".toList, "a".toList], ["a".toList, "ab".toList, "b".toList])]) := by decide +kernel

/-- A text stream model and its copy loaded from its file, asked to parse some texts: the alphabet, the answers of the one and of the other. -/
def streamReload (E : Env F) (size : Int) (calls : List TextCall) (texts : List Str) : M (List Str × List (List Str) × List (List Str)) := do
  let m0 ← StringStream.new E.ops size false false
  let m ← textRun E .rhsFirst m0 calls
  let ws ← m.alphabet
  let j ← Saver.saveStringStream E.ops m
  let l ← Loader.loadStringStream E.ops j
  let a ← streamTalk E.ops m texts
  let b ← streamTalk E.ops l texts
  pure (ws, a.map (·.1), b.map (·.1))

set_option synthInstance.maxSize 2000 in
/-- **C59 is false** when an unknown character was parsed before a new one was accepted: the codes have a gap, and the loaded tokenizer gives the code of a known
character to the unknown `y`, which then is reported twice for `yc`. -/
theorem C59_unknown_first_false : streamReload quickEnv 4 [.update, .parse "x".toList, .accept "c".toList, .update] ["c".toList, "yc".toList] =
    .ok (["c".toList], [["c".toList], ["c".toList]], [["c".toList], ["y".toList, "y".toList]]) := by decide +kernel

set_option synthInstance.maxSize 2000 in
/-- **C59 is false** when an accepted character has no word: its code stays in the file but the character does not, and the loaded model takes the unknown `x` for it. -/
theorem C59_lost_character_false : streamReload (Ext.env Rat fun x => (x - 1) / 200) 4
    [.accept "bab".toList, .accept "bb".toList, .accept "a".toList, .accept "a".toList, .accept "aa".toList, .accept "c".toList, .update] ["x".toList, "xc".toList] =
    .ok (["b".toList, "a".toList], [[], ["c".toList]], [["x".toList], ["x".toList]]) := by decide +kernel

set_option synthInstance.maxSize 2000 in
/-- A history that parses unknown characters, as allowed in `C59_text_stream_reload_partial`. -/
example : KnownFirst .char false [] [.accept "ab".toList, .update, .parse "xa".toList, .accept "ba".toList, .parse "y".toList] ∧
    streamReload quickEnv 3 [.accept "ab".toList, .update, .parse "xa".toList, .accept "ba".toList, .parse "y".toList] ["yab".toList] =
      .ok (["a".toList, "ab".toList, "b".toList], [["ab".toList]], [["ab".toList]]) := by
  refine ⟨⟨by decide, fun _ => by decide, trivial⟩, by decide +kernel⟩

/-! ## C55 -/

theorem tokenizerLoop_entries (O : FloatOps F) {c : SeqCoder} {vals : List Int} (hc : CInv c vals) : ∀ (words : List IntSeq) (freqs : List Int)
    (m : AMap Str Int), (∀ w ∈ words, ∀ x ∈ w, 0 ≤ x ∧ x < (vals.length : Int)) → words.length ≤ freqs.length → (∃ x, [x] ∈ words) →
    Loader.tokenizerLoop O c (entries words freqs) m = .error .jsonKey := by
  intro words
  induction words with
  | nil => intro freqs m _ _ h; simp at h
  | cons w ws ih =>
    intro freqs m hw h hx
    cases freqs with
    | nil => simp at h
    | cons fr frs =>
      have hdec : c.decode w = .ok (deco vals w) := by rw [hc.decode, if_pos (hw w (by simp))]; rfl
      show Loader.tokenizerLoop O c (.obj [(Json.kFreq, .int fr), (Json.kVec, .arr (w.map .int))] :: entries ws frs) m = _
      have hv : (Json.obj [(Json.kFreq, .int fr), (Json.kVec, .arr (w.map .int))] : Json F).fieldConst Json.kVec = .ok (.arr (w.map .int)) := rfl
      have ht : (Json.obj [(Json.kFreq, .int fr), (Json.kVec, .arr (w.map .int))] : Json F).fieldConst Json.kText = .error .jsonKey := rfl
      simp only [Loader.tokenizerLoop, hv, ok_bind, Json.getIntSeq, getInts_ints, hdec, ht]
      match w, hw with
      | [x], _ => rfl
      | [], _ =>
        exact ih frs m (fun v hv => hw v (by simp [hv])) (by simpa using h) (by simpa using hx)
      | _ :: _ :: _, _ =>
        exact ih frs m (fun v hv => hw v (by simp [hv])) (by simpa using h) (by simpa using hx)

/-- **C55 is false**: for every admissible history that published a non-empty, sorted dictionary, loading the file of an int stream model
as a text stream model reads a key that is not there, which is undefined behaviour and not an exception. -/
theorem C55_int_as_text_false (E : Env F) (L : EnvLaws E) (SL : ScoreLaws E.ops) (m0 : Stream F) (vals : List Int) (calls : List Call)
    (h : Admissible E.ops m0 vals calls true) : ∃ m d mp, run E m0 calls = .ok m ∧ m.getDict = .ok d ∧ m.minProb = some mp ∧
      (d.seqs.Pairwise (· < ·) → d.seqs.length ≤ m.freqs.length → E.ops.isFinite mp = true → d.seqs ≠ [] →
        ∃ j, Saver.saveStream E.ops m = .ok j ∧ Loader.loadStringStream E.ops j = .error .jsonKey) := by
  obtain ⟨m, r1, inv, hd, _⟩ := h.inv L SL
  obtain ⟨d, d1, d2⟩ := inv.getDict (hd rfl)
  obtain ⟨mp, hmp⟩ := inv.prob (hd rfl)
  refine ⟨m, d, mp, r1, d1, hmp, fun hs hl hfin hne => ?_⟩
  obtain ⟨j, m', k1, k2, k3, k4, k5, _⟩ := load_saved E.ops inv.coder d1 (d2.sorted hs) hmp hfin hl
  refine ⟨j, k1, ?_⟩
  rw [saveStream_eq E.ops inv.coder d1 hmp hl] at k1
  cases k1
  have e4 : (Json.obj (savedJson E.ops m (seen (vals ++ accepted calls)) d mp)).field Json.kAlphabet = .ok (.ofPushed (entries d.seqs m.freqs)) := rfl
  have hx : ∃ x, [x] ∈ d.seqs := by
    obtain ⟨w, hw⟩ := List.exists_mem_of_ne_nil _ hne
    obtain ⟨x, hx⟩ := List.exists_mem_of_ne_nil _ (d2.wf.nonempty w hw)
    exact ⟨x, d2.closed w hw x hx⟩
  simp only [Loader.loadStringStream, k2, ok_bind, Loader.loadTokenizer, e4, elems_ofPushed]
  rw [tokenizerLoop_entries E.ops k4 _ _ [] d2.symbols hl hx]
  rfl

/-- C55, the part that holds: loading the file of any int model, stream or not, as a fitted text model throws a type error.
Missing: loading it as a text stream model, `C55_int_as_text_false`. -/
theorem C55_int_as_fitted_text_partial (O : FloatOps F) (m : Stream F) (j : Json F) (h : Saver.saveStream O m = .ok j) :
    Loader.loadStringVGram O j = .error .jsonType := by
  simp only [Loader.loadStringVGram, loadInt_stream h]
  rfl

/-- A trained int model, saved and loaded as a text stream model. -/
example : (do
    let m ← run quickEnv (Stream.new quickEnv.ops 3) [.accept [7, 8], .accept [7, 8, 7, 8], .update]
    let j ← Saver.saveStream quickEnv.ops m
    let l ← Loader.loadStringStream quickEnv.ops j
    l.alphabet : M (List Str)) = .error .jsonKey := by decide +kernel

end VGram.Props
