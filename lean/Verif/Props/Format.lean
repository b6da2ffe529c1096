import Verif.Proofs.Saved
import Verif.Props.Loading
import Verif.Props.File

/-!
# The documented file format and the option without effect (C83, C84)
-/

namespace VGram.Props

open VGram Spec Dump Parse

variable {F : Type}

/-! ## C84 the file format -/

theorem itemsOf_pushed {j : Json F} {k : String} {l : List (Json F)} (h : Member j k (.ofPushed l)) : ItemsOf j k l := by
  refine Or.inl ⟨_, h, ?_⟩
  unfold Json.ofPushed
  split
  · next e => rw [List.isEmpty_iff.1 e]; exact .null
  · exact .arr l

theorem forall₂_ints (O : FloatOps F) (l : List Int) : List.Forall₂ (Whole O) (l.map .int) l := by
  induction l with
  | nil => exact .nil
  | cons x l ih => exact .cons (.int x) ih

theorem member_at {l : List (Str × Json F)} {k : String} {k' : Str} {v : Json F} (hk : k' = k.toList) (h : AMap.get? l k' = some v) : Member (.obj l) k v := by
  subst hk
  obtain ⟨a, b, h1, h2⟩ := get?_some_iff.1 h
  exact ⟨a, b, by rw [h1], h2⟩

theorem lacks_at {l : List (Str × Json F)} {k : String} {k' : Str} (hk : k' = k.toList) (h : AMap.get? l k' = none) : Lacks (.obj l) k := by
  subst hk
  exact ⟨l, rfl, get?_none_iff.1 h⟩

theorem decode_named {c : SeqCoder} {vals : List Int} (hc : CInv c vals) {w x : List Int} (h : c.decode w = .ok x) : Named vals w x := by
  rw [hc.decode] at h
  split at h
  · next hw =>
    cases h
    unfold Named
    induction w with
    | nil => exact .nil
    | cons k w ih =>
      refine .cons ⟨(hw k (by simp)).1, ?_⟩ (ih fun y hy => hw y (by simp [hy]))
      have := hw k (by simp)
      simp only [List.getElem?_eq_getElem (show k.toNat < vals.length by omega), Option.getD_some]
  · cases h

theorem decodeAll_forall₂ {c : SeqCoder} : ∀ {ws xs : List IntSeq}, Stream.decodeAll c ws = .ok xs → List.Forall₂ (fun w x => c.decode w = .ok x) ws xs
  | [], xs, h => by cases h; exact .nil
  | w :: ws, xs, h => by
    simp only [Stream.decodeAll] at h
    obtain ⟨x, h1, h⟩ := bind_ok.1 h
    obtain ⟨ys, h2, h⟩ := bind_ok.1 h
    cases h
    exact .cons h1 (decodeAll_forall₂ h2)

theorem alphabetLoop_some {freqs : List Int} {coder : SeqCoder} {t : Tokenizer} : ∀ {ws : List IntSeq} {i : Nat} {l : List (Json F)},
    Saver.alphabetLoop freqs coder (some t) i ws = .ok l → ∃ xs, Stream.decodeAll coder ws = .ok xs ∧ ws.length ≤ (freqs.drop i).length ∧
      List.Forall₂ (fun e p => TextEntry e p.1 p.2.1 (t.decode p.2.2)) l ((freqs.drop i).zip (ws.zip xs))
  | [], i, l, h => by cases h; exact ⟨[], rfl, by simp, by simp⟩
  | w :: ws, i, l, h => by
    simp only [Saver.alphabetLoop] at h
    obtain ⟨f, hf, h⟩ := bind_ok.1 h
    obtain ⟨x, hx, h⟩ := bind_ok.1 h
    obtain ⟨text, h2, h⟩ := bind_ok.1 h
    obtain ⟨rest, h3, h⟩ := bind_ok.1 h
    cases h2
    cases h
    obtain ⟨xs, r1, r2, r3⟩ := alphabetLoop_some h3
    rw [rd_nat] at hf
    have hi : i < freqs.length := by
      by_contra hn
      rw [List.getElem?_eq_none (by omega)] at hf
      cases hf
    rw [List.getElem?_eq_getElem hi] at hf
    cases hf
    rw [List.drop_eq_getElem_cons hi]
    refine ⟨x :: xs, by simp only [Stream.decodeAll, hx, r1, ok_bind]; rfl, by simp at r2 ⊢; omega, ?_⟩
    simp only [List.zip_cons_cons]
    exact .cons ⟨⟨_, rfl, rfl⟩, member_at (k' := Json.kFreq) rfl rfl, member_at (k' := Json.kText) rfl rfl, member_at (k' := Json.kVec) rfl rfl⟩ r3

theorem alphabetLoop_bare {freqs : List Int} {coder : SeqCoder} : ∀ {ws : List IntSeq} {i : Nat} {l : List (Json F)},
    Saver.alphabetLoop freqs coder none i ws = .ok l → ws.length ≤ (freqs.drop i).length ∧
      List.Forall₂ (fun e p => BareEntry e p.1 p.2) l ((freqs.drop i).zip ws)
  | [], i, l, h => by cases h; exact ⟨by simp, by simp⟩
  | w :: ws, i, l, h => by
    simp only [Saver.alphabetLoop] at h
    obtain ⟨f, hf, h⟩ := bind_ok.1 h
    obtain ⟨text, h2, h⟩ := bind_ok.1 h
    obtain ⟨rest, h3, h⟩ := bind_ok.1 h
    cases h2
    cases h
    obtain ⟨r2, r3⟩ := alphabetLoop_bare h3
    rw [rd_nat] at hf
    have hi : i < freqs.length := by
      by_contra hn
      rw [List.getElem?_eq_none (by omega)] at hf
      cases hf
    rw [List.getElem?_eq_getElem hi] at hf
    cases hf
    rw [List.drop_eq_getElem_cons hi]
    refine ⟨by simp at r2 ⊢; omega, ?_⟩
    simp only [List.zip_cons_cons]
    exact .cons ⟨⟨_, rfl, rfl⟩, member_at (k' := Json.kFreq) rfl rfl, member_at (k' := Json.kVec) rfl rfl⟩ r3

/-- **C84**, integer models: the file of a published stream model has the documented members and no others; `size` is the requested size,
`coder` lists the symbols in the order of their first occurrence, and `alphabet` has one entry per word of `alphabet()` in the same order, with the frequency of the
same index and the codes of its symbols.  In the sense of `Describes` the file describes exactly this model. -/
theorem C84_stream_file (E : Env F) (L : EnvLaws E) (SL : ScoreLaws E.ops) (N : FiniteLaws E.ops) (m0 : Stream F) (vals : List Int) (calls : List Call)
    (h : Admissible E.ops m0 vals calls true) (h0 : ∀ mp, m0.minProb = some mp → E.ops.isFinite mp = true) :
    ∃ m ws mp, run E m0 calls = .ok m ∧ m.alphabet = .ok ws ∧ m.minProb = some mp ∧ ∀ j, Saver.saveStream E.ops m = .ok j →
      ∃ codes l, Keys j ["alphabet", "coder", "min_prob", "size"] ∧ Member j "size" (.int m0.size) ∧ Member j "min_prob" (.num mp) ∧
        ItemsOf j "coder" ((seen (vals ++ accepted calls)).map .int) ∧ ItemsOf j "alphabet" l ∧
        List.Forall₂ (fun e p => BareEntry e p.1 p.2) l (m.freqs.zip codes) ∧ codes.length ≤ m.freqs.length ∧
        List.Forall₂ (Named (seen (vals ++ accepted calls))) codes ws ∧
        Describes E.ops j m0.size mp (seen (vals ++ accepted calls)) (m.freqs.zip codes) := by
  obtain ⟨m, r1, inv, hd, _⟩ := h.inv L SL
  obtain ⟨m', r1', hfin, _⟩ := C80_finite E L SL N m0 vals calls true h h0
  rw [r1] at r1'
  cases r1'
  obtain ⟨d, d1, d2⟩ := inv.getDict (hd rfl)
  obtain ⟨mp, hmp⟩ := inv.prob (hd rfl)
  have ha := inv.alphabet d1 d2
  refine ⟨m, _, mp, r1, ha, hmp, fun j hj => ?_⟩
  obtain ⟨b, hb, hj⟩ := bind_ok.1 hj
  cases hj
  obtain ⟨mp', d', alpha, e1, e2, e3, rfl⟩ := baseInfo_shape hb
  rw [hmp] at e1
  cases e1
  rw [d1] at e2
  cases e2
  obtain ⟨l1, l2⟩ := alphabetLoop_bare e3
  have hc := coderJson_eq (F := F) inv.coder
  have hn : Json.ofNum E.ops mp = .num mp := by simp only [Json.ofNum, hfin mp hmp, if_true]
  rw [hc, hn, run_size _ r1]
  have ms := member_at (F := F) (l := [(Json.kAlphabet, .ofPushed alpha), (Json.kCoder, .ofPushed ((seen (vals ++ accepted calls)).map .int)),
    (Json.kMinProb, .num mp), (Json.kSize, .int m0.size)]) (k := "size") (k' := Json.kSize) rfl rfl
  have mm := member_at (F := F) (l := [(Json.kAlphabet, .ofPushed alpha), (Json.kCoder, .ofPushed ((seen (vals ++ accepted calls)).map .int)),
    (Json.kMinProb, .num mp), (Json.kSize, .int m0.size)]) (k := "min_prob") (k' := Json.kMinProb) rfl rfl
  have mc := itemsOf_pushed (member_at (F := F) (l := [(Json.kAlphabet, .ofPushed alpha), (Json.kCoder, .ofPushed ((seen (vals ++ accepted calls)).map .int)),
    (Json.kMinProb, .num mp), (Json.kSize, .int m0.size)]) (k := "coder") (k' := Json.kCoder) rfl rfl)
  have ma := itemsOf_pushed (member_at (F := F) (l := [(Json.kAlphabet, .ofPushed alpha), (Json.kCoder, .ofPushed ((seen (vals ++ accepted calls)).map .int)),
    (Json.kMinProb, .num mp), (Json.kSize, .int m0.size)]) (k := "alphabet") (k' := Json.kAlphabet) rfl rfl)
  refine ⟨d.seqs, alpha, ⟨_, rfl, rfl⟩, ms, mm, mc, ma, l2, l1, ?_, ⟨⟨_, ms, .int _⟩, ⟨_, mm, .num _⟩, ⟨_, mc, forall₂_ints _ _⟩⟩, ⟨_, ma, ?_⟩⟩
  · simp only [Stream.alphabet, d1, ok_bind] at ha
    exact (decodeAll_forall₂ ha).imp fun _ _ h => decode_named inv.coder h
  · exact l2.imp fun e p he => ⟨_, _, he.freq, .int _, he.vec, forall₂_ints _ _⟩

/-- **C84**, text stream models: whatever the model, a saved file has the documented members, and its entries carry the texts of `alphabet()` in order. -/
theorem C84_text_stream_file (O : FloatOps F) {m : StringStream F} {j : Json F} (h : Saver.saveStringStream O m = .ok j) :
    ∃ d ws l, m.stream.getDict = .ok d ∧ m.alphabet = .ok ws ∧ ws.length = d.seqs.length ∧ ws.length ≤ m.stream.freqs.length ∧
      Keys j ["alphabet", "coder", "min_prob", "size"] ∧ Member j "size" (.int m.stream.size) ∧ ItemsOf j "alphabet" l ∧
      List.Forall₂ (fun e p => TextEntry e p.1 p.2.1 p.2.2) l (m.stream.freqs.zip (d.seqs.zip ws)) := by
  obtain ⟨b, hb, hj⟩ := bind_ok.1 h
  cases hj
  obtain ⟨mp, d, alpha, e1, e2, e3, rfl⟩ := baseInfo_shape hb
  obtain ⟨xs, l1, l2, l3⟩ := alphabetLoop_some e3
  have hlen : d.seqs.length = xs.length := (decodeAll_forall₂ l1).length_eq
  refine ⟨d, xs.map m.tok.decode, alpha, e2, ?_, by simp [hlen], by simpa [hlen] using l2, ⟨_, rfl, rfl⟩, member_at (k' := Json.kSize) rfl rfl,
    itemsOf_pushed (member_at (k' := Json.kAlphabet) rfl rfl), ?_⟩
  · simp only [StringStream.alphabet, Stream.alphabet, e2, ok_bind, l1, pure_M]
  · rw [List.zip_map_right, List.zip_map_right, List.forall₂_map_right_iff]
    exact l3

/-- **C84**, fitted text models: in addition the two flags. -/
theorem C84_text_file (O : FloatOps F) {m : StringVGram F} {j : Json F} (h : Saver.saveStringVGram O m = .ok j) :
    ∃ d ws l, m.int.toStream.getDict = .ok d ∧ m.alphabet = .ok ws ∧ ws.length = d.seqs.length ∧ ws.length ≤ m.int.freqs.length ∧
      Keys j ["alphabet", "coder", "fitted", "freqs_computed", "min_prob", "size"] ∧ Member j "size" (.int m.int.size) ∧
      Member j "fitted" (.bool m.int.fitted) ∧ Member j "freqs_computed" (.bool m.int.freqsComputed) ∧ ItemsOf j "alphabet" l ∧
      List.Forall₂ (fun e p => TextEntry e p.1 p.2.1 p.2.2) l (m.int.freqs.zip (d.seqs.zip ws)) := by
  obtain ⟨b, hb, hj⟩ := bind_ok.1 h
  cases hj
  obtain ⟨mp, d, alpha, e1, e2, e3, rfl⟩ := baseInfo_shape hb
  obtain ⟨xs, l1, l2, l3⟩ := alphabetLoop_some e3
  have hlen : d.seqs.length = xs.length := (decodeAll_forall₂ l1).length_eq
  refine ⟨d, xs.map m.tok.decode, alpha, e2, ?_, by simp [hlen], by simpa [hlen] using l2, ⟨_, rfl, rfl⟩, member_at (k' := Json.kSize) rfl rfl,
    member_at (k' := Json.kFitted) rfl rfl, member_at (k' := Json.kFreqsComputed) rfl rfl, itemsOf_pushed (member_at (k' := Json.kAlphabet) rfl rfl), ?_⟩
  · simp only [StringVGram.alphabet, Stream.alphabet, e2, ok_bind, l1, pure_M]
  · rw [List.zip_map_right, List.zip_map_right, List.forall₂_map_right_iff]
    exact l3

/-- **C84**, fitted integer models: everything but the flags, which are missing, see `C84_int_flags_false`. -/
theorem C84_int_file_partial (O : FloatOps F) {m : IntVGram F} {j : Json F} (h : Saver.saveIntVGram O m = .ok j) :
    ∃ d l, m.toStream.getDict = .ok d ∧ d.seqs.length ≤ m.freqs.length ∧ Keys j ["alphabet", "coder", "min_prob", "size"] ∧ Member j "size" (.int m.size) ∧
      ItemsOf j "alphabet" l ∧ List.Forall₂ (fun e p => BareEntry e p.1 p.2) l (m.freqs.zip d.seqs) := by
  obtain ⟨b, hb, hj⟩ := bind_ok.1 h
  cases hj
  obtain ⟨mp, d, alpha, e1, e2, e3, rfl⟩ := baseInfo_shape hb
  obtain ⟨l1, l2⟩ := alphabetLoop_bare e3
  exact ⟨d, alpha, e2, l1, ⟨_, rfl, rfl⟩, member_at (k' := Json.kSize) rfl rfl, itemsOf_pushed (member_at (k' := Json.kAlphabet) rfl rfl), l2⟩

/-- **C84** is false for fitted integer models: their files never have the documented flags. -/
theorem C84_int_flags_false (O : FloatOps F) {m : IntVGram F} {j : Json F} (h : Saver.saveIntVGram O m = .ok j) :
    Lacks j "fitted" ∧ Lacks j "freqs_computed" := by
  obtain ⟨b, hb, hj⟩ := bind_ok.1 h
  cases hj
  obtain ⟨mp, d, alpha, e1, e2, e3, rfl⟩ := baseInfo_shape hb
  exact ⟨lacks_at (k' := Json.kFitted) rfl rfl, lacks_at (k' := Json.kFreqsComputed) rfl rfl⟩

/-- The text of a member of a tree, without white space. -/
def memberText (j : Json (Ext Rat)) (k : String) : M Str := do
  let v ← j.field k.toList
  pure ((writeFile quickEnv.ops ratText v).text.filter fun c => c ≠ ' ' ∧ c ≠ '\n')

/-- Parts of the files of an integer model and a text model. -/
example : (do
      let m ← run quickEnv (Stream.new quickEnv.ops 4) [.accept [7, 8, 7, 8, 7, 8], .accept [7, 8, 7, 8], .update, .accept [7, 8], .update, .parse [7, 8]]
      let j ← Saver.saveStream quickEnv.ops m
      let a ← memberText j "alphabet"
      let b ← memberText j "coder"
      let c ← memberText j "size"
      pure [a, b, c] : M (List Str)) =
    .ok ["[{\"freq\":0,\"vec\":[0]},{\"freq\":0,\"vec\":[0,1]},{\"freq\":0,\"vec\":[1]}]".toList, "[7,8]".toList, "4".toList] ∧
    (do
      let m ← StringStream.new quickEnv.ops 4 true false
      let m ← textRun quickEnv .rhsFirst m [.accept "a b a b a b a b".toList, .accept "a b a b".toList, .accept "a b a b".toList, .update]
      let j ← Saver.saveStringStream quickEnv.ops m
      memberText j "alphabet" : M Str) =
    .ok "[{\"freq\":0,\"text\":\"a\",\"vec\":[0]},{\"freq\":2,\"text\":\"ab\",\"vec\":[0,1]},{\"freq\":0,\"text\":\"b\",\"vec\":[1]}]".toList := by
  decide +kernel

/-- The history of the first file is admissible. -/
example : Admissible quickEnv.ops (Stream.new quickEnv.ops 4) [] [.accept [7, 8, 7, 8, 7, 8], .accept [7, 8, 7, 8], .update, .accept [7, 8], .update, .parse [7, 8]] true :=
  ⟨_, _, .fresh (by norm_num), .accept (.accept (.update (.accept (.update (.parse .nil))))), by decide⟩

/-! ## C83 an option without effect -/

/-- Equal up to the two options. -/
structure SameText (a b : StringStream F) : Prop where
  stream : a.stream = b.stream
  tok : a.tok = b.tok

/-- Equal outcomes up to the two options. -/
inductive SameOutcome : M (StringStream F) → M (StringStream F) → Prop
  | ok {a b : StringStream F} : SameText a b → SameOutcome (.ok a) (.ok b)
  | error (e : Fault) : SameOutcome (.error e) (.error e)

theorem SameText.parse {O : FloatOps F} {o : EvalOrder} {a b : StringStream F} (h : SameText a b) (s : Str) :
    (a.parse O o s).map Prod.snd = (b.parse O o s).map Prod.snd ∧ SameOutcome ((a.parse O o s).map Prod.fst) ((b.parse O o s).map Prod.fst) := by
  obtain ⟨st, t, p, q⟩ := a
  obtain ⟨st', t', p', q'⟩ := b
  obtain ⟨h1, h2⟩ := h
  dsimp only at h1 h2
  subst h1 h2
  simp only [StringStream.parse]
  cases st.parse O (t.transform o s).2 with
  | error e => exact ⟨rfl, .error e⟩
  | ok r =>
    obtain ⟨st1, ids⟩ := r
    simp only [ok_bind]
    cases StringStream.wordsOf st1 (t.transform o s).1 ids with
    | error e => exact ⟨rfl, .error e⟩
    | ok ws => exact ⟨rfl, .ok ⟨rfl, rfl⟩⟩

theorem SameText.call {E : Env F} {o : EvalOrder} {a b : StringStream F} (h : SameText a b) (c : TextCall) : SameOutcome (textCall E o a c) (textCall E o b c) := by
  cases c with
  | parse s =>
    have h1 := (h.parse (O := E.ops) (o := o) s).2
    simp only [textCall]
    generalize a.parse E.ops o s = x at h1
    generalize b.parse E.ops o s = y at h1
    cases x <;> cases y <;> exact h1
  | accept s =>
    obtain ⟨st, t, p, q⟩ := a
    obtain ⟨st', t', p', q'⟩ := b
    obtain ⟨h1, h2⟩ := h
    dsimp only at h1 h2
    subst h1 h2
    simp only [textCall, StringStream.accept]
    cases st.accept E (t.transform o s).2 with
    | error e => exact .error e
    | ok r => exact .ok ⟨rfl, rfl⟩
  | update =>
    obtain ⟨st, t, p, q⟩ := a
    obtain ⟨st', t', p', q'⟩ := b
    obtain ⟨h1, h2⟩ := h
    dsimp only at h1 h2
    subst h1 h2
    simp only [textCall, StringStream.updateDict]
    cases st.updateDict E.ops with
    | error e => exact .error e
    | ok r => exact .ok ⟨rfl, rfl⟩

theorem SameText.run {E : Env F} {o : EvalOrder} : ∀ (calls : List TextCall) {a b : StringStream F}, SameText a b → SameOutcome (textRun E o a calls) (textRun E o b calls)
  | [], _, _, h => .ok h
  | c :: cs, a, b, h => by
    have h1 := h.call (E := E) (o := o) c
    simp only [textRun]
    generalize textCall E o a c = x at h1
    generalize textCall E o b c = y at h1
    cases h1 with
    | ok h => exact SameText.run cs h
    | error e => exact .error e

/-- **C83**: the option `inner_words_split` has no effect: after the same calls a model made with it has the same alphabet, the same file and the same answer to
`parse`, or fails in the same way, as a model made without it. -/
theorem C83_option_ignored (E : Env F) (o : EvalOrder) (size : Int) (calls : List TextCall) : ∃ m m', StringStream.new E.ops size true false = .ok m ∧
    StringStream.new E.ops size false false = .ok m' ∧
    (textRun E o m calls >>= fun x => x.alphabet) = (textRun E o m' calls >>= fun x => x.alphabet) ∧
    (textRun E o m calls >>= fun x => Saver.saveStringStream E.ops x) = (textRun E o m' calls >>= fun x => Saver.saveStringStream E.ops x) ∧
    ∀ s, (textRun E o m calls >>= fun x => (x.parse E.ops o s).map Prod.snd) = (textRun E o m' calls >>= fun x => (x.parse E.ops o s).map Prod.snd) := by
  refine ⟨⟨Stream.new E.ops size, Tokenizer.new .char, false, true⟩, ⟨Stream.new E.ops size, Tokenizer.new .char, false, false⟩, rfl, rfl, ?_⟩
  have h := SameText.run (E := E) (o := o) calls (a := ⟨Stream.new E.ops size, Tokenizer.new .char, false, true⟩)
    (b := ⟨Stream.new E.ops size, Tokenizer.new .char, false, false⟩) ⟨rfl, rfl⟩
  generalize textRun E o ⟨Stream.new E.ops size, Tokenizer.new .char, false, true⟩ calls = x at h ⊢
  generalize textRun E o ⟨Stream.new E.ops size, Tokenizer.new .char, false, false⟩ calls = y at h ⊢
  cases h with
  | error e => exact ⟨rfl, rfl, fun _ => rfl⟩
  | @ok a b h =>
    refine ⟨?_, ?_, fun s => (h.parse s).1⟩
    · simp only [ok_bind, StringStream.alphabet, h.stream, h.tok]
    · simp only [ok_bind, Saver.saveStringStream, h.stream, h.tok]

/-- **C83**, what the option promises, is false: a word learned with it spans two words of the text. -/
theorem C83_inner_split_false : (do
      let m ← StringStream.new quickEnv.ops 4 true false
      let m ← textRun quickEnv .rhsFirst m [.accept "a b a b a b a b".toList, .accept "a b a b".toList, .accept "a b a b".toList, .update]
      m.alphabet : M (List Str)) = .ok ["a".toList, "ab".toList, "b".toList] := by decide +kernel

end VGram.Props
