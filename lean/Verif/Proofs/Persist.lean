import Verif.Props.Text

/-! # Saving and loading -/

namespace VGram

open Spec Props

variable {F : Type}

/-! ## The dictionary object is determined by its sorted words -/

theorem isParent_unique {seqs : List IntSeq} {i : Nat} {p q : Int} (hi : i < seqs.length) (hp : IsParent seqs i p)
    (hq : IsParent seqs i q) : p = q := by
  have hs := List.getElem?_eq_getElem hi
  rcases hp _ hs with ⟨rfl, a⟩ | ⟨j, j1, rfl, ⟨v, v1, v2⟩, a⟩ <;> rcases hq _ hs with ⟨rfl, b⟩ | ⟨k, k1, rfl, ⟨w, w1, w2⟩, b⟩
  · rfl
  · exact absurd w2 (a k k1 w w1)
  · exact absurd v2 (b j j1 v v1)
  · have h1 : ¬ j < k := fun h => a k h k1 w w1 w2
    have h2 : ¬ k < j := fun h => b j h j1 v v1 v2
    have : j = k := by omega
    rw [this]

theorem init_self {d : IntDict} (h : Sorted d) : IntDict.init d.seqs = .ok d := by
  obtain ⟨ps, h1, h2, h3⟩ := init_spec d.seqs
  rw [sortSeqs_id h.le] at h1 h3
  have : ps = d.parents := by
    apply List.ext_getElem (by rw [h2, h.len])
    intro i hi hi'
    exact isParent_unique (by rw [← h.len]; exact hi') (h3 i _ (List.getElem?_eq_getElem hi)) (h.par i _ (List.getElem?_eq_getElem hi'))
  rw [h1, this]

/-! ## Loading what was saved -/

theorem readCoder_ints (O : FloatOps F) : ∀ (vals : List Int) (c : SeqCoder),
    Loader.readCoder O (vals.map .int) c = .ok (c.encode vals).1 := by
  intro vals
  induction vals with
  | nil => intro c; rfl
  | cons x xs ih =>
    intro c
    simp only [List.map_cons, Loader.readCoder, Json.getInt, ok_bind, ih]
    rfl

theorem elems_ofPushed (l : List (Json F)) : (Json.ofPushed l).elems = l := by
  cases l <;> rfl

theorem getInts_ints (O : FloatOps F) : ∀ (w : List Int), Json.getInts O (w.map .int) = .ok w := by
  intro w
  induction w with
  | nil => rfl
  | cons x xs ih => simp only [List.map_cons, Json.getInts, Json.getInt, ok_bind, ih, pure_M]

theorem readAlphabet_entries (O : FloatOps F) : ∀ (words : List IntSeq) (freqs : List Int), words.length ≤ freqs.length →
    Loader.readAlphabet O (entries words freqs) = .ok (freqs.take words.length, words) := by
  intro words
  induction words with
  | nil => intro freqs _; rfl
  | cons w ws ih =>
    intro freqs h
    cases freqs with
    | nil => simp at h
    | cons f fs =>
      have := ih fs (by simpa using h)
      show Loader.readAlphabet O (.obj [(Json.kFreq, .int f), (Json.kVec, .arr (w.map .int))] :: entries ws fs) = _
      simp only [Loader.readAlphabet, this]
      simp [Json.fieldConst, AMap.get?, Json.kVec, Json.kFreq, Json.getInt, Json.getIntSeq, getInts_ints]

/-- What saving a model with enough frequencies writes. -/
def savedJson (O : FloatOps F) (m : Stream F) (vals : List Int) (d : IntDict) (mp : F) : List (Str × Json F) :=
  [(Json.kAlphabet, .ofPushed (entries d.seqs m.freqs)), (Json.kCoder, .ofPushed (vals.map .int)), (Json.kMinProb, Json.ofNum O mp),
    (Json.kSize, .int m.size)]

theorem saveStream_eq (O : FloatOps F) {m : Stream F} {vals : List Int} {d : IntDict} {mp : F} (hc : CInv m.coder vals)
    (hd : m.getDict = .ok d) (hmp : m.minProb = some mp) (hl : d.seqs.length ≤ m.freqs.length) :
    Saver.saveStream O m = .ok (.obj (savedJson O m vals d mp)) := by
  simp only [Saver.saveStream, Saver.baseInfo, hmp, pure_M, ok_bind, hd, alphabetLoop_none]
  rw [if_pos (Or.inr (by omega)), coderJson_eq hc]
  rfl

theorem readDict_saved (O : FloatOps F) {m : Stream F} {vals : List Int} {d : IntDict} {mp : F} 
    (hf : O.isFinite mp = true) (hl : d.seqs.length ≤ m.freqs.length) :
    Loader.readDict O (.obj (savedJson O m vals d mp)) =
      .ok ⟨m.size, mp, (SeqCoder.new.encode vals).1, m.freqs.take d.seqs.length, d.seqs⟩ := by
  have e1 : (Json.obj (savedJson O m vals d mp)).field Json.kSize = .ok (.int m.size) := rfl
  have e2 : (Json.obj (savedJson O m vals d mp)).field Json.kMinProb = .ok (.num mp) := by
    have : (Json.obj (savedJson O m vals d mp)).field Json.kMinProb = .ok (Json.ofNum O mp) := rfl
    rw [this, Json.ofNum, if_pos hf]
  have e3 : (Json.obj (savedJson O m vals d mp)).field Json.kCoder = .ok (.ofPushed (vals.map .int)) := rfl
  have e4 : (Json.obj (savedJson O m vals d mp)).field Json.kAlphabet = .ok (.ofPushed (entries d.seqs m.freqs)) := rfl
  simp only [Loader.readDict, e1, e2, e3, e4, ok_bind, Json.getInt, Json.getNum, elems_ofPushed, readCoder_ints,
    readAlphabet_entries O _ _ hl, pure_M]

theorem coder_loaded {vals : List Int} (h : vals.Nodup) : CInv (SeqCoder.new.encode vals).1 vals := by
  have := (CInv.new.encode (hist := []) vals).1
  rwa [List.nil_append, seen_id h] at this

/-- A model that was saved and loaded: everything a client can see agrees. -/
structure Restored (m m' : Stream F) : Prop where
  dict : ∃ d, m.getDict = .ok d ∧ m'.getDict = .ok d
  coder : ∃ vals, CInv m.coder vals ∧ CInv m'.coder vals
  freqs : m'.freqs = m.freqs
  total : m'.totalFreqs = m.totalFreqs
  alpha : ∃ a, m.builder.alpha = .ok a
  alpha' : ∃ a, m'.builder.alpha = .ok a

theorem builder_alpha_ok {b : Builder F} (h : b.resultIdx < b.stats.length) : ∃ d, b.alpha = .ok d := by
  obtain ⟨ps, hd, _⟩ := init_spec b.stats[b.resultIdx].dict.seqs
  exact ⟨_, by simp only [Builder.alpha, rd_of_lt h, ok_bind]; exact hd⟩

theorem ofSaved_spec (O : FloatOps F) {d : IntDict} (hs : Sorted d) (coder : SeqCoder) (freqs : List Int) (size : Int) (mp : F) :
    ∃ m, Stream.ofSaved O coder freqs d.seqs size mp = .ok m ∧ m.getDict = .ok d ∧ m.coder = coder ∧ m.freqs = freqs ∧
      m.totalFreqs = sumI freqs ∧ m.size = size ∧ m.minProb = some mp ∧ ∃ a, m.builder.alpha = .ok a := by
  have hb : ∃ b, Builder.ofSaved O d freqs d.seqs mp = .ok b ∧ ∃ a, b.alpha = .ok a := by
    simp only [Builder.ofSaved, StatDict.ofSeqs, init_self hs, ok_bind, pure_M]
    exact ⟨_, rfl, builder_alpha_ok (by simp [Builder.resultIdx])⟩
  obtain ⟨b, hb, ha⟩ := hb
  refine ⟨⟨size, b, .own, d, coder, freqs, sumI freqs, some mp⟩, ?_, rfl, rfl, rfl, rfl, rfl, rfl, ha⟩
  simp only [Stream.ofSaved, init_self hs, hb, ok_bind, pure_M]

theorem load_saved (O : FloatOps F) {m : Stream F} {vals : List Int} {d : IntDict} {mp : F} (hc : CInv m.coder vals)
    (hd : m.getDict = .ok d) (hs : Sorted d) (hmp : m.minProb = some mp) (hf : O.isFinite mp = true)
    (hl : d.seqs.length ≤ m.freqs.length) :
    ∃ j m', Saver.saveStream O m = .ok j ∧ Loader.loadStream O j = .ok m' ∧ m'.getDict = .ok d ∧ CInv m'.coder vals ∧
      m'.freqs = m.freqs.take d.seqs.length ∧ m'.totalFreqs = sumI (m.freqs.take d.seqs.length) ∧ m'.size = m.size ∧
      m'.minProb = some mp ∧ ∃ a, m'.builder.alpha = .ok a := by
  obtain ⟨m', h1, h2, h3, h4, h5, h6, h7, h8⟩ := ofSaved_spec O hs (SeqCoder.new.encode vals).1 (m.freqs.take d.seqs.length) m.size mp
  refine ⟨_, m', saveStream_eq O hc hd hmp hl, ?_, h2, h3 ▸ coder_loaded hc.nodup, h4, h5, h6, h7, h8⟩
  simp only [Loader.loadStream, readDict_saved O hf hl, ok_bind, h1]

/-! ## Observations -/

theorem Restored.alphabet {m m' : Stream F} (h : Restored m m') : m'.alphabet = m.alphabet := by
  obtain ⟨d, d1, d2⟩ := h.dict
  obtain ⟨vals, c1, c2⟩ := h.coder
  simp only [Stream.alphabet, d1, d2, ok_bind]
  have hdec : ∀ w, m'.coder.decode w = m.coder.decode w := fun w => by rw [c1.decode, c2.decode]
  generalize d.seqs = words
  induction words with
  | nil => rfl
  | cons w ws ih => simp only [Stream.decodeAll, hdec, ih]

theorem Restored.imm {m m' : Stream F} (h : Restored m m') (seq : IntSeq) : m'.coder.encodeImm seq = m.coder.encodeImm seq := by
  obtain ⟨vals, c1, c2⟩ := h.coder
  rw [c1.imm, c2.imm]

theorem Restored.parse' {O : FloatOps F} {m m' : Stream F} (h : Restored m m') {seq seq' : IntSeq}
    (himm : m'.coder.encodeImm seq' = m.coder.encodeImm seq) :
    (∃ e, m.parse O seq = .error e ∧ m'.parse O seq' = .error e) ∨
      ∃ m1 m1' ids, m.parse O seq = .ok (m1, ids) ∧ m'.parse O seq' = .ok (m1', ids) ∧ Restored m1 m1' ∧
        m1.coder = m.coder ∧ m1'.coder = m'.coder := by
  obtain ⟨d, d1, d2⟩ := h.dict
  obtain ⟨vals, c1, c2⟩ := h.coder
  obtain ⟨a, a1⟩ := h.alpha
  obtain ⟨a', a1'⟩ := h.alpha'
  simp only [Stream.parse, a1, a1', d1, d2, ok_bind, himm, h.freqs, h.total]
  cases hp : d.parse O (m.coder.encodeImm seq) m.freqs m.totalFreqs [] with
  | error e => exact Or.inl ⟨e, rfl, rfl⟩
  | ok r =>
    obtain ⟨f1, f2, f3, f4, f5, f6, f7, f8, f9, f10⟩ := m.setDict_frame r.1
    obtain ⟨g1, g2, g3, g4, g5, g6, g7, g8, g9, g10⟩ := m'.setDict_frame r.1
    refine Or.inr ⟨m.setDict r.1, m'.setDict r.1, r.2.1, rfl, rfl, ?_, f2, g2⟩
    have halpha : ∀ (k : Stream F) (x : IntDict), k.builder.alpha = .ok x → ∃ a, (k.setDict r.1).builder.alpha = .ok a := by
      intro k x hx
      obtain ⟨f1, f2, f3, f4, f5, f6, f7, f8, f9, f10⟩ := k.setDict_frame r.1
      refine builder_alpha_ok ?_
      rw [f10, Builder.resultIdx, f9, f8]
      simp only [Builder.alpha] at hx
      obtain ⟨s, s1, _⟩ := bind_ok.1 hx
      exact (List.getElem?_eq_some_iff.1 (rd_nat_ok.1 s1)).1
    exact ⟨⟨r.1, Stream.getDict_setDict d1 _, Stream.getDict_setDict d2 _⟩, ⟨vals, by rw [f2]; exact c1, by rw [g2]; exact c2⟩,
      by rw [f3, g3, h.freqs], by rw [f4, g4, h.total], halpha m a a1, halpha m' a' a1'⟩

theorem Restored.parse {O : FloatOps F} {m m' : Stream F} (h : Restored m m') (seq : IntSeq) :
    (∃ e, m.parse O seq = .error e ∧ m'.parse O seq = .error e) ∨
      ∃ m1 m1' ids, m.parse O seq = .ok (m1, ids) ∧ m'.parse O seq = .ok (m1', ids) ∧ Restored m1 m1' := by
  rcases h.parse' (O := O) (h.imm seq) with h | ⟨m1, m1', ids, h1, h2, h3, _⟩
  · exact Or.inl h
  · exact Or.inr ⟨m1, m1', ids, h1, h2, h3⟩

theorem Restored.transformLoop {O : FloatOps F} (σ : IntVGram.Sched) : ∀ {seqs seqs' : List IntSeq} {m m' : Stream F} (t : Nat), Restored m m' →
    List.Forall₂ (fun seq seq' => m'.coder.encodeImm seq' = m.coder.encodeImm seq) seqs seqs' →
    (∃ e, IntVGram.transformLoop O σ seqs t m = .error e ∧ IntVGram.transformLoop O σ seqs' t m' = .error e) ∨
      ∃ m1 m1' outs t', IntVGram.transformLoop O σ seqs t m = .ok (m1, outs, t') ∧ IntVGram.transformLoop O σ seqs' t m' = .ok (m1', outs, t') ∧ Restored m1 m1' := by
  intro seqs
  induction seqs with
  | nil =>
    intro seqs' m m' t h hf
    cases hf
    exact Or.inr ⟨m, m', [], t, rfl, rfl, h⟩
  | cons seq seqs ih =>
    intro seqs' m m' t h hf
    cases hf with
    | @cons _ seq' _ seqs' a b =>
      simp only [IntVGram.transformLoop]
      rcases h.parse' (O := O) a with ⟨e, e1, e2⟩ | ⟨m1, m1', ids, p1, p2, p3, p4, p5⟩
      · rw [e1, e2]
        exact Or.inl ⟨e, rfl, rfl⟩
      · rw [p1, p2]
        simp only [ok_bind]
        split
        · exact Or.inr ⟨m1, m1', [ids], t + 1, rfl, rfl, p3⟩
        · rcases ih (t + 1) p3 (by rw [p4, p5]; exact b) with ⟨e, e1, e2⟩ | ⟨m2, m2', outs, t', q1, q2, q3⟩
          · rw [e1, e2]
            exact Or.inl ⟨e, rfl, rfl⟩
          · rw [q1, q2]
            exact Or.inr ⟨m2, m2', ids :: outs, t', rfl, rfl, q3⟩

/-! ## Text models -/

/-- Entries of the alphabet array of a text model; `f w` is the text of the word `w`. -/
def textEntries (f : IntSeq → Str) (words : List IntSeq) (freqs : List Int) : List (Json F) :=
  List.zipWith (fun w fr => .obj [(Json.kFreq, .int fr), (Json.kText, .str (f w)), (Json.kVec, .arr (w.map .int))]) words freqs

theorem textEntries_cons (f : IntSeq → Str) (w : IntSeq) (ws : List IntSeq) (fr : Int) (frs : List Int) :
    (textEntries f (w :: ws) (fr :: frs) : List (Json F)) =
      .obj [(Json.kFreq, .int fr), (Json.kText, .str (f w)), (Json.kVec, .arr (w.map .int))] :: textEntries f ws frs := rfl

/-- Decoding a code with the symbols `vals`. -/
def deco (vals : List Int) (w : IntSeq) : IntSeq := w.map fun k => vals[k.toNat]?.getD 0

theorem alphabetLoop_text {coder : SeqCoder} {vals : List Int} (hc : CInv coder vals) (freqs : List Int) (t : Tokenizer) :
    ∀ (words : List IntSeq) (i : Nat), (∀ w ∈ words, ∀ x ∈ w, 0 ≤ x ∧ x < (vals.length : Int)) → i + words.length ≤ freqs.length →
    Saver.alphabetLoop (F := F) freqs coder (some t) i words = .ok (textEntries (fun w => t.decode (deco vals w)) words (freqs.drop i)) := by
  intro words
  induction words with
  | nil => intro i _ _; simp [Saver.alphabetLoop, textEntries]
  | cons w ws ih =>
    intro i hw hl
    have hi : i < freqs.length := by simp at hl; omega
    rw [List.drop_eq_getElem_cons hi, textEntries_cons]
    simp only [Saver.alphabetLoop, rd_of_lt hi, ok_bind, hc.decode]
    rw [if_pos (hw w (by simp)), ih (i + 1) (fun v hv => hw v (by simp [hv])) (by simp at hl; omega)]
    rfl

theorem readAlphabet_text (O : FloatOps F) (f : IntSeq → Str) : ∀ (words : List IntSeq) (freqs : List Int), words.length ≤ freqs.length →
    Loader.readAlphabet O (textEntries f words freqs) = .ok (freqs.take words.length, words) := by
  intro words
  induction words with
  | nil => intro freqs _; rfl
  | cons w ws ih =>
    intro freqs h
    cases freqs with
    | nil => simp at h
    | cons fr frs =>
      have := ih frs (by simpa using h)
      rw [textEntries_cons]
      simp only [Loader.readAlphabet, this]
      simp [Json.fieldConst, AMap.get?, Json.kVec, Json.kFreq, Json.kText, Json.getInt, Json.getIntSeq, getInts_ints]

/-- The single-symbol words of a dictionary with their text, in order. -/
def singles (f : IntSeq → Str) (vals : List Int) (words : List IntSeq) : List (Str × Int) :=
  words.filterMap fun w => match deco vals w with
    | [x] => some (f w, x)
    | _ => none

theorem tokenizerLoop_text (O : FloatOps F) {c : SeqCoder} {vals : List Int} (hc : CInv c vals) (f : IntSeq → Str) : ∀ (words : List IntSeq) (freqs : List Int)
    (m : AMap Str Int), (∀ w ∈ words, ∀ x ∈ w, 0 ≤ x ∧ x < (vals.length : Int)) → words.length ≤ freqs.length →
    Loader.tokenizerLoop O c (textEntries f words freqs) m = .ok ((singles f vals words).foldl (fun m p => AMap.set m p.1 p.2) m) := by
  intro words
  induction words with
  | nil => intro freqs m _ _; rfl
  | cons w ws ih =>
    intro freqs m hw h
    cases freqs with
    | nil => simp at h
    | cons fr frs =>
      have hdec : c.decode w = .ok (deco vals w) := by rw [hc.decode, if_pos (hw w (by simp))]; rfl
      have ih := fun m => ih frs m (fun v hv => hw v (by simp [hv])) (by simpa using h)
      rw [textEntries_cons, singles, List.filterMap_cons]
      have hv : (Json.obj [(Json.kFreq, .int fr), (Json.kText, .str (f w)), (Json.kVec, .arr (w.map .int))] : Json F).fieldConst Json.kVec =
        .ok (.arr (w.map .int)) := rfl
      have ht : (Json.obj [(Json.kFreq, .int fr), (Json.kText, .str (f w)), (Json.kVec, .arr (w.map .int))] : Json F).fieldConst Json.kText =
        .ok (.str (f w)) := rfl
      simp only [Loader.tokenizerLoop, hv, ok_bind, Json.getIntSeq, getInts_ints, hdec, ht, Json.getStr]
      generalize deco vals w = v
      match v with
      | [] => exact ih m
      | [x] => exact ih _
      | _ :: _ :: _ => exact ih m

/-! ### Association lists with distinct keys -/

section
variable {κ ν : Type} [DecidableEq κ]

theorem get?_none {l : AMap κ ν} {k : κ} (h : k ∉ l.map (·.1)) : AMap.get? l k = none := by
  induction l with
  | nil => rfl
  | cons p l ih =>
    obtain ⟨a, b⟩ := p
    simp only [List.map_cons, List.mem_cons, not_or] at h
    simp only [AMap.get?]
    rw [if_neg (fun e => h.1 e.symm)]
    exact ih h.2

theorem get?_some {l : AMap κ ν} (hn : (l.map (·.1)).Nodup) {k : κ} {v : ν} (h : (k, v) ∈ l) : AMap.get? l k = some v := by
  induction l with
  | nil => simp at h
  | cons p l ih =>
    obtain ⟨a, b⟩ := p
    rw [List.map_cons, List.nodup_cons] at hn
    simp only [AMap.get?]
    rcases List.mem_cons.1 h with e | h
    · cases e; simp
    · rw [if_neg (fun e : a = k => hn.1 (e ▸ List.mem_map.2 ⟨(k, v), h, rfl⟩))]
      exact ih hn.2 h

theorem foldl_set {α : Type} (f : α → κ × ν) : ∀ (l : List α) (m : AMap κ ν), (m.map (·.1) ++ l.map fun a => (f a).1).Nodup →
    l.foldl (fun m a => AMap.set m (f a).1 (f a).2) m = m ++ l.map f := by
  intro l
  induction l with
  | nil => intro m _; simp
  | cons a l ih =>
    intro m h
    have hnew : AMap.get? m (f a).1 = none := get?_none fun hm => by
      rw [List.nodup_append] at h
      exact h.2.2 _ hm _ (by simp) rfl
    rw [List.foldl_cons, AMap.set_new hnew, ih _ (by simpa using h)]
    simp

end

/-! ### The restored tokenizer -/

theorem singles_spec {m : StringVGram F} {k : TokKind} {A T : List Str} {hist : List Int} (h : TextInv m k A T hist) {d : IntDict}
    (hd : DOk (seen hist).length d) (hc : ∀ x : Int, 0 ≤ x → x < ((seen hist).length : Int) → [x] ∈ d.seqs) (hn : d.seqs.Nodup) :
    (∀ p ∈ singles (fun w => m.tok.decode (deco (seen hist) w)) (seen hist) d.seqs, p.1 ∈ A ∧ p.2 = code A p.1) ∧
      (∀ x ∈ A, (x, code A x) ∈ singles (fun w => m.tok.decode (deco (seen hist) w)) (seen hist) d.seqs) ∧
      ((singles (fun w => m.tok.decode (deco (seen hist) w)) (seen hist) d.seqs).map (·.2)).Nodup := by
  obtain ⟨R, hR⟩ := h.pre
  have hcode : ∀ x ∈ A, code T x = code A x := fun x hx => by rw [← hR]; exact code_append hx R
  have hsing : ∀ w ∈ d.seqs, ∀ y, deco (seen hist) w = [y] → ∃ c : Nat, w = [(c : Int)] ∧ (seen hist)[c]? = some y := by
    intro w hw y hy
    cases w with
    | nil => simp [deco] at hy
    | cons c w =>
      cases w with
      | nil =>
        obtain ⟨c1, c2⟩ := hd.symbols _ hw c (by simp)
        simp only [deco, List.map_cons, List.map_nil, List.cons.injEq, and_true] at hy
        rw [List.getElem?_eq_getElem (by omega), Option.getD_some] at hy
        refine ⟨c.toNat, by rw [show ((c.toNat : Nat) : Int) = c by omega], ?_⟩
        rw [List.getElem?_eq_getElem (by omega), hy]
      | cons => simp [deco] at hy
  refine ⟨?_, ?_, ?_⟩
  · intro p hp
    obtain ⟨w, hw, hp⟩ := List.mem_filterMap.1 hp
    split at hp
    · next y hy =>
      cases hp
      obtain ⟨c, _, hc'⟩ := hsing w hw y hy
      obtain ⟨x, hx, hxy⟩ := List.mem_map.1 ((h.hist y).1 (seen_mem.1 (List.mem_of_getElem? hc')))
      have : m.tok.decode [y] = x := by
        have := h.tok.decode_map (toks := [x]) (by simpa using h.sub x hx)
        rw [List.map_singleton, hxy] at this
        simpa using this
      simp only [hy, this]
      exact ⟨hx, by rw [← hxy, hcode x hx]⟩
    · cases hp
  · intro x hx
    have hm : code T x ∈ seen hist := seen_mem.2 ((h.hist _).2 (List.mem_map.2 ⟨x, hx, rfl⟩))
    obtain ⟨c, c1, c2⟩ := List.getElem_of_mem hm
    refine List.mem_filterMap.2 ⟨[(c : Int)], hc c (by omega) (by omega), ?_⟩
    have hdeco : deco (seen hist) [(c : Int)] = [code T x] := by
      simp [deco, List.getElem?_eq_getElem c1, c2]
    have : m.tok.decode [code T x] = x := by
      have := h.tok.decode_map (toks := [x]) (by simpa using h.sub x hx)
      rw [List.map_singleton] at this
      simpa using this
    simp only [hdeco, this]
    rw [hcode x hx]
  · rw [singles, List.map_filterMap, List.Nodup, List.pairwise_filterMap]
    refine hn.imp_of_mem ?_
    intro w w' hw hw' hne y hy y' hy' e
    subst e
    have key : ∀ w ∈ d.seqs, Option.map (·.2) (match deco (seen hist) w with
        | [x] => some (m.tok.decode (deco (seen hist) w), x)
        | _ => none) = some y → deco (seen hist) w = [y] := by
      intro w _ h
      split at h
      · next z hz =>
        simp only [Option.map_some, Option.some.injEq] at h
        rw [hz, h]
      · cases h
    obtain ⟨c, c1, c2⟩ := hsing w hw y (key w hw hy)
    obtain ⟨c', c1', c2'⟩ := hsing w' hw' y (key w' hw' hy')
    have : c = c' := by
      obtain ⟨i1, i2⟩ := List.getElem?_eq_some_iff.1 c2
      obtain ⟨j1, j2⟩ := List.getElem?_eq_some_iff.1 c2'
      exact (seen_nodup hist).getElem_inj_iff.1 (i2.trans j2.symm)
    exact hne (by rw [c1, c1', this])

theorem restored_tok {A : List Str} {l : List (Str × Int)} (h1 : ∀ p ∈ l, p.1 ∈ A ∧ p.2 = code A p.1) (h2 : ∀ x ∈ A, (x, code A x) ∈ l)
    (h3 : (l.map (·.2)).Nodup) : TokInv .rhsFirst (Tokenizer.ofMap .char (l.foldl (fun m p => AMap.set m p.1 p.2) [])) (seen A) := by
  have hk : (l.map (·.1)).Nodup := by
    rw [List.Nodup, List.pairwise_map] at h3 ⊢
    refine h3.imp_of_mem ?_
    intro p q hp hq hne e
    exact hne (by rw [(h1 p hp).2, (h1 q hq).2, e])
  have hf : l.foldl (fun m p => AMap.set m p.1 p.2) [] = l := by
    have := foldl_set (fun p : Str × Int => p) l [] (by simpa using hk)
    simpa using this
  have hb : l.foldl (fun b p => AMap.set b p.2 p.1) [] = l.map fun p => (p.2, p.1) := by
    have := foldl_set (fun p : Str × Int => (p.2, p.1)) l [] (by simpa using h3)
    simpa using this
  have hlen : l.length = (seen A).length := by
    have : (l.map (·.1)).Perm (seen A) := (List.perm_ext_iff_of_nodup hk (seen_nodup A)).2 fun x => by
      rw [seen_mem]
      constructor
      · intro hx
        obtain ⟨p, hp, rfl⟩ := List.mem_map.1 hx
        exact (h1 p hp).1
      · exact fun hx => List.mem_map.2 ⟨_, h2 x hx, rfl⟩
    simpa using this.length_eq
  rw [hf]
  refine ⟨seen_nodup A, fun x => ?_, fun k => ?_, hlen, ?_⟩
  · by_cases hx : x ∈ A
    · rw [if_pos (seen_mem.2 hx)]
      exact get?_some hk (h2 x hx)
    · rw [if_neg (fun h => hx (seen_mem.1 h))]
      refine get?_none fun h => ?_
      obtain ⟨p, hp, rfl⟩ := List.mem_map.1 h
      exact hx (h1 p hp).1
  · simp only [Tokenizer.ofMap]
    rw [hb]
    by_cases hk' : 0 ≤ k ∧ k.toNat < (seen A).length
    · rw [if_pos hk'.1, List.getElem?_eq_getElem hk'.2]
      refine get?_some (by rw [List.map_map]; exact h3) (List.mem_map.2 ⟨_, h2 _ (seen_mem.1 (List.getElem_mem hk'.2)), ?_⟩)
      have : code A (seen A)[k.toNat] = k := by
        unfold code
        rw [(seen_nodup A).idxOf_getElem _ hk'.2]
        simp only [EvalOrder.first]
        omega
      rw [this]
    · have : (if 0 ≤ k then (seen A)[k.toNat]? else none) = none := by
        split
        · exact List.getElem?_eq_none (by omega)
        · rfl
      rw [this]
      refine get?_none fun h => hk' ?_
      obtain ⟨q, hq, rfl⟩ := List.mem_map.1 h
      obtain ⟨p, hp, rfl⟩ := List.mem_map.1 hq
      have := List.idxOf_lt_length_iff.2 (seen_mem.2 (h1 p hp).1)
      simp only [(h1 p hp).2, code, EvalOrder.first]
      omega
  · simp only [Tokenizer.ofMap]
    rw [hb, List.length_map, hlen]

end VGram
