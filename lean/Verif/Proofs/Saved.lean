import Verif.Proofs.Utf8
import Verif.Proofs.Persist

/-!
# Lemmas about the trees made by `Saver`
-/

namespace VGram

variable {F : Type}

open Dump Spec Parse

/-- An entry of the alphabet. -/
def entryOf (f : Int) (text : List (Str × Json F)) (w : IntSeq) : Json F := .obj ((Json.kFreq, .int f) :: text ++ [(Json.kVec, .arr (w.map .int))])

/-- The text of an entry. -/
def TextOf (t : Option Tokenizer) (coder : SeqCoder) (w : IntSeq) (text : List (Str × Json F)) : Prop :=
  match t with
  | none => text = []
  | some t => ∃ x, coder.decode w = .ok x ∧ text = [(Json.kText, .str (t.decode x))]

theorem alphabetLoop_entries (freqs : List Int) (coder : SeqCoder) (tok : Option Tokenizer) : ∀ (ws : List IntSeq) (i : Nat) (l : List (Json F)),
    Saver.alphabetLoop freqs coder tok i ws = .ok l → List.Forall₂ (fun w j => ∃ f text, j = entryOf f text w ∧ TextOf tok coder w text) ws l := by
  intro ws
  induction ws with
  | nil => intro i l h; cases h; exact List.Forall₂.nil
  | cons w ws ih =>
    intro i l h
    cases tok with
    | none =>
      simp only [Saver.alphabetLoop] at h
      obtain ⟨f, _, h⟩ := bind_ok.1 h
      obtain ⟨text, h2, h⟩ := bind_ok.1 h
      obtain ⟨rest, h3, h⟩ := bind_ok.1 h
      injection h with h
      subst h
      cases h2
      exact List.Forall₂.cons ⟨f, [], rfl, rfl⟩ (ih _ _ h3)
    | some t =>
      simp only [Saver.alphabetLoop] at h
      obtain ⟨f, _, h⟩ := bind_ok.1 h
      obtain ⟨x, hx, h⟩ := bind_ok.1 h
      obtain ⟨text, h2, h⟩ := bind_ok.1 h
      obtain ⟨rest, h3, h⟩ := bind_ok.1 h
      injection h with h
      subst h
      cases h2
      exact List.Forall₂.cons ⟨f, _, rfl, x, hx, rfl⟩ (ih _ _ h3)

/-- What `add_base_info` produces. -/
theorem baseInfo_shape {O : FloatOps F} {m : Stream F} {tok : Option Tokenizer} {more b : List (Str × Json F)} (h : Saver.baseInfo O m tok more = .ok b) :
    ∃ mp d alpha, m.minProb = some mp ∧ m.getDict = .ok d ∧ Saver.alphabetLoop m.freqs m.coder tok 0 d.seqs = .ok alpha ∧
      b = [(Json.kAlphabet, .ofPushed alpha), (Json.kCoder, Saver.coderJson m.coder)] ++ more ++ [(Json.kMinProb, Json.ofNum O mp), (Json.kSize, .int m.size)] := by
  unfold Saver.baseInfo at h
  cases hm : m.minProb with
  | none => rw [hm] at h; cases h
  | some mp =>
    rw [hm] at h
    simp only at h
    obtain ⟨mp', h1, h⟩ := bind_ok.1 h
    cases h1
    obtain ⟨d, h2, h⟩ := bind_ok.1 h
    obtain ⟨alpha, h3, h⟩ := bind_ok.1 h
    injection h with h
    exact ⟨mp, d, alpha, rfl, h2, h3, h.symm⟩

theorem Spec.Ints64.item {l : List (Json F)} (h : Ints64 (.arr l)) {j : Json F} (hj : j ∈ l) : Ints64 j := fun i hi => h i (.arr hj hi)
theorem Spec.Ints64.field {l : List (Str × Json F)} (h : Ints64 (.obj l)) {e : Str × Json F} (he : e ∈ l) : Ints64 e.2 := fun i hi => h i (.obj he hi)
theorem Spec.Ints64.int {i : Int} (h : Ints64 (.int i : Json F)) (O : FloatOps F) : Tidy O (.int i : Json F) := .int i (h i (.refl _))

theorem tidy_ints {O : FloatOps F} {w : List Int} (h : Ints64 (.arr (w.map .int) : Json F)) : Tidy O (.arr (w.map .int) : Json F) := by
  refine .arr _ fun j hj => ?_
  obtain ⟨i, _, rfl⟩ := List.mem_map.1 hj
  exact (h.item hj).int O

theorem tidy_entry {O : FloatOps F} {tok : Option Tokenizer} {coder : SeqCoder} {f : Int} {text : List (Str × Json F)} {w : IntSeq} (ht : TextOf tok coder w text)
    (h : Ints64 (entryOf f text w)) : Tidy O (entryOf f text w) := by
  unfold entryOf at h ⊢
  cases tok with
  | none =>
    cases ht
    refine .obj _ (fun e he => ?_) ?_
    · simp only [List.cons_append, List.nil_append, List.mem_cons, List.not_mem_nil, or_false] at he
      rcases he with rfl | rfl
      · exact (h.field (e := (Json.kFreq, .int f)) (by simp) : Ints64 (Json.int f)).int O
      · exact tidy_ints (h.field (e := (Json.kVec, .arr (w.map .int))) (by simp))
    · simp only [List.cons_append, List.nil_append, List.pairwise_cons, List.mem_cons, List.not_mem_nil, or_false, forall_eq]
      exact ⟨by decide, by simp⟩
  | some t =>
    obtain ⟨x, _, rfl⟩ := ht
    refine .obj _ (fun e he => ?_) ?_
    · simp only [List.cons_append, List.nil_append, List.mem_cons, List.not_mem_nil, or_false] at he
      rcases he with rfl | rfl | rfl
      · exact (h.field (e := (Json.kFreq, .int f)) (by simp) : Ints64 (Json.int f)).int O
      · exact .str _
      · exact tidy_ints (h.field (e := (Json.kVec, .arr (w.map .int))) (by simp))
    · simp only [List.cons_append, List.nil_append, List.pairwise_cons, List.mem_cons, List.not_mem_nil, or_false, forall_eq_or_imp, forall_eq]
      exact ⟨⟨by decide, by decide⟩, by decide, by simp⟩

theorem tidy_pushed {O : FloatOps F} {l : List (Json F)} (h : ∀ j ∈ l, Tidy O j) : Tidy O (Json.ofPushed l) := by
  unfold Json.ofPushed
  split
  · exact .null
  · exact .arr l h

theorem Spec.Ints64.pushed {l : List (Json F)} (h : Ints64 (Json.ofPushed l)) {j : Json F} (hj : j ∈ l) : Ints64 j := by
  unfold Json.ofPushed at h
  split at h
  · next e => rw [List.isEmpty_iff.1 e] at hj; cases hj
  · exact h.item hj

theorem tidy_base {O : FloatOps F} {m : Stream F} {tok : Option Tokenizer} {more b : List (Str × Json F)} (h : Saver.baseInfo O m tok more = .ok b)
    (hm : more = [] ∨ ∃ x y, more = [(Json.kFitted, .bool x), (Json.kFreqsComputed, .bool y)]) (hi : Ints64 (.obj b)) : Tidy O (.obj b) := by
  obtain ⟨mp, d, alpha, _, _, h3, rfl⟩ := baseInfo_shape h
  have t1 : Tidy O (Json.ofPushed alpha) := by
    refine tidy_pushed fun j hj => ?_
    obtain ⟨w, _, f, text, rfl, ht⟩ : ∃ w ∈ d.seqs, ∃ f text, j = entryOf f text w ∧ TextOf tok m.coder w text := by
      have := alphabetLoop_entries _ _ _ _ _ _ h3
      obtain ⟨k, hk, rfl⟩ := List.getElem_of_mem hj
      have hk' : k < d.seqs.length := by rw [this.length_eq]; exact hk
      exact ⟨_, List.getElem_mem hk', this.get hk' hk⟩
    exact tidy_entry ht ((hi.field (e := (Json.kAlphabet, .ofPushed alpha)) (by simp)).pushed hj)
  have t2 : Tidy O (Saver.coderJson m.coder : Json F) := by
    refine tidy_pushed fun j hj => ?_
    have := (hi.field (e := (Json.kCoder, Saver.coderJson m.coder)) (by simp))
    unfold Saver.coderJson at this
    have := this.pushed hj
    obtain ⟨i, _, rfl⟩ := List.mem_map.1 hj
    exact this.int O
  have t3 : Tidy O (Json.ofNum O mp) := by
    unfold Json.ofNum
    split
    · next h => exact .num mp h
    · exact .null
  have t4 : Tidy O (.int m.size : Json F) := (hi.field (e := (Json.kSize, .int m.size)) (by simp) : Ints64 (Json.int m.size)).int O
  rcases hm with rfl | ⟨x, y, rfl⟩
  · refine .obj _ (fun e he => ?_) ?_
    · simp only [List.append_nil, List.cons_append, List.nil_append, List.mem_cons, List.not_mem_nil, or_false] at he
      rcases he with rfl | rfl | rfl | rfl
      · exact t1
      · exact t2
      · exact t3
      · exact t4
    · simp only [List.append_nil, List.cons_append, List.nil_append, List.pairwise_cons, List.mem_cons, List.not_mem_nil, or_false, forall_eq_or_imp, forall_eq]
      refine ⟨⟨?_, ?_, ?_⟩, ⟨?_, ?_⟩, ?_, by simp, by simp⟩ <;> decide
  · refine .obj _ (fun e he => ?_) ?_
    · simp only [List.cons_append, List.nil_append, List.mem_cons, List.not_mem_nil, or_false] at he
      rcases he with rfl | rfl | rfl | rfl | rfl | rfl
      · exact t1
      · exact t2
      · exact .bool x
      · exact .bool y
      · exact t3
      · exact t4
    · simp only [List.cons_append, List.nil_append, List.pairwise_cons, List.mem_cons, List.not_mem_nil, or_false, forall_eq_or_imp, forall_eq]
      refine ⟨⟨?_, ?_, ?_, ?_, ?_⟩, ⟨?_, ?_, ?_, ?_⟩, ⟨?_, ?_, ?_⟩, ⟨?_, ?_⟩, ?_, by simp, by simp⟩ <;> decide

/-! ## When writing succeeds -/

theorem out_done_append {a b : Out} : (a ;; b).done = (a.done && b.done) := by
  unfold Out.seq
  split <;> simp_all

theorem items_done (O : FloatOps F) (T : TextOps F) (ind : Nat) : ∀ (l : List (Json F)),
    (dumpItems O T ind l).done = true ↔ ∀ j ∈ l, (dump O T ind j).done = true := by
  intro l
  induction l with
  | nil => rw [dumpItems]; simp [Out.put]
  | cons x l ih =>
    cases l with
    | nil => rw [dumpItems]; simp [Out.seq_done, spaces, Out.put]
    | cons y ys =>
      rw [dumpItems, Out.seq_done, Out.seq_done, Out.seq_done, ih]
      simp [spaces, Out.put]

theorem fields_done (O : FloatOps F) (T : TextOps F) (ind : Nat) : ∀ (l : List (Str × Json F)),
    (dumpFields O T ind l).done = true ↔ ∀ e ∈ l, Utf8 e.1 ∧ (dump O T ind e.2).done = true := by
  intro l
  induction l with
  | nil => rw [dumpFields]; simp [Out.put]
  | cons x l ih =>
    obtain ⟨k, v⟩ := x
    cases l with
    | nil => rw [dumpFields]; simp [Out.seq_done, spaces, Out.put, dumpStr_utf8]
    | cons y ys =>
      rw [dumpFields, Out.seq_done, Out.seq_done, Out.seq_done, Out.seq_done, Out.seq_done, ih, dumpStr_utf8]
      simp only [spaces, Out.put, true_and, List.forall_mem_cons]
      tauto

/-- Writing fails exactly if some string is not UTF-8. -/
theorem dump_done {O : FloatOps F} (T : TextOps F) {j : Json F} (h : Tidy O j) : ∀ ind, (dump O T ind j).done = true ↔
    (∀ s, Sub (.str s) j → Utf8 s) ∧ ∀ l, Sub (.obj l) j → ∀ e ∈ l, Utf8 e.1 := by
  induction h with
  | null => intro ind; rw [dump]; exact ⟨fun _ => ⟨fun s hs => (by cases hs), fun l hl => (by cases hl)⟩, fun _ => rfl⟩
  | bool b => intro ind; cases b <;> rw [dump] <;> exact ⟨fun _ => ⟨fun s hs => (by cases hs), fun l hl => (by cases hl)⟩, fun _ => rfl⟩
  | int i _ => intro ind; rw [dump]; exact ⟨fun _ => ⟨fun s hs => (by cases hs), fun l hl => (by cases hl)⟩, fun _ => rfl⟩
  | num x _ => intro ind; rw [dump]; exact ⟨fun _ => ⟨fun s hs => (by cases hs), fun l hl => (by cases hl)⟩, fun _ => rfl⟩
  | str s =>
    intro ind
    rw [dump, dumpStr_utf8]
    exact ⟨fun h => ⟨fun s hs => (by cases hs; exact h), fun l hl => (by cases hl)⟩, fun h => h.1 s (.refl _)⟩
  | arr l _ ih =>
    intro ind
    have e : (dump O T ind (.arr l)).done = true ↔ ∀ j ∈ l, (dump O T (ind + 2) j).done = true := by
      cases l with
      | nil => rw [dump]; simp [Out.put]
      | cons x xs => rw [dump, Out.seq_done, Out.seq_done, items_done, Out.seq_done, Out.seq_done]; simp [Out.put, spaces]
    rw [e]
    constructor
    · intro h
      refine ⟨fun s hs => ?_, fun l' hl => ?_⟩
      · cases hs with
        | arr hy hx => exact ((ih _ hy _).1 (h _ hy)).1 s hx
      · cases hl with
        | arr hy hx => exact ((ih _ hy _).1 (h _ hy)).2 l' hx
    · intro h j hj
      exact (ih j hj _).2 ⟨fun s hs => h.1 s (.arr hj hs), fun l' hl => h.2 l' (.arr hj hl)⟩
  | obj l _ _ ih =>
    intro ind
    have e : (dump O T ind (.obj l)).done = true ↔ ∀ e ∈ l, Utf8 e.1 ∧ (dump O T (ind + 2) e.2).done = true := by
      cases l with
      | nil => rw [dump]; simp [Out.put]
      | cons x xs => rw [dump, Out.seq_done, Out.seq_done, fields_done, Out.seq_done, Out.seq_done]; simp [Out.put, spaces]
    rw [e]
    constructor
    · intro h
      refine ⟨fun s hs => ?_, fun l' hl => ?_⟩
      · cases hs with
        | obj hy hx => exact ((ih _ hy _).1 (h _ hy).2).1 s hx
      · cases hl with
        | refl => exact fun e he => (h e he).1
        | obj hy hx => exact ((ih _ hy _).1 (h _ hy).2).2 l' hx
    · intro h e he
      exact ⟨h.2 l (.refl _) e he, (ih e he _).2 ⟨fun s hs => h.1 s (.obj he hs), fun l' hl => h.2 l' (.obj he hl)⟩⟩

/-! ## The strings of a saved tree -/

theorem ascii_key {s : Str} (h : ∀ c ∈ s, c.toNat < 0x80) : Utf8 s := by
  refine ⟨s, ?_⟩
  induction s with
  | nil => rfl
  | cons c s ih =>
    rw [List.map_cons, List.flatMap_cons, ih fun d hd => h d (List.mem_cons_of_mem _ hd)]
    have : c.toNat < 0x80 := h c (by simp)
    simp [utf8, this]

theorem sub_int {x : Json F} {i : Int} (h : Sub x (.int i)) : x = .int i := by cases h; rfl
theorem sub_ints {x : Json F} {w : List Int} (h : Sub x (.arr (w.map .int))) : x = .arr (w.map .int) ∨ ∃ i, x = .int i := by
  cases h with
  | refl => exact Or.inl rfl
  | arr hy hx =>
    obtain ⟨i, _, rfl⟩ := List.mem_map.1 hy
    exact Or.inr ⟨i, sub_int hx⟩

theorem sub_pushed {x : Json F} {l : List (Json F)} (h : Sub x (Json.ofPushed l)) : (x = .null ∨ x = .arr l) ∨ ∃ j ∈ l, Sub x j := by
  unfold Json.ofPushed at h
  split at h
  · cases h; exact Or.inl (Or.inl rfl)
  · cases h with
    | refl => exact Or.inl (Or.inr rfl)
    | arr hy hx => exact Or.inr ⟨_, hy, hx⟩

theorem sub_pushed' {x : Json F} {l : List (Json F)} {j : Json F} (hj : j ∈ l) (h : Sub x j) : Sub x (Json.ofPushed l) := by
  unfold Json.ofPushed
  split
  · next e => rw [List.isEmpty_iff.1 e] at hj; cases hj
  · exact .arr hj h

/-- The keys written by `Saver`. -/
def SaverKey (k : Str) : Prop := k ∈ [Json.kSize, Json.kMinProb, Json.kCoder, Json.kAlphabet, Json.kFitted, Json.kFreqsComputed, Json.kVec, Json.kFreq, Json.kText]

theorem SaverKey.utf8 {k : Str} (h : SaverKey k) : Utf8 k := by
  refine ascii_key ?_
  have : ∀ k ∈ [Json.kSize, Json.kMinProb, Json.kCoder, Json.kAlphabet, Json.kFitted, Json.kFreqsComputed, Json.kVec, Json.kFreq, Json.kText], ∀ c ∈ k, c.toNat < 0x80 := by decide
  exact this k h

/-- Keys and strings inside one entry of the alphabet. -/
theorem entry_sub {tok : Option Tokenizer} {coder : SeqCoder} {f : Int} {text : List (Str × Json F)} {w : IntSeq} (ht : TextOf tok coder w text) :
    (∀ l, Sub (.obj l) (entryOf f text w) → ∀ e ∈ l, SaverKey e.1) ∧ ∀ s, Sub (.str s) (entryOf f text w) ↔ ∃ e ∈ text, e.2 = .str s := by
  have htext : ∀ e ∈ text, e.1 = Json.kText ∧ ∃ s, e.2 = .str s := by
    cases tok with
    | none => cases ht; simp
    | some t => obtain ⟨x, _, rfl⟩ := ht; intro e he; rw [List.mem_singleton.1 he]; exact ⟨rfl, _, rfl⟩
  constructor
  · intro l hl e he
    unfold entryOf at hl
    cases hl with
    | refl =>
      simp only [List.cons_append, List.mem_cons, List.mem_append, List.not_mem_nil, or_false] at he
      rcases he with rfl | he | rfl
      · simp [SaverKey]
      · rw [(htext e he).1]; simp [SaverKey]
      · simp [SaverKey]
    | obj hy hx =>
      simp only [List.cons_append, List.mem_cons, List.mem_append, List.not_mem_nil, or_false] at hy
      rcases hy with rfl | hy | rfl
      · cases sub_int hx
      · obtain ⟨_, s, hs⟩ := htext _ hy; rw [hs] at hx; cases hx
      · rcases sub_ints hx with h | ⟨i, h⟩ <;> cases h
  · intro s
    constructor
    · intro h
      unfold entryOf at h
      cases h with
      | obj hy hx =>
        simp only [List.cons_append, List.mem_cons, List.mem_append, List.not_mem_nil, or_false] at hy
        rcases hy with rfl | hy | rfl
        · cases sub_int hx
        · obtain ⟨_, s', hs⟩ := htext _ hy
          refine ⟨_, hy, ?_⟩
          rw [hs] at hx ⊢
          cases hx
          rfl
        · rcases sub_ints hx with h | ⟨i, h⟩ <;> cases h
    · rintro ⟨e, he, hs⟩
      unfold entryOf
      refine .obj (e := e) (by simp [he]) ?_
      rw [hs]
      exact .refl _

/-- Keys and strings of the whole file. -/
theorem base_sub {O : FloatOps F} {m : Stream F} {tok : Option Tokenizer} {more b : List (Str × Json F)} (h : Saver.baseInfo O m tok more = .ok b)
    (hm : more = [] ∨ ∃ x y, more = [(Json.kFitted, .bool x), (Json.kFreqsComputed, .bool y)]) :
    ∃ d, m.getDict = .ok d ∧ (∀ l, Sub (.obj l) (.obj b) → ∀ e ∈ l, SaverKey e.1) ∧
      (∀ s, Sub (.str s) (.obj b) ↔ ∃ t, tok = some t ∧ ∃ w ∈ d.seqs, ∃ x, m.coder.decode w = .ok x ∧ s = t.decode x) ∧
      ∀ t, tok = some t → ∀ w ∈ d.seqs, ∃ x, m.coder.decode w = .ok x := by
  obtain ⟨mp, d, alpha, _, hd, h3, rfl⟩ := baseInfo_shape h
  have hf := alphabetLoop_entries _ _ _ _ _ _ h3
  have left : ∀ j ∈ alpha, ∃ w ∈ d.seqs, ∃ f text, j = entryOf f text w ∧ TextOf tok m.coder w text := by
    intro j hj
    obtain ⟨k, hk, rfl⟩ := List.getElem_of_mem hj
    have hk' : k < d.seqs.length := by rw [hf.length_eq]; exact hk
    exact ⟨_, List.getElem_mem hk', hf.get hk' hk⟩
  have right : ∀ w ∈ d.seqs, ∃ j ∈ alpha, ∃ f text, j = entryOf f text w ∧ TextOf tok m.coder w text := by
    intro w hw
    obtain ⟨k, hk, rfl⟩ := List.getElem_of_mem hw
    have hk' : k < alpha.length := by rw [← hf.length_eq]; exact hk
    exact ⟨_, List.getElem_mem hk', hf.get hk hk'⟩
  -- where a key or string can be
  have cases1 : ∀ x : Json F, Sub x (.obj ([(Json.kAlphabet, .ofPushed alpha), (Json.kCoder, Saver.coderJson m.coder)] ++ more ++
      [(Json.kMinProb, Json.ofNum O mp), (Json.kSize, .int m.size)])) → (∃ l, x = .obj l ∧ ∀ e ∈ l, SaverKey e.1) ∨ (∃ j ∈ alpha, Sub x j) ∨
        ((∀ l, x ≠ .obj l) ∧ ∀ s, x ≠ .str s) := by
    intro x hx
    cases hx with
    | refl =>
      refine Or.inl ⟨_, rfl, fun e he => ?_⟩
      rcases hm with rfl | ⟨y, z, rfl⟩ <;>
      · simp only [List.append_nil, List.cons_append, List.nil_append, List.mem_cons, List.not_mem_nil, or_false] at he
        rcases he with rfl | rfl | he
        · simp [SaverKey]
        · simp [SaverKey]
        · rcases he with rfl | rfl | rfl | rfl <;> simp [SaverKey]
    | obj hy hx =>
      simp only [List.cons_append, List.nil_append, List.mem_cons, List.mem_append, List.not_mem_nil, or_false] at hy
      rcases hy with rfl | rfl | hy | rfl | rfl
      · rcases sub_pushed hx with (rfl | rfl) | h
        · exact Or.inr (Or.inr ⟨by simp, by simp⟩)
        · exact Or.inr (Or.inr ⟨by simp, by simp⟩)
        · exact Or.inr (Or.inl h)
      · unfold Saver.coderJson at hx
        rcases sub_pushed hx with (rfl | rfl) | ⟨j, hj, hs⟩
        · exact Or.inr (Or.inr ⟨by simp, by simp⟩)
        · exact Or.inr (Or.inr ⟨by simp, by simp⟩)
        · obtain ⟨i, _, rfl⟩ := List.mem_map.1 hj
          cases sub_int hs
          exact Or.inr (Or.inr ⟨by simp, by simp⟩)
      · rcases hm with rfl | ⟨y, z, rfl⟩
        · cases hy
        · simp only [List.mem_cons, List.not_mem_nil, or_false] at hy
          rcases hy with rfl | rfl <;> cases hx <;> exact Or.inr (Or.inr ⟨by simp, by simp⟩)
      · simp only [Json.ofNum] at hx
        split at hx <;> cases hx <;> exact Or.inr (Or.inr ⟨by simp, by simp⟩)
      · cases sub_int hx
        exact Or.inr (Or.inr ⟨by simp, by simp⟩)
  refine ⟨d, hd, fun l hl => ?_, fun s => ⟨fun hs => ?_, ?_⟩, ?_⟩
  · rcases cases1 _ hl with ⟨l', e, h⟩ | ⟨j, hj, h⟩ | ⟨h, _⟩
    · cases e; exact h
    · obtain ⟨w, _, f, text, rfl, ht⟩ := left j hj
      exact (entry_sub ht).1 l h
    · exact absurd rfl (h l)
  · rcases cases1 _ hs with ⟨l', e, h⟩ | ⟨j, hj, h⟩ | ⟨_, h⟩
    · cases e
    · obtain ⟨w, hw, f, text, rfl, ht⟩ := left j hj
      obtain ⟨e, he, h'⟩ := ((entry_sub ht).2 s).1 h
      cases tok with
      | none => cases ht; cases he
      | some t =>
        obtain ⟨x, hx, rfl⟩ := ht
        rw [List.mem_singleton.1 he] at h'
        injection h' with h'
        exact ⟨t, rfl, w, hw, x, hx, h'.symm⟩
    · exact absurd rfl (h s)
  · rintro ⟨t, rfl, w, hw, x, hx, rfl⟩
    obtain ⟨j, hj, f, text, rfl, x', hx', rfl⟩ := right w hw
    rw [hx] at hx'
    cases hx'
    refine .obj (e := (Json.kAlphabet, .ofPushed alpha)) (by simp) (sub_pushed' hj ?_)
    exact ((entry_sub (tok := some t) (coder := m.coder) ⟨x, hx, rfl⟩).2 _).2 ⟨_, List.mem_singleton.2 rfl, rfl⟩
  · rintro t rfl w hw
    obtain ⟨j, hj, f, text, rfl, x', hx', rfl⟩ := right w hw
    exact ⟨x', hx'⟩

theorem decodeAll_spec (c : SeqCoder) : ∀ (ws : List IntSeq), (∀ w ∈ ws, ∃ x, c.decode w = .ok x) →
    ∃ xs, Stream.decodeAll c ws = .ok xs ∧ ∀ x, x ∈ xs ↔ ∃ w ∈ ws, c.decode w = .ok x := by
  intro ws
  induction ws with
  | nil => intro _; exact ⟨[], rfl, by simp⟩
  | cons w ws ih =>
    intro h
    obtain ⟨x, hx⟩ := h w (by simp)
    obtain ⟨xs, h1, h2⟩ := ih fun v hv => h v (List.mem_cons_of_mem _ hv)
    refine ⟨x :: xs, ?_, fun y => ?_⟩
    · simp only [Stream.decodeAll, hx, h1, ok_bind, pure_M]
    · simp only [List.mem_cons, h2, exists_eq_or_imp, hx]
      constructor
      · rintro (rfl | h)
        · exact Or.inl rfl
        · exact Or.inr h
      · rintro (h | h)
        · cases h; exact Or.inl rfl
        · exact Or.inr h

/-- The strings in the file of a text model are its alphabet. -/
theorem base_text {O : FloatOps F} {m : Stream F} {t : Tokenizer} {more b : List (Str × Json F)} (h : Saver.baseInfo O m (some t) more = .ok b)
    (hm : more = [] ∨ ∃ x y, more = [(Json.kFitted, .bool x), (Json.kFreqsComputed, .bool y)]) :
    ∃ ws, m.alphabet = .ok ws ∧ ∀ s, Sub (.str s) (.obj b) ↔ s ∈ ws.map t.decode := by
  obtain ⟨d, hd, _, h2, h3⟩ := base_sub h hm
  obtain ⟨xs, x1, x2⟩ := decodeAll_spec m.coder d.seqs (h3 t rfl)
  refine ⟨xs, by simp only [Stream.alphabet, hd, ok_bind, x1], fun s => ?_⟩
  rw [h2, List.mem_map]
  constructor
  · rintro ⟨t', e, w, hw, x, hx, rfl⟩
    cases e
    exact ⟨x, (x2 x).2 ⟨w, hw, hx⟩, rfl⟩
  · rintro ⟨x, hx, rfl⟩
    obtain ⟨w, hw, h⟩ := (x2 x).1 hx
    exact ⟨t, rfl, w, hw, x, h, rfl⟩

/-! ## Tokenizers whose tokens are UTF-8 -/

/-- Every token known to the tokenizer is UTF-8. -/
def TokUtf8 (t : Tokenizer) : Prop := ∀ k s, t.backward.get? k = some s → Utf8 s

theorem Spec.Utf8.append {s t : Str} (hs : Utf8 s) (ht : Utf8 t) : Utf8 (s ++ t) := by
  obtain ⟨a, ha⟩ := hs
  obtain ⟨b, hb⟩ := ht
  exact ⟨a ++ b, by rw [List.map_append, ha, hb, List.flatMap_append]⟩

theorem TokUtf8.decode {t : Tokenizer} (h : TokUtf8 t) (w : IntSeq) : Utf8 (t.decode w) := by
  unfold Tokenizer.decode
  induction w with
  | nil => exact ⟨[], rfl⟩
  | cons k w ih =>
    simp only [List.filterMap_cons]
    cases hk : t.backward.get? k with
    | none => exact ih
    | some s => exact (h k s hk).append ih

theorem TokUtf8.codeOne {t : Tokenizer} (h : TokUtf8 t) {x : Str} (hx : Utf8 x) (o : EvalOrder) : TokUtf8 (t.codeOne o x).1 := by
  unfold Tokenizer.codeOne
  split
  · exact h
  · intro k s hs
    simp only at hs
    rw [AMap.get?_set] at hs
    split at hs
    · cases hs; exact hx
    · exact h k s hs

theorem TokUtf8.codeAll {o : EvalOrder} : ∀ (toks : List Str) {t : Tokenizer}, TokUtf8 t → (∀ x ∈ toks, Utf8 x) → TokUtf8 (t.codeAll o toks).1 := by
  intro toks
  induction toks with
  | nil => intro t h _; exact h
  | cons x xs ih =>
    intro t h hx
    simp only [Tokenizer.codeAll]
    exact ih (h.codeOne (hx x (by simp)) o) fun y hy => hx y (List.mem_cons_of_mem _ hy)

theorem utf8_fold {s : Str} : Utf8 s ↔ (s.map Char.toNat).foldl nextSt 0 = 0 := by rw [← dumpStr_utf8, dumpStr_done]

/-- The words of a UTF-8 text are UTF-8. -/
theorem wordLoop_utf8 : ∀ (cs cur : Str), ((cur ++ cs).map Char.toNat).foldl nextSt 0 = 0 → ∀ w ∈ Tokenizer.wordLoop cur cs, Utf8 w := by
  intro cs
  induction cs with
  | nil =>
    intro cur h w hw
    simp only [Tokenizer.wordLoop] at hw
    split at hw
    · cases hw
    · rw [List.mem_singleton.1 hw, utf8_fold]
      simpa using h
  | cons c cs ih =>
    intro cur h w hw
    simp only [Tokenizer.wordLoop] at hw
    split at hw
    · next hc =>
      obtain ⟨rfl, _⟩ := hc
      rw [List.map_append, List.foldl_append, List.map_cons, List.foldl_cons] at h
      have hl : (cur.map Char.toNat).foldl nextSt 0 < 9 := by
        generalize cur.map Char.toNat = l
        have : ∀ (l : List Nat) st, st < 9 → l.foldl nextSt st < 9 := by
          intro l
          induction l with
          | nil => intro st h; exact h
          | cons n l ih => intro st h; exact ih _ (nextSt_lt h n)
        exact this l 0 (by decide)
      generalize hst : (cur.map Char.toNat).foldl nextSt 0 = st at h hl
      have hs : st = 0 := by
        by_contra hne
        have : nextSt st (' ' : Char).toNat = 1 := by
          by_cases h1 : st = 1
          · rw [h1]; exact nextSt_one _
          · have : ∀ st : Fin 9, 2 ≤ st.val → nextSt st.val (' ' : Char).toNat = 1 := by decide +kernel
            exact this ⟨st, hl⟩ (by show 2 ≤ st; omega)
        rw [this, fold_one] at h
        cases h
      subst hs
      rcases List.mem_cons.1 hw with rfl | hw
      · exact utf8_fold.2 hst
      · refine ih [] ?_ w hw
        have : nextSt 0 (' ' : Char).toNat = 0 := by decide +kernel
        rw [this] at h
        simpa using h
    · exact ih (cur ++ [c]) (by simpa using h) w hw

theorem lower_ascii {c : Char} (h : isAlnum c = true) : (lower c).toNat < 0x80 := by
  have hc : c.toNat < 128 := by simp [isAlnum] at h; omega
  unfold lower
  split
  · next h' =>
    simp only [Bool.and_eq_true, decide_eq_true_eq] at h'
    rw [toNat_ofNat (Or.inl (by omega))]
    omega
  · exact hc

/-- The tokens of a text: with characters as tokens always, otherwise if the text is UTF-8. -/
theorem tokens_utf8 {k : TokKind} {s : Str} (h : k = .char ∨ Utf8 s) : ∀ x ∈ Tokenizer.tokenize k (Tokenizer.normalize k s), Utf8 x := by
  cases k with
  | char =>
    intro x hx
    simp only [Tokenizer.tokenize, Tokenizer.normalize, List.map_map, List.mem_map, List.mem_filter] at hx
    obtain ⟨c, ⟨_, hc⟩, rfl⟩ := hx
    refine ascii_key fun d hd => ?_
    rw [List.mem_singleton.1 hd]
    exact lower_ascii hc
  | word =>
    have h : Utf8 s := h.resolve_left (by decide)
    exact wordLoop_utf8 s [] (by simpa using utf8_fold.1 h)

theorem TokUtf8.transform {t : Tokenizer} (h : TokUtf8 t) {s : Str} (hs : t.kind = .char ∨ Utf8 s) (o : EvalOrder) : TokUtf8 (t.transform o s).1 :=
  TokUtf8.codeAll _ h (tokens_utf8 hs)

theorem TokUtf8.transformAll {o : EvalOrder} : ∀ (texts : List Str) {t : Tokenizer}, TokUtf8 t → (t.kind = .char ∨ ∀ s ∈ texts, Utf8 s) →
    TokUtf8 (t.transformAll o texts).1 ∧ (t.transformAll o texts).1.kind = t.kind := by
  intro texts
  induction texts with
  | nil => intro t h _; exact ⟨h, rfl⟩
  | cons s ss ih =>
    intro t h hs
    simp only [Tokenizer.transformAll]
    have hk : (t.transform o s).1.kind = t.kind := codeAll_kind o t _
    have := ih (h.transform (hs.imp id fun h => h s (by simp)) o) (by rw [hk]; exact hs.imp id fun h x hx => h x (List.mem_cons_of_mem _ hx))
    rw [hk] at this
    exact this

theorem TokUtf8.new (k : TokKind) : TokUtf8 (Tokenizer.new k) := by
  intro k s h
  simp [Tokenizer.new, AMap.get?] at h

end VGram
