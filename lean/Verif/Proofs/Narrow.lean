import Verif.Model.Narrow
import Verif.Spec.Narrow
import Verif.Proofs.Loading
import Verif.Proofs.Saved

/-!
# Lemmas about the loader with 32-bit integers
-/

namespace VGram

open Spec

variable {F : Type}

theorem narrow_eq (i : Int) : Json.narrow i = i.bmod (2 ^ 32) := by
  unfold Json.narrow
  rw [Int.bmod_def]
  norm_num
  split <;> omega

/-- `a` is what `b` is, unless `a` is the undefined conversion and the doubles of the file do not fit. -/
def UpTo {α : Type} (P : Prop) (a b : M α) : Prop := (a = .error .badCast ∧ ¬ P) ∨ a = b

namespace UpTo

variable {α β : Type} {P : Prop}

theorem rfl' {a : M α} : UpTo P a a := Or.inr rfl

theorem of_eq {a b : M α} (h : a = b) : UpTo P a b := Or.inr h

theorem bind {a b : M α} {f g : α → M β} (h : UpTo P a b) (k : ∀ x, b = .ok x → UpTo P (f x) (g x)) : UpTo P (a >>= f) (b >>= g) := by
  rcases h with ⟨rfl, h⟩ | rfl
  · exact Or.inl ⟨rfl, h⟩
  · cases a with
    | error e => exact Or.inr rfl
    | ok x => exact k x rfl

theorem bindMap {a : M α} {b : M α} {h : α → α} {f g : α → M β} (hb : b = a.map h) (k : ∀ x, a = .ok x → UpTo P (f x) (g (h x))) : UpTo P (a >>= f) (b >>= g) := by
  subst hb
  cases a with
  | error e => exact Or.inr rfl
  | ok x => exact k x rfl

end UpTo

theorem Spec.Sub.trans {a b c : Json F} (h : Sub a b) (k : Sub b c) : Sub a c := by
  induction k with
  | refl => exact h
  | arr hm _ ih => exact .arr hm ih
  | obj hm _ ih => exact .obj hm ih

theorem Spec.Inside.under {a b c : Json F} (k : Inside b c) (h : Sub a b) : Inside a c := by
  obtain ⟨l, e, h1, h2, h3, h4⟩ := k
  exact ⟨l, e, h1, h2, h3, h.trans h4⟩

theorem castInt_upTo (O : FloatOps F) {j root : Json F} (h : Inside j root) : UpTo (NumsFit O root) (j.castInt O) ((reduced j).getInt O) := by
  cases j with
  | int i => exact .of_eq (by simp [Json.castInt, reduced, Json.getInt, narrow_eq])
  | num x =>
    by_cases hx : O.isFinite x = true ∧ -(2 ^ 31) ≤ O.trunc x ∧ O.trunc x < 2 ^ 31
    · exact .of_eq (by simp only [Json.castInt, reduced, Json.getInt, if_pos hx])
    · refine Or.inl ⟨by simp only [Json.castInt, if_neg hx], fun hn => hx (hn x h)⟩
  | _ => exact .rfl'

theorem castInts_upTo (O : FloatOps F) {root : Json F} : ∀ {l : List (Json F)}, (∀ j ∈ l, Inside j root) → UpTo (NumsFit O root) (Json.castInts O l) (Json.getInts O (l.map reduced))
  | [], _ => .rfl'
  | j :: l, h => (castInt_upTo O (h j (by simp))).bind fun _ _ => (castInts_upTo O fun x hx => h x (by simp [hx])).bind fun _ _ => .rfl'

theorem castIntSeq_upTo (O : FloatOps F) {j root : Json F} (h : Inside j root) : UpTo (NumsFit O root) (j.castIntSeq O) ((throughout reduced j).getIntSeq O) := by
  cases j with
  | arr l => exact castInts_upTo O fun x hx => h.under (Sub.arr hx (.refl x))
  | _ => exact .rfl'

theorem elems_sub {j x : Json F} (h : x ∈ j.elems) : Sub x j := by
  cases j with
  | null => simp [Json.elems] at h
  | arr l => exact .arr h (.refl x)
  | obj l =>
    obtain ⟨e, he, rfl⟩ := List.mem_map.1 h
    exact .obj he (.refl _)
  | _ => rw [List.mem_singleton.1 h]; exact .refl _

theorem get?_map_value {f : Str → Json F → Json F} : ∀ (l : List (Str × Json F)) (k : Str),
    AMap.get? (l.map fun e => (e.1, f e.1 e.2)) k = (AMap.get? l k).map (f k)
  | [], _ => rfl
  | (a, v) :: l, k => by
    simp only [List.map_cons, AMap.get?]
    split
    · next h => subst h; rfl
    · exact get?_map_value l k

theorem get?_sub : ∀ {l : List (Str × Json F)} {k : Str} {v : Json F}, AMap.get? l k = some v → ∃ e ∈ l, e.1 = k ∧ e.2 = v
  | (a, v) :: l, k, w, h => by
    simp only [AMap.get?] at h
    split at h
    · next hk => exact ⟨(a, v), by simp, hk, by injection h⟩
    · obtain ⟨e, he, hv⟩ := get?_sub h
      exact ⟨e, by simp [he], hv⟩

theorem fieldConst_sub {j v : Json F} {k : Str} (h : j.fieldConst k = .ok v) : Sub v j := by
  cases j with
  | obj l =>
    simp only [Json.fieldConst] at h
    split at h
    · next w hw =>
      cases h
      obtain ⟨e, he, _, rfl⟩ := get?_sub hw
      exact .obj he (.refl _)
    · cases h
  | _ => cases h

theorem fieldConst_memberwise (f : String → Json F → Json F) (j : Json F) (k : String) {k' : Str} (hk : k' = k.toList) :
    (memberwise f j).fieldConst k' = (j.fieldConst k').map (f k) := by
  subst hk
  cases j with
  | obj l =>
    simp only [memberwise, Json.fieldConst]
    rw [get?_map_value (f := fun s => f (String.ofList s))]
    cases AMap.get? l k.toList <;> simp [Except.map]
  | _ => rfl

theorem field_sub {j v : Json F} {k : Str} (hk : k ≠ "min_prob".toList) (h : j.field k = .ok v) : Inside v j ∨ v = .null := by
  cases j with
  | null => cases h; exact Or.inr rfl
  | obj l =>
    simp only [Json.field] at h
    cases hw : AMap.get? l k with
    | none => rw [hw] at h; cases h; exact Or.inr rfl
    | some w =>
      rw [hw] at h
      cases h
      obtain ⟨e, he, rfl, rfl⟩ := get?_sub hw
      exact Or.inl ⟨l, e, rfl, he, hk, .refl _⟩
  | _ => cases h

theorem field_memberwise (f : String → Json F → Json F) (j : Json F) (k : String) {k' : Str} (hk : k' = k.toList) (hn : f k .null = .null) :
    (memberwise f j).field k' = (j.field k').map (f k) := by
  subst hk
  cases j with
  | null => simp [memberwise, Json.field, Except.map, hn]
  | obj l =>
    simp only [memberwise, Json.field]
    rw [get?_map_value (f := fun s => f (String.ofList s))]
    cases AMap.get? l k.toList <;> simp [Except.map, hn]
  | _ => rfl

theorem elems_reduced (j : Json F) : (throughout reduced j).elems = j.elems.map reduced := by
  cases j <;> simp [throughout, reduced, Json.elems]

theorem elems_reducedEntry (j : Json F) : (throughout reducedEntry j).elems = j.elems.map reducedEntry := by
  cases j <;> simp [throughout, reducedEntry, memberwise, Json.elems]

theorem readCoder_upTo (O : FloatOps F) {root : Json F} : ∀ {l : List (Json F)} {c : SeqCoder}, (∀ j ∈ l, Inside j root) →
    UpTo (NumsFit O root) (Narrow.readCoder O l c) (Loader.readCoder O (l.map reduced) c)
  | [], _, _ => .rfl'
  | j :: l, c, h => (castInt_upTo O (h j (by simp))).bind fun _ _ => readCoder_upTo O fun x hx => h x (by simp [hx])

theorem freq_reduced (j : Json F) : (reducedEntry j).fieldConst Json.kFreq = (j.fieldConst Json.kFreq).map reduced :=
  (fieldConst_memberwise _ j "freq" rfl).trans rfl

theorem vec_reduced (j : Json F) : (reducedEntry j).fieldConst Json.kVec = (j.fieldConst Json.kVec).map (throughout reduced) :=
  (fieldConst_memberwise _ j "vec" rfl).trans rfl

theorem text_reduced (j : Json F) : (reducedEntry j).fieldConst Json.kText = j.fieldConst Json.kText := by
  refine (fieldConst_memberwise _ j "text" rfl).trans ?_
  show Except.map (fun v => if "text" = "freq" then reduced v else if "text" = "vec" then throughout reduced v else v) (j.fieldConst Json.kText) = _
  simp only [show ("text" : String) = "freq" ↔ False by decide, show ("text" : String) = "vec" ↔ False by decide, if_false]
  generalize j.fieldConst Json.kText = x
  cases x <;> rfl

theorem readAlphabet_upTo (O : FloatOps F) {root : Json F} : ∀ {l : List (Json F)}, (∀ j ∈ l, Inside j root) →
    UpTo (NumsFit O root) (Narrow.readAlphabet O l) (Loader.readAlphabet O (l.map reducedEntry))
  | [], _ => .rfl'
  | j :: l, h => by
    have hj := h j (by simp)
    refine UpTo.bindMap (freq_reduced j) fun jf e1 => ?_
    refine (castInt_upTo O (hj.under (fieldConst_sub e1))).bind fun f _ => ?_
    refine UpTo.bindMap (vec_reduced j) fun jv e2 => ?_
    refine (castIntSeq_upTo O (hj.under (fieldConst_sub e2))).bind fun v _ => ?_
    exact (readAlphabet_upTo O fun x hx => h x (by simp [hx])).bind fun _ _ => .rfl'

theorem field_reducedFile (j : Json F) (k : String) {k' : Str} (hk : k' = k.toList) (h1 : k ≠ "size") (h2 : k ≠ "coder") (h3 : k ≠ "alphabet") :
    (reducedFile j).field k' = j.field k' := by
  refine (field_memberwise _ j k hk (by simp [h1, h2, h3])).trans ?_
  simp only [h1, h2, h3, if_false]
  cases j.field k' <;> rfl

theorem castInt_null (O : FloatOps F) {P : Prop} : UpTo P ((Json.null : Json F).castInt O) ((reduced (Json.null : Json F)).getInt O) := .rfl'

theorem alphabet_reduced (j : Json F) : (reducedFile j).field Json.kAlphabet = (j.field Json.kAlphabet).map (throughout reducedEntry) :=
  (field_memberwise _ j "alphabet" rfl (by simp [throughout, reducedEntry, memberwise])).trans rfl

theorem field_elems_sub {j v x : Json F} {k : Str} (hk : k ≠ "min_prob".toList) (h : j.field k = .ok v) (hx : x ∈ v.elems) : Inside x j := by
  rcases field_sub hk h with h | rfl
  · exact h.under (elems_sub hx)
  · simp [Json.elems] at hx

theorem readDict_upTo (O : FloatOps F) (j : Json F) : UpTo (NumsFit O j) (Narrow.readDict O j) (Loader.readDict O (reducedFile j)) := by
  refine UpTo.bindMap (h := reduced) ((field_memberwise _ j "size" rfl (by simp [reduced])).trans rfl) fun js e1 => ?_
  refine UpTo.bind (a := js.castInt O) (b := (reduced js).getInt O) ?_ fun size _ => ?_
  · rcases field_sub (by decide) e1 with h | rfl
    · exact castInt_upTo O h
    · exact .rfl'
  refine UpTo.bind (.of_eq (field_reducedFile j "min_prob" rfl (by decide) (by decide) (by decide)).symm) fun jm _ => ?_
  refine UpTo.rfl'.bind fun mp _ => ?_
  refine UpTo.bindMap (h := throughout reduced) ((field_memberwise _ j "coder" rfl (by simp [reduced, throughout])).trans rfl) fun jc e2 => ?_
  rw [elems_reduced]
  refine (readCoder_upTo O fun x hx => field_elems_sub (by decide) e2 hx).bind fun coder _ => ?_
  refine UpTo.bindMap (alphabet_reduced j) fun ja e3 => ?_
  rw [elems_reducedEntry]
  exact (readAlphabet_upTo O fun x hx => field_elems_sub (by decide) e3 hx).bind fun _ _ => .rfl'

theorem loadStream_upTo (O : FloatOps F) (j : Json F) : UpTo (NumsFit O j) (Narrow.loadStream O j) (Loader.loadStream O (reducedFile j)) :=
  (readDict_upTo O j).bind fun _ _ => .rfl'

theorem loadIntVGram_upTo (O : FloatOps F) (j : Json F) : UpTo (NumsFit O j) (Narrow.loadIntVGram O j) (Loader.loadIntVGram O (reducedFile j)) := by
  refine (readDict_upTo O j).bind fun i _ => ?_
  refine UpTo.bind (.of_eq (field_reducedFile j "fitted" rfl (by decide) (by decide) (by decide)).symm) fun jf _ => ?_
  refine UpTo.rfl'.bind fun _ _ => ?_
  refine UpTo.bind (.of_eq (field_reducedFile j "freqs_computed" rfl (by decide) (by decide) (by decide)).symm) fun jc _ => ?_
  exact .rfl'

theorem tokenizerLoop_upTo (O : FloatOps F) (c : SeqCoder) {root : Json F} : ∀ {l : List (Json F)} {m : AMap Str Int}, (∀ j ∈ l, Inside j root) →
    UpTo (NumsFit O root) (Narrow.tokenizerLoop O c l m) (Loader.tokenizerLoop O c (l.map reducedEntry) m)
  | [], _, _ => .rfl'
  | j :: l, m, h => by
    have hj := h j (by simp)
    refine UpTo.bindMap (vec_reduced j) fun jv e2 => ?_
    refine (castIntSeq_upTo O (hj.under (fieldConst_sub e2))).bind fun v _ => ?_
    refine UpTo.rfl'.bind fun vec _ => ?_
    have hl : ∀ x ∈ l, Inside x root := fun x hx => h x (List.mem_cons_of_mem _ hx)
    rcases vec with _ | ⟨x, _ | ⟨y, r⟩⟩
    · exact tokenizerLoop_upTo O c hl
    · refine UpTo.bind (.of_eq (text_reduced j).symm) fun _ _ => ?_
      exact UpTo.rfl'.bind fun _ _ => tokenizerLoop_upTo O c hl
    · exact tokenizerLoop_upTo O c hl

theorem loadTokenizer_upTo (O : FloatOps F) (c : SeqCoder) (j : Json F) : UpTo (NumsFit O j) (Narrow.loadTokenizer O c j) (Loader.loadTokenizer O c (reducedFile j)) := by
  refine UpTo.bindMap (alphabet_reduced j) fun ja e => ?_
  rw [elems_reducedEntry]
  exact (tokenizerLoop_upTo O c fun x hx => field_elems_sub (by decide) e hx).bind fun _ _ => .rfl'

theorem reduced_id {j root : Json F} (hr : IntsFit root) (h : Sub j root) : reduced j = j := by
  cases j with
  | int i =>
    obtain ⟨h1, h2⟩ := hr i h
    have : i.bmod (2 ^ 32) = i := by rw [← narrow_eq, Json.narrow]; omega
    simp only [reduced, this]
  | _ => rfl

theorem throughout_id {f : Json F → Json F} {j : Json F} (h : ∀ x, Sub x j → f x = x) : throughout f j = j := by
  cases j with
  | arr l => rw [throughout, List.map_congr_left (g := id) fun x hx => h x (.arr hx (.refl x)), List.map_id]
  | obj l => rw [throughout, List.map_congr_left (g := id) fun e he => by rw [h e.2 (.obj he (.refl _))]; rfl, List.map_id]
  | _ => exact h _ (.refl _)

theorem memberwise_id {f : String → Json F → Json F} {j : Json F} (h : ∀ k x, Sub x j → f k x = x) : memberwise f j = j := by
  cases j with
  | obj l => rw [memberwise, List.map_congr_left (g := id) fun e he => by rw [h _ e.2 (.obj he (.refl _))]; rfl, List.map_id]
  | _ => rfl

theorem reducedEntry_id {j root : Json F} (hr : IntsFit root) (h : Sub j root) : reducedEntry j = j := by
  refine memberwise_id fun k x hx => ?_
  have hx' := hx.trans h
  split
  · exact reduced_id hr hx'
  split
  · exact throughout_id fun y hy => reduced_id hr (hy.trans hx')
  · rfl

theorem reducedFile_id {j : Json F} (hr : IntsFit j) : reducedFile j = j := by
  refine memberwise_id fun k x hx => ?_
  split
  · exact reduced_id hr hx
  split
  · exact throughout_id fun y hy => reduced_id hr (hy.trans hx)
  split
  · exact throughout_id fun y hy => reducedEntry_id hr (hy.trans hx)
  · rfl

theorem loadStringStream_upTo (O : FloatOps F) (j : Json F) : UpTo (NumsFit O j) (Narrow.loadStringStream O j) (Loader.loadStringStream O (reducedFile j)) :=
  (loadStream_upTo O j).bind fun m _ => (loadTokenizer_upTo O m.coder j).bind fun _ _ => .rfl'

theorem loadStringVGram_upTo (O : FloatOps F) (j : Json F) : UpTo (NumsFit O j) (Narrow.loadStringVGram O j) (Loader.loadStringVGram O (reducedFile j)) :=
  (loadIntVGram_upTo O j).bind fun m _ => (loadTokenizer_upTo O m.coder j).bind fun _ _ => .rfl'

/-! ## Files whose numbers fit -/

/-- If all numbers of a file fit, then the conversions to `int` change nothing. -/
theorem fitting_loads (O : FloatOps F) {j : Json F} (hi : IntsFit j) (hn : NumsFit O j) :
    Narrow.loadStream O j = Loader.loadStream O j ∧ Narrow.loadIntVGram O j = Loader.loadIntVGram O j ∧
      Narrow.loadStringStream O j = Loader.loadStringStream O j ∧ Narrow.loadStringVGram O j = Loader.loadStringVGram O j := by
  have key : ∀ {α : Type} {a b : M α}, UpTo (NumsFit O j) a b → a = b := fun h => h.resolve_left fun h => h.2 hn
  have h1 := key (loadStream_upTo O j)
  have h2 := key (loadIntVGram_upTo O j)
  have h3 := key (loadStringStream_upTo O j)
  have h4 := key (loadStringVGram_upTo O j)
  rw [reducedFile_id hi] at h1 h2 h3 h4
  exact ⟨h1, h2, h3, h4⟩

/-! ## Files written by `save` -/

theorem baseInfo_noNum {O : FloatOps F} {m : Stream F} {tok : Option Tokenizer} {more b : List (Str × Json F)} (hmore : ∀ e ∈ more, ∃ v, e.2 = .bool v)
    (h : Saver.baseInfo O m tok more = .ok b) (x : F) : ¬ Inside (.num x) (.obj b) := by
  rintro ⟨l, e, hl, he, hk, hs⟩
  cases hl
  obtain ⟨mp, d, alpha, _, _, h3, rfl⟩ := baseInfo_shape h
  simp only [List.cons_append, List.nil_append, List.mem_cons, List.mem_append, List.not_mem_nil, or_false] at he
  rcases he with rfl | rfl | he | rfl | rfl
  · rcases sub_pushed hs with (h | h) | ⟨y, hy, hs⟩
    · cases h
    · cases h
    obtain ⟨w, f, text, rfl, ht⟩ : ∃ w f text, y = entryOf f text w ∧ TextOf tok m.coder w text := by
      have := alphabetLoop_entries _ _ _ _ _ _ h3
      obtain ⟨k, hk, rfl⟩ := List.getElem_of_mem hy
      exact ⟨_, this.get (by rw [this.length_eq]; exact hk) hk⟩
    unfold entryOf at hs
    cases hs with
    | obj he hs =>
      simp only [List.cons_append, List.mem_cons, List.mem_append, List.not_mem_nil, or_false] at he
      rcases he with rfl | he | rfl
      · cases sub_int hs
      · cases tok with
        | none => simp only [TextOf] at ht; subst ht; cases he
        | some t =>
          obtain ⟨y, _, rfl⟩ := ht
          rw [List.mem_singleton] at he
          subst he
          cases hs
      · rcases sub_ints hs with h | ⟨i, h⟩ <;> cases h
  · rcases sub_pushed hs with (h | h) | ⟨y, hy, hs⟩
    · cases h
    · cases h
    obtain ⟨p, _, rfl⟩ := List.mem_map.1 hy
    cases sub_int hs
  · obtain ⟨v, hv⟩ := hmore e he
    rw [hv] at hs
    cases hs
  · exact hk rfl
  · cases sub_int hs

theorem baseInfo_numsFit {O : FloatOps F} {m : Stream F} {tok : Option Tokenizer} {more b : List (Str × Json F)} (hmore : ∀ e ∈ more, ∃ v, e.2 = .bool v)
    (h : Saver.baseInfo O m tok more = .ok b) : NumsFit O (.obj b) :=
  fun x hx => absurd hx (baseInfo_noNum hmore h x)

end VGram
