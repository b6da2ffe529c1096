import Verif.Spec.Loading
import Verif.Proofs.Persist

/-! # The loader on arbitrary trees -/

namespace VGram

open Spec

variable {F : Type}

theorem bind_err {α β : Type} {x : M α} {f : α → M β} {e : Fault} :
    (x >>= f) = .error e ↔ x = .error e ∨ ∃ a, x = .ok a ∧ f a = .error e := by
  cases x with
  | error e' => simp [bind, Except.bind]
  | ok a => simp [bind, Except.bind]

theorem get?_none_iff {κ ν : Type} [DecidableEq κ] {l : AMap κ ν} {k : κ} : AMap.get? l k = none ↔ ∀ e ∈ l, e.1 ≠ k := by
  induction l with
  | nil => simp [AMap.get?]
  | cons p l ih =>
    obtain ⟨k', v⟩ := p
    simp only [AMap.get?]
    split
    · next h => simp [h]
    · next h => simp [ih, h]

theorem get?_some_iff {κ ν : Type} [DecidableEq κ] {l : AMap κ ν} {k : κ} {v : ν} :
    AMap.get? l k = some v ↔ ∃ a b, l = a ++ (k, v) :: b ∧ ∀ e ∈ a, e.1 ≠ k := by
  constructor
  · induction l with
    | nil => simp [AMap.get?]
    | cons p l ih =>
      obtain ⟨k', v'⟩ := p
      intro h
      simp only [AMap.get?] at h
      split at h
      · next hk =>
        cases h
        subst hk
        exact ⟨[], l, rfl, by simp⟩
      · next hk =>
        obtain ⟨a, b, rfl, h2⟩ := ih h
        exact ⟨(k', v') :: a, b, rfl, by simpa [hk] using h2⟩
  · rintro ⟨a, b, rfl, h⟩
    induction a with
    | nil => simp [AMap.get?]
    | cons p a ih =>
      obtain ⟨k', v'⟩ := p
      have hk : k' ≠ k := h (k', v') (by simp)
      simp only [List.cons_append, AMap.get?, if_neg hk]
      exact ih fun e he => h e (by simp [he])

namespace Json

theorem getInt_ok {O : FloatOps F} {j : Json F} {i : Int} : j.getInt O = .ok i ↔ Whole O j i := by
  constructor
  · intro h
    cases j with
    | int i => cases h; exact .int _
    | num x => cases h; exact .num _
    | bool b => cases b <;> cases h <;> constructor
    | _ => cases h
  · rintro ⟨⟩ <;> rfl

theorem getInt_err {O : FloatOps F} {j : Json F} {e : Fault} (h : j.getInt O = .error e) : e = .jsonType := by
  cases j <;> cases h <;> rfl

theorem getNum_ok {O : FloatOps F} {j : Json F} {x : F} : j.getNum O = .ok x ↔ Numeric O j x := by
  constructor
  · intro h
    cases j with
    | int i => cases h; exact .int _
    | num x => cases h; exact .num _
    | _ => cases h
  · rintro ⟨⟩ <;> rfl

theorem getNum_err {O : FloatOps F} {j : Json F} {e : Fault} (h : j.getNum O = .error e) : e = .jsonType := by
  cases j <;> cases h <;> rfl

theorem getInts_ok {O : FloatOps F} : ∀ {l : List (Json F)} {is : List Int}, getInts O l = .ok is ↔ List.Forall₂ (Whole O) l is
  | [], is => by
    simp only [getInts, List.forall₂_nil_left_iff]
    constructor
    · intro h; cases h; rfl
    · rintro rfl; rfl
  | j :: l, is => by
    simp only [getInts, bind_ok, getInt_ok, getInts_ok, pure_M, List.forall₂_cons_left_iff]
    constructor
    · rintro ⟨i, h1, is, h2, h3⟩
      cases h3
      exact ⟨i, is, h1, h2, rfl⟩
    · rintro ⟨i, is, h1, h2, rfl⟩
      exact ⟨i, h1, is, h2, rfl⟩

theorem getInts_err {O : FloatOps F} : ∀ {l : List (Json F)} {e : Fault}, getInts O l = .error e → e = .jsonType
  | [], e, h => by cases h
  | j :: l, e, h => by
    simp only [getInts] at h
    rcases bind_err.1 h with h | ⟨i, _, h⟩
    · exact getInt_err h
    · rcases bind_err.1 h with h | ⟨is, _, h⟩
      · exact getInts_err h
      · cases h

theorem getIntSeq_ok {O : FloatOps F} {j : Json F} {is : List Int} : j.getIntSeq O = .ok is ↔ ∃ l, j = .arr l ∧ List.Forall₂ (Whole O) l is := by
  cases j with
  | arr l => simp [getIntSeq, getInts_ok]
  | _ => simp [getIntSeq]

theorem getIntSeq_err {O : FloatOps F} {j : Json F} {e : Fault} (h : j.getIntSeq O = .error e) : e = .jsonType := by
  cases j with
  | arr l => exact getInts_err h
  | _ => cases h; rfl

theorem items_iff {j : Json F} {l : List (Json F)} : Items j l ↔ j.elems = l := by
  constructor
  · rintro ⟨⟩ <;> rfl
  · rintro rfl
    cases j <;> constructor

theorem fieldConst_ok {j v : Json F} {k : String} {k' : Str} (hk : k' = k.toList) : j.fieldConst k' = .ok v ↔ Member j k v := by
  subst hk
  cases j with
  | obj l =>
    simp only [fieldConst, Member, Json.obj.injEq]
    rw [← get?_some_iff]
    cases AMap.get? l k.toList <;> simp
  | _ => simp [fieldConst, Member]

theorem fieldConst_key {j : Json F} {k : String} {k' : Str} (hk : k' = k.toList) : j.fieldConst k' = .error .jsonKey ↔ Lacks j k := by
  subst hk
  cases j with
  | obj l =>
    have : Lacks (.obj l) k ↔ ∀ e ∈ l, e.1 ≠ k.toList :=
      ⟨fun ⟨_, h, h'⟩ => by cases h; exact h', fun h => ⟨l, rfl, h⟩⟩
    rw [this, ← get?_none_iff]
    simp only [fieldConst]
    cases AMap.get? l k.toList <;> simp
  | _ => simp [fieldConst, Lacks]

theorem fieldConst_err {j : Json F} {k : Str} {e : Fault} (h : j.fieldConst k = .error e) : e = .jsonType ∨ e = .jsonKey := by
  cases j with
  | obj l =>
    simp only [fieldConst] at h
    split at h <;> cases h
    exact Or.inr rfl
  | _ => cases h; exact Or.inl rfl

theorem field_obj {l : List (Str × Json F)} {k : Str} : (Json.obj l).field k = .ok ((AMap.get? l k).getD .null) := rfl

theorem field_err {j : Json F} {k : Str} {e : Fault} (h : j.field k = .error e) : e = .jsonType := by
  cases j <;> cases h <;> rfl

theorem member_iff {l : List (Str × Json F)} {k : String} {v : Json F} : Member (.obj l) k v ↔ AMap.get? l k.toList = some v := by
  simp only [Member, Json.obj.injEq]
  rw [← get?_some_iff]

theorem lacks_iff {l : List (Str × Json F)} {k : String} : Lacks (.obj l) k ↔ AMap.get? l k.toList = none := by
  rw [get?_none_iff]
  exact ⟨fun ⟨_, h, h'⟩ => by cases h; exact h', fun h => ⟨l, rfl, h⟩⟩

theorem member_int {O : FloatOps F} {j : Json F} {k : String} {k' : Str} {i : Int} (hk : k' = k.toList) :
    (∃ v, j.field k' = .ok v ∧ v.getInt O = .ok i) ↔ ∃ v, Member j k v ∧ Whole O v i := by
  subst hk
  cases j with
  | obj l =>
    simp only [field_obj, member_iff, getInt_ok]
    cases AMap.get? l k.toList with
    | some v => simp
    | none =>
      simp only [Option.getD_none]
      constructor
      · rintro ⟨v, h, h'⟩; cases h; cases h'
      · rintro ⟨v, h, _⟩; cases h
  | null => simp only [field]; constructor <;> rintro ⟨v, h, h'⟩ <;> [(cases h; cases h'); (obtain ⟨_, _, h, _⟩ := h; cases h)]
  | _ => simp [field, Member]

theorem member_num {O : FloatOps F} {j : Json F} {k : String} {k' : Str} {x : F} (hk : k' = k.toList) :
    (∃ v, j.field k' = .ok v ∧ v.getNum O = .ok x) ↔ ∃ v, Member j k v ∧ Numeric O v x := by
  subst hk
  cases j with
  | obj l =>
    simp only [field_obj, member_iff, getNum_ok]
    cases AMap.get? l k.toList with
    | some v => simp
    | none =>
      simp only [Option.getD_none]
      constructor
      · rintro ⟨v, h, h'⟩; cases h; cases h'
      · rintro ⟨v, h, _⟩; cases h
  | null => simp only [field]; constructor <;> rintro ⟨v, h, h'⟩ <;> [(cases h; cases h'); (obtain ⟨_, _, h, _⟩ := h; cases h)]
  | _ => simp [field, Member]

theorem itemsOf_iff {m : List (Str × Json F)} {k : String} {k' : Str} {l : List (Json F)} (hk : k' = k.toList) :
    (∃ v, (Json.obj m).field k' = .ok v ∧ v.elems = l) ↔ ItemsOf (.obj m) k l := by
  subst hk
  simp only [field_obj, ItemsOf, member_iff, lacks_iff, items_iff]
  cases AMap.get? m k.toList with
  | some v => simp
  | none => simp [elems, eq_comm]

end Json

namespace Loader

open Json

theorem readCoder_ok {O : FloatOps F} : ∀ {l : List (Json F)} {c c' : SeqCoder},
    readCoder O l c = .ok c' ↔ ∃ is, List.Forall₂ (Whole O) l is ∧ c' = (c.encode is).1
  | [], c, c' => by
    simp only [readCoder, List.forall₂_nil_left_iff]
    constructor
    · intro h; cases h; exact ⟨[], rfl, rfl⟩
    · rintro ⟨_, rfl, rfl⟩; rfl
  | j :: l, c, c' => by
    simp only [readCoder, bind_ok, getInt_ok, readCoder_ok, List.forall₂_cons_left_iff]
    constructor
    · rintro ⟨i, h1, is, h2, rfl⟩
      exact ⟨i :: is, ⟨i, is, h1, h2, rfl⟩, rfl⟩
    · rintro ⟨_, ⟨i, is, h1, h2, rfl⟩, rfl⟩
      exact ⟨i, h1, is, h2, rfl⟩

theorem readCoder_err {O : FloatOps F} : ∀ {l : List (Json F)} {c : SeqCoder} {e : Fault}, readCoder O l c = .error e → e = .jsonType
  | [], _, _, h => by cases h
  | j :: l, c, e, h => by
    simp only [readCoder] at h
    rcases bind_err.1 h with h | ⟨i, _, h⟩
    · exact getInt_err h
    · exact readCoder_err h

theorem freq_ok {j v : Json F} : j.fieldConst kFreq = .ok v ↔ Member j "freq" v := fieldConst_ok rfl

theorem vec_ok {j v : Json F} : j.fieldConst kVec = .ok v ↔ Member j "vec" v := fieldConst_ok rfl

theorem freq_key {j : Json F} : j.fieldConst kFreq = .error .jsonKey ↔ Lacks j "freq" := fieldConst_key rfl

theorem vec_key {j : Json F} : j.fieldConst kVec = .error .jsonKey ↔ Lacks j "vec" := fieldConst_key rfl

theorem readAlphabet_ok {O : FloatOps F} : ∀ {l : List (Json F)} {p : List Int × List IntSeq},
    readAlphabet O l = .ok p ↔ ∃ es, List.Forall₂ (Entry O) l es ∧ p = (es.map Prod.fst, es.map Prod.snd)
  | [], p => by
    simp only [readAlphabet, List.forall₂_nil_left_iff]
    constructor
    · intro h; cases h; exact ⟨[], rfl, rfl⟩
    · rintro ⟨_, rfl, rfl⟩; rfl
  | j :: l, p => by
    simp only [readAlphabet, bind_ok, getInt_ok, getIntSeq_ok, freq_ok, vec_ok, readAlphabet_ok,
      List.forall₂_cons_left_iff, pure_M]
    constructor
    · rintro ⟨jf, h1, f, h2, jv, h3, v, ⟨vs, rfl, h4⟩, ⟨_, _⟩, ⟨es, h5, h6⟩, h7⟩
      cases h6
      cases h7
      exact ⟨(f, v) :: es, ⟨(f, v), es, ⟨jf, vs, h1, h2, h3, h4⟩, h5, rfl⟩, rfl⟩
    · rintro ⟨_, ⟨⟨f, v⟩, es, ⟨jf, vs, h1, h2, h3, h4⟩, h5, rfl⟩, rfl⟩
      exact ⟨jf, h1, f, h2, _, h3, v, ⟨vs, rfl, h4⟩, _, ⟨es, h5, rfl⟩, rfl⟩

theorem readAlphabet_err {O : FloatOps F} : ∀ {l : List (Json F)} {e : Fault}, readAlphabet O l = .error e → e = .jsonType ∨ e = .jsonKey
  | [], _, h => by cases h
  | j :: l, e, h => by
    simp only [readAlphabet] at h
    rcases bind_err.1 h with h | ⟨_, _, h⟩
    · exact fieldConst_err h
    rcases bind_err.1 h with h | ⟨_, _, h⟩
    · exact Or.inl (getInt_err h)
    rcases bind_err.1 h with h | ⟨_, _, h⟩
    · exact fieldConst_err h
    rcases bind_err.1 h with h | ⟨_, _, h⟩
    · exact Or.inl (getIntSeq_err h)
    rcases bind_err.1 h with h | ⟨_, _, h⟩
    · exact readAlphabet_err h
    · cases h

theorem readAlphabet_key {O : FloatOps F} : ∀ {l : List (Json F)},
    readAlphabet O l = .error .jsonKey ↔ ∃ a es bad b, l = a ++ bad :: b ∧ List.Forall₂ (Entry O) a es ∧ Broken O bad
  | [] => by
    constructor
    · intro h; cases h
    · rintro ⟨a, _, _, _, h, _⟩
      simp at h
  | j :: l => by
    constructor
    · intro h
      simp only [readAlphabet] at h
      rcases bind_err.1 h with h | ⟨jf, h1, h⟩
      · exact ⟨[], [], j, l, rfl, .nil, Or.inl ((fieldConst_key rfl).1 h)⟩
      rcases bind_err.1 h with h | ⟨f, h2, h⟩
      · cases getInt_err h
      have h1 := (fieldConst_ok (k := "freq") rfl).1 h1
      have h2 := getInt_ok.1 h2
      rcases bind_err.1 h with h | ⟨jv, h3, h⟩
      · exact ⟨[], [], j, l, rfl, .nil, Or.inr ⟨⟨jf, f, h1, h2⟩, (fieldConst_key rfl).1 h⟩⟩
      rcases bind_err.1 h with h | ⟨v, h4, h⟩
      · cases getIntSeq_err h
      have h3 := (fieldConst_ok (k := "vec") rfl).1 h3
      obtain ⟨vs, e4, h4⟩ := getIntSeq_ok.1 h4
      rcases bind_err.1 h with h | ⟨_, _, h⟩
      · obtain ⟨a, es, bad, b, rfl, h5, h6⟩ := readAlphabet_key.1 h
        exact ⟨j :: a, (f, v) :: es, bad, b, rfl, .cons ⟨jf, vs, h1, h2, e4 ▸ h3, h4⟩ h5, h6⟩
      · cases h
    · rintro ⟨a, es, bad, b, h, h1, h2⟩
      cases a with
      | nil =>
        cases h
        simp only [readAlphabet]
        rcases h2 with h2 | ⟨⟨v, i, h2, h3⟩, h4⟩
        · rw [freq_key.2 h2]
          rfl
        · rw [freq_ok.2 h2, ok_bind, getInt_ok.2 h3, ok_bind, vec_key.2 h4]
          rfl
      | cons x a =>
        cases h
        cases h1 with
        | cons e h1 =>
          obtain ⟨jf, vs, e1, e2, e3, e4⟩ := e
          simp only [readAlphabet]
          rw [freq_ok.2 e1, ok_bind, getInt_ok.2 e2, ok_bind, vec_ok.2 e3, ok_bind, getIntSeq_ok.2 ⟨vs, rfl, e4⟩, ok_bind, List.append_eq,
            readAlphabet_key.2 ⟨a, _, bad, b, rfl, h1, h2⟩]
          rfl

theorem readDict_ok {O : FloatOps F} {j : Json F} {i : Info F} : readDict O j = .ok i ↔
    ∃ vals es, Describes O j i.size i.minProb vals es ∧ i.coder = (SeqCoder.new.encode vals).1 ∧ i.freqs = es.map Prod.fst ∧ i.alphabet = es.map Prod.snd := by
  simp only [readDict]
  constructor
  · intro h
    obtain ⟨js, h1, h⟩ := bind_ok.1 h
    obtain ⟨size, h2, h⟩ := bind_ok.1 h
    obtain ⟨jm, h3, h⟩ := bind_ok.1 h
    obtain ⟨mp, h4, h⟩ := bind_ok.1 h
    obtain ⟨jc, h5, h⟩ := bind_ok.1 h
    obtain ⟨c, h6, h⟩ := bind_ok.1 h
    obtain ⟨ja, h7, h⟩ := bind_ok.1 h
    obtain ⟨⟨fs, ws⟩, h8, h⟩ := bind_ok.1 h
    cases h
    have a1 := (member_int (k := "size") rfl).1 ⟨_, h1, h2⟩
    have a2 := (member_num (k := "min_prob") rfl).1 ⟨_, h3, h4⟩
    obtain ⟨v, ⟨a, b, rfl, _⟩, _⟩ := a1
    obtain ⟨vals, h9, h10⟩ := readCoder_ok.1 h6
    obtain ⟨es, h11, h12⟩ := readAlphabet_ok.1 h8
    cases h12
    exact ⟨vals, es, ⟨⟨(member_int (k := "size") rfl).1 ⟨_, h1, h2⟩, a2, _, (itemsOf_iff rfl).1 ⟨_, h5, rfl⟩, h9⟩, _, (itemsOf_iff rfl).1 ⟨_, h7, rfl⟩, h11⟩, h10, rfl, rfl⟩
  · rintro ⟨vals, es, ⟨⟨a1, a2, lc, a3, a4⟩, la, a5, a6⟩, h1, h2, h3⟩
    obtain ⟨m, rfl⟩ : ∃ m, j = .obj m := by
      obtain ⟨v, ⟨a, b, rfl, _⟩, _⟩ := a1
      exact ⟨_, rfl⟩
    obtain ⟨js, b1, b2⟩ := (member_int (k' := kSize) rfl).2 a1
    obtain ⟨jm, b3, b4⟩ := (member_num (k' := kMinProb) rfl).2 a2
    obtain ⟨jc, b5, rfl⟩ := (itemsOf_iff (k' := kCoder) rfl).2 a3
    obtain ⟨ja, b6, rfl⟩ := (itemsOf_iff (k' := kAlphabet) rfl).2 a5
    rw [b1, ok_bind, b2, ok_bind, b3, ok_bind, b4, ok_bind, b5, ok_bind, readCoder_ok.2 ⟨vals, a4, rfl⟩, ok_bind, b6, ok_bind, readAlphabet_ok.2 ⟨es, a6, rfl⟩,
      ok_bind, pure_M, ← h1, ← h2, ← h3]

theorem readDict_err {O : FloatOps F} {j : Json F} {e : Fault} (h : readDict O j = .error e) : e = .jsonType ∨ e = .jsonKey := by
  simp only [readDict] at h
  rcases bind_err.1 h with h | ⟨_, _, h⟩
  · exact Or.inl (field_err h)
  rcases bind_err.1 h with h | ⟨_, _, h⟩
  · exact Or.inl (getInt_err h)
  rcases bind_err.1 h with h | ⟨_, _, h⟩
  · exact Or.inl (field_err h)
  rcases bind_err.1 h with h | ⟨_, _, h⟩
  · exact Or.inl (getNum_err h)
  rcases bind_err.1 h with h | ⟨_, _, h⟩
  · exact Or.inl (field_err h)
  rcases bind_err.1 h with h | ⟨_, _, h⟩
  · exact Or.inl (readCoder_err h)
  rcases bind_err.1 h with h | ⟨_, _, h⟩
  · exact Or.inl (field_err h)
  rcases bind_err.1 h with h | ⟨_, _, h⟩
  · exact readAlphabet_err h
  · cases h

theorem readDict_key {O : FloatOps F} {j : Json F} : readDict O j = .error .jsonKey ↔
    ∃ size mp vals a es bad b, Heads O j size mp vals ∧ ItemsOf j "alphabet" (a ++ bad :: b) ∧ List.Forall₂ (Entry O) a es ∧ Broken O bad := by
  simp only [readDict]
  constructor
  · intro h
    rcases bind_err.1 h with h | ⟨js, h1, h⟩
    · cases field_err h
    rcases bind_err.1 h with h | ⟨size, h2, h⟩
    · cases getInt_err h
    rcases bind_err.1 h with h | ⟨jm, h3, h⟩
    · cases field_err h
    rcases bind_err.1 h with h | ⟨mp, h4, h⟩
    · cases getNum_err h
    rcases bind_err.1 h with h | ⟨jc, h5, h⟩
    · cases field_err h
    rcases bind_err.1 h with h | ⟨c, h6, h⟩
    · cases readCoder_err h
    rcases bind_err.1 h with h | ⟨ja, h7, h⟩
    · cases field_err h
    rcases bind_err.1 h with h | ⟨_, _, h⟩
    · obtain ⟨a, es, bad, b, h8, h9, h10⟩ := readAlphabet_key.1 h
      obtain ⟨vals, h11, _⟩ := readCoder_ok.1 h6
      have a1 := (member_int (k := "size") rfl).1 ⟨_, h1, h2⟩
      have a2 := (member_num (k := "min_prob") rfl).1 ⟨_, h3, h4⟩
      obtain ⟨m, rfl⟩ : ∃ m, j = .obj m := by
        obtain ⟨v, ⟨a, b, rfl, _⟩, _⟩ := a1
        exact ⟨_, rfl⟩
      exact ⟨size, mp, vals, a, es, bad, b, ⟨a1, a2, _, (itemsOf_iff rfl).1 ⟨_, h5, rfl⟩, h11⟩, (itemsOf_iff rfl).1 ⟨_, h7, h8⟩, h9, h10⟩
    · cases h
  · rintro ⟨size, mp, vals, a, es, bad, b, ⟨a1, a2, lc, a3, a4⟩, a5, a6, a7⟩
    obtain ⟨m, rfl⟩ : ∃ m, j = .obj m := by
      obtain ⟨v, ⟨a, b, rfl, _⟩, _⟩ := a1
      exact ⟨_, rfl⟩
    obtain ⟨js, b1, b2⟩ := (member_int (k' := kSize) rfl).2 a1
    obtain ⟨jm, b3, b4⟩ := (member_num (k' := kMinProb) rfl).2 a2
    obtain ⟨jc, b5, rfl⟩ := (itemsOf_iff (k' := kCoder) rfl).2 a3
    obtain ⟨ja, b6, b7⟩ := (itemsOf_iff (k' := kAlphabet) rfl).2 a5
    rw [b1, ok_bind, b2, ok_bind, b3, ok_bind, b4, ok_bind, b5, ok_bind, readCoder_ok.2 ⟨vals, a4, rfl⟩, ok_bind, b6, ok_bind, b7,
      readAlphabet_key.2 ⟨a, es, bad, b, rfl, a6, a7⟩]
    rfl

end Loader

theorem ofSaved_any (O : FloatOps F) (coder : SeqCoder) (freqs : List Int) (l : List IntSeq) (size : Int) (mp : F) :
    ∃ m d, Stream.ofSaved O coder freqs l size mp = .ok m ∧ IntDict.init l = .ok d ∧ m.dict = .own ∧ m.own = d ∧ m.coder = coder ∧ m.freqs = freqs ∧
      m.totalFreqs = sumI freqs ∧ m.size = size ∧ m.minProb = some mp ∧ ∃ a, m.builder.alpha = .ok a := by
  obtain ⟨ps, h1, _⟩ := init_spec l
  obtain ⟨b, hb, ha⟩ : ∃ b, Builder.ofSaved O ⟨sortSeqs l, ps⟩ freqs l mp = .ok b ∧ ∃ a, b.alpha = .ok a := by
    obtain ⟨ps2, h2, _⟩ := init_spec (sortSeqs l)
    simp only [Builder.ofSaved, StatDict.ofSeqs, h2, ok_bind, pure_M]
    exact ⟨_, rfl, builder_alpha_ok (by simp [Builder.resultIdx])⟩
  refine ⟨⟨size, b, .own, ⟨sortSeqs l, ps⟩, coder, freqs, sumI freqs, some mp⟩, _, ?_, h1, rfl, rfl, rfl, rfl, rfl, rfl, rfl, ha⟩
  simp only [Stream.ofSaved, h1, hb, ok_bind, pure_M]

end VGram
