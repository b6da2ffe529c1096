import Verif.Model.HashTable
import Verif.Proofs.Basic

/-! # Hash tables keep what was inserted -/

namespace VGram

namespace HashTable

variable {α : Type} [DecidableEq α]

/-- The pointer to the node before the first one of bucket `b`. -/
def before (n b : Nat) : Option α → List (Nat × α) → Option (Option α)
  | _, [] => none
  | p, e :: l => if e.1 % n = b then some p else before n b (some e.2) l

/-- The nodes of a bucket are neighbours. -/
def Grouped (n : Nat) : List (Nat × α) → Prop
  | [] => True
  | e :: l => Grouped n l ∧ ((∃ x r, l = x :: r ∧ x.1 % n = e.1 % n) ∨ ∀ y ∈ l, y.1 % n ≠ e.1 % n)

/-- What holds between calls. -/
structure Inv (hash : α → Nat) (t : HashTable α) : Prop where
  keys : (t.nodes.map (·.2)).Nodup
  codes : ∀ e ∈ t.nodes, e.1 = hash e.2
  size : 1 ≤ t.buckets.length
  bucket : ∀ b, b < t.buckets.length → t.buckets[b]? = some (before t.buckets.length b none t.nodes)
  grouped : Grouped t.buckets.length t.nodes

omit [DecidableEq α] in
theorem before_none {n b : Nat} : ∀ {l : List (Nat × α)} {p : Option α}, before n b p l = none ↔ ∀ e ∈ l, e.1 % n ≠ b
  | [], p => by simp [before]
  | e :: l, p => by
    unfold before
    split
    · next h => simp [h]
    · next h => rw [before_none]; simp [h]

omit [DecidableEq α] in
theorem before_some {n b : Nat} : ∀ {l : List (Nat × α)} {p q : Option α}, before n b p l = some q →
    ∃ A e B, l = A ++ e :: B ∧ e.1 % n = b ∧ (∀ a ∈ A, a.1 % n ≠ b) ∧ (A = [] ∧ q = p ∨ ∃ A' x, A = A' ++ [x] ∧ q = some x.2)
  | [], p, q, h => by simp [before] at h
  | e :: l, p, q, h => by
    unfold before at h
    split at h
    · next hb =>
      injection h with h
      exact ⟨[], e, l, rfl, hb, by simp, Or.inl ⟨rfl, h.symm⟩⟩
    · next hb =>
      obtain ⟨A, x, B, rfl, h2, h3, h4⟩ := before_some h
      refine ⟨e :: A, x, B, rfl, h2, ?_, Or.inr ?_⟩
      · intro a ha
        rcases List.mem_cons.1 ha with rfl | ha
        · exact hb
        · exact h3 a ha
      · rcases h4 with ⟨rfl, rfl⟩ | ⟨A', y, rfl, rfl⟩
        · exact ⟨[], e, rfl, rfl⟩
        · exact ⟨e :: A', y, rfl, rfl⟩

theorem following_some {x : Nat × α} {R : List (Nat × α)} : ∀ {A : List (Nat × α)}, x.2 ∉ A.map (·.2) → following (some x.2) (A ++ x :: R) = R
  | [], _ => by simp [following]
  | a :: A, h => by
    simp only [List.map_cons, List.mem_cons, not_or] at h
    rw [List.cons_append, following, if_neg (Ne.symm h.1), following_some h.2]

theorem linkAfter_some {x e : Nat × α} {R : List (Nat × α)} : ∀ {A : List (Nat × α)}, x.2 ∉ A.map (·.2) → linkAfter (some x.2) e (A ++ x :: R) = A ++ x :: e :: R
  | [], _ => by simp [linkAfter]
  | a :: A, h => by
    simp only [List.map_cons, List.mem_cons, not_or] at h
    rw [List.cons_append, linkAfter, if_neg (Ne.symm h.1), linkAfter_some h.2, List.cons_append]

/-- A pointer found in a bucket leads to its first node. -/
theorem pointer {n b : Nat} {l : List (Nat × α)} {q : Option α} (hk : (l.map (·.2)).Nodup) (h : before n b none l = some q) :
    ∃ A e B, l = A ++ e :: B ∧ e.1 % n = b ∧ (∀ a ∈ A, a.1 % n ≠ b) ∧ following q l = e :: B ∧ ∀ x, linkAfter q x l = A ++ x :: e :: B := by
  obtain ⟨A, e, B, rfl, h2, h3, h4⟩ := before_some h
  refine ⟨A, e, B, rfl, h2, h3, ?_⟩
  rcases h4 with ⟨rfl, rfl⟩ | ⟨A', y, rfl, rfl⟩
  · exact ⟨by simp [following], fun x => by simp [linkAfter]⟩
  · have hy : y.2 ∉ A'.map (·.2) := by
      simp only [List.map_append, List.map_cons, List.map_nil, List.append_assoc] at hk
      intro hm
      exact (List.nodup_append.1 hk).2.2 _ hm y.2 (by simp) rfl
    simp only [List.append_assoc, List.cons_append, List.nil_append]
    exact ⟨following_some hy, fun x => linkAfter_some hy⟩

omit [DecidableEq α] in
theorem Grouped.drop {n : Nat} : ∀ {A B : List (Nat × α)}, Grouped n (A ++ B) → Grouped n B
  | [], _, h => h
  | _ :: _, _, h => Grouped.drop h.1

theorem walk_iff {n b code : Nat} {key : α} (hc : code % n = b) : ∀ {l : List (Nat × α)}, Grouped n l → (∀ e r, l = e :: r → e.1 % n = b) →
    walk n b code key l = decide ((code, key) ∈ l)
  | [], _, _ => by simp [walk]
  | e :: l, hg, hh => by
    have he := hh e l rfl
    rw [walk.eq_def]
    dsimp only
    split
    · next h =>
      have : e = (code, key) := Prod.ext h.1 h.2
      simp [this]
    · next h =>
      have hne : (code, key) ≠ e := fun e' => h (by rw [← e']; exact ⟨rfl, rfl⟩)
      have hmem : decide ((code, key) ∈ e :: l) = decide ((code, key) ∈ l) := by simp [hne]
      rw [hmem]
      cases l with
      | nil => simp
      | cons e' r =>
        dsimp only
        split
        · next hb =>
          rcases hg.2 with ⟨x, r', hx, hs⟩ | hall
          · cases hx
            exact absurd (hs.trans he) hb
          · symm
            rw [decide_eq_false_iff_not]
            intro hm
            exact hall _ hm (by rw [he]; exact hc)
        · next hb =>
          refine walk_iff hc hg.1 fun x r' hx => ?_
          cases hx
          exact not_not.1 hb

theorem Inv.find {hash : α → Nat} {t : HashTable α} (h : Inv hash t) (code : Nat) (key : α) : t.find code key = .ok (decide ((code, key) ∈ t.nodes)) := by
  have hb := Nat.mod_lt code h.size
  unfold HashTable.find
  simp only [h.bucket _ hb]
  cases hp : before t.buckets.length (code % t.buckets.length) none t.nodes with
  | none =>
    rw [decide_eq_false fun hm => before_none.1 hp _ hm rfl]
  | some q =>
    obtain ⟨A, e, B, h1, h2, h3, h4, _⟩ := pointer h.keys hp
    simp only [h4]
    rw [walk_iff rfl (Grouped.drop (h1 ▸ h.grouped)) (fun x r hx => by cases hx; exact h2)]
    congr 1
    rw [decide_eq_decide, h1, List.mem_append]
    refine ⟨Or.inr, fun hm => hm.resolve_left fun ha => h3 _ ha rfl⟩

theorem Inv.find_key {hash : α → Nat} {t : HashTable α} (h : Inv hash t) (key : α) : t.find (hash key) key = .ok (decide (key ∈ t.nodes.map (·.2))) := by
  rw [h.find]
  congr 1
  rw [decide_eq_decide]
  refine ⟨fun hm => List.mem_map_of_mem (f := (·.2)) hm, fun hm => ?_⟩
  obtain ⟨⟨c, k⟩, he, rfl⟩ := List.mem_map.1 hm
  have := h.codes _ he
  dsimp only at this ⊢
  rwa [← this]

omit [DecidableEq α] in
theorem before_link {n b : Nat} {x e : Nat × α} {B : List (Nat × α)} (hx : x.1 % n = e.1 % n) : ∀ {A : List (Nat × α)} {p : Option α},
    before n b p (A ++ x :: e :: B) = before n b p (A ++ e :: B)
  | [], p => by
    simp only [List.nil_append, before, hx]
    split <;> rfl
  | a :: A, p => by
    rw [List.cons_append, List.cons_append, before, before, before_link hx]

omit [DecidableEq α] in
theorem grouped_link {n : Nat} {x e : Nat × α} {B : List (Nat × α)} (hx : x.1 % n = e.1 % n) : ∀ {A : List (Nat × α)}, Grouped n (A ++ e :: B) → Grouped n (A ++ x :: e :: B)
  | [], h => ⟨h, Or.inl ⟨e, B, rfl, hx.symm⟩⟩
  | a :: A, h => by
    refine ⟨grouped_link hx h.1, ?_⟩
    rcases h.2 with ⟨y, r, h1, h2⟩ | hall
    · left
      cases A with
      | nil =>
        cases h1
        exact ⟨x, _, rfl, hx.trans h2⟩
      | cons a' A =>
        cases h1
        exact ⟨_, _, rfl, h2⟩
    · right
      intro y hy
      have hy : y ∈ A ++ x :: e :: B := hy
      have hall : ∀ y ∈ A ++ e :: B, y.1 % n ≠ a.1 % n := hall
      simp only [List.mem_append, List.mem_cons] at hy
      rcases hy with hy | rfl | hy
      · exact hall y (by simp [hy])
      · rw [hx]
        exact hall e (by simp)
      · exact hall y (by simp [hy])

/-- Linking a node into a bucket that is not empty. -/
theorem Inv.link {hash : α → Nat} {t : HashTable α} (h : Inv hash t) {e : Nat × α} (he : e.1 = hash e.2) (hn : e.2 ∉ t.nodes.map (·.2)) {q : Option α}
    (hq : before t.buckets.length (e.1 % t.buckets.length) none t.nodes = some q) :
    Inv hash ⟨linkAfter q e t.nodes, t.buckets⟩ ∧ (linkAfter q e t.nodes).Perm (e :: t.nodes) ∧
      ∀ x r, linkAfter q e t.nodes = x :: r → ∃ y r', t.nodes = y :: r' ∧ x.1 % t.buckets.length = y.1 % t.buckets.length := by
  obtain ⟨A, y, B, h1, h2, h3, _, h5⟩ := pointer h.keys hq
  rw [h5]
  have hp : (A ++ e :: y :: B).Perm (e :: t.nodes) := by
    rw [h1]
    exact List.perm_middle
  refine ⟨⟨?_, ?_, h.size, ?_, ?_⟩, hp, ?_⟩
  · rw [(hp.map _).nodup_iff, List.map_cons, List.nodup_cons]
    exact ⟨hn, h.keys⟩
  · intro x hx
    rcases List.mem_cons.1 (hp.mem_iff.1 hx) with rfl | hx
    · exact he
    · exact h.codes x hx
  · intro b hb
    rw [h.bucket b hb, h1, before_link h2.symm]
  · exact grouped_link h2.symm (h1 ▸ h.grouped)
  · intro x r hx
    cases A with
    | nil =>
      cases hx
      exact ⟨y, B, h1, h2.symm⟩
    | cons a A =>
      cases hx
      exact ⟨_, _, h1, rfl⟩

omit [DecidableEq α] in
/-- Buckets with a new first node. -/
theorem Inv.push {hash : α → Nat} {t : HashTable α} (h : Inv hash t) {e : Nat × α} (he : e.1 = hash e.2) (hn : e.2 ∉ t.nodes.map (·.2))
    (hq : before t.buckets.length (e.1 % t.buckets.length) none t.nodes = none) {bs : List (Option (Option α))} (hl : bs.length = t.buckets.length)
    (hbs : ∀ b, b < t.buckets.length → bs[b]? = some (before t.buckets.length b none (e :: t.nodes))) : Inv hash ⟨e :: t.nodes, bs⟩ := by
  have hq' := before_none.1 hq
  refine ⟨?_, ?_, hl ▸ h.size, ?_, ?_⟩
  · rw [List.map_cons, List.nodup_cons]
    exact ⟨hn, h.keys⟩
  · intro x hx
    rcases List.mem_cons.1 hx with rfl | hx
    · exact he
    · exact h.codes x hx
  · rw [hl]
    exact hbs
  · rw [hl]
    exact ⟨h.grouped, Or.inr hq'⟩

omit [DecidableEq α] in
theorem pushed_buckets {n : Nat} {x e : Nat × α} {r : List (Nat × α)} {bs : List (Option (Option α))} (hl : bs.length = n) (hn : 1 ≤ n)
    (hb : ∀ b, b < n → bs[b]? = some (before n b none (x :: r))) (hq : ∀ y ∈ x :: r, y.1 % n ≠ e.1 % n) (b : Nat) (hb' : b < n) :
    ((bs.set (x.1 % n) (some (some e.2))).set (e.1 % n) (some none))[b]? = some (before n b none (e :: x :: r)) := by
  have hx := hq x (by simp)
  have hxl := Nat.mod_lt x.1 hn
  rw [List.getElem?_set, List.getElem?_set]
  simp only [before, List.length_set, hl]
  by_cases h1 : e.1 % n = b
  · rw [if_pos h1, if_pos (h1 ▸ hb'), if_pos h1]
  · rw [if_neg h1, if_neg h1]
    by_cases h2 : x.1 % n = b
    · rw [if_pos h2, if_pos hxl, if_pos h2]
    · rw [if_neg h2, hb b hb', if_neg h2, before, if_neg h2]

theorem Inv.insertBegin {hash : α → Nat} {t : HashTable α} (h : Inv hash t) {e : Nat × α} (he : e.1 = hash e.2) (hn : e.2 ∉ t.nodes.map (·.2)) :
    ∃ t', t.insertBegin e = .ok t' ∧ Inv hash t' ∧ t'.nodes.Perm (e :: t.nodes) ∧ t'.buckets.length = t.buckets.length := by
  have hb := Nat.mod_lt e.1 h.size
  unfold HashTable.insertBegin
  simp only [h.bucket _ hb]
  cases hp : before t.buckets.length (e.1 % t.buckets.length) none t.nodes with
  | some q =>
    obtain ⟨h1, h2, _⟩ := h.link he hn hp
    exact ⟨_, rfl, h1, h2, rfl⟩
  | none =>
    have hq := before_none.1 hp
    cases hl : t.nodes with
    | nil =>
      refine ⟨⟨[e], t.buckets.set (e.1 % t.buckets.length) (some none)⟩, rfl, ?_, List.Perm.refl _, by simp⟩
      have := h.push he hn hp (bs := t.buckets.set (e.1 % t.buckets.length) (some none)) (by simp) (by
        intro b hb'
        have hbb := h.bucket b hb'
        rw [hl] at hbb ⊢
        rw [List.getElem?_set]
        simp only [before] at hbb ⊢
        split
        · rfl
        · exact hbb)
      rwa [hl] at this
    | cons x r =>
      refine ⟨_, rfl, ?_, List.Perm.refl _, by simp⟩
      have := h.push he hn hp (bs := (t.buckets.set (x.1 % t.buckets.length) (some (some e.2))).set (e.1 % t.buckets.length) (some none)) (by simp) (by
        intro b hb'
        rw [hl]
        exact pushed_buckets rfl h.size (by rw [← hl]; exact h.bucket) (by rw [← hl]; exact hq) b hb')
      rwa [hl] at this

theorem rehashLoop_spec {hash : α → Nat} {n : Nat} : ∀ (todo : List (Nat × α)) {l : List (Nat × α)} {bs : List (Option (Option α))} {bb : Nat},
    Inv hash ⟨l, bs⟩ → bs.length = n → (∀ x r, l = x :: r → bb = x.1 % n) → ((todo ++ l).map (·.2)).Nodup → (∀ e ∈ todo, e.1 = hash e.2) →
    ∃ t', rehashLoop n todo l bs bb = .ok t' ∧ Inv hash t' ∧ t'.buckets.length = n ∧ t'.nodes.Perm (todo ++ l)
  | [], l, bs, bb, h, hl, _, _, _ => ⟨_, rfl, h, hl, List.Perm.refl _⟩
  | e :: todo, l, bs, bb, h, hl, hbb, hk, hc => by
    have hs := h.size
    have hb := Nat.mod_lt e.1 hs
    have hbk := h.bucket _ hb
    dsimp only at hs hb hbk
    rw [hl] at hb hbk
    have hk' := hk
    rw [List.cons_append, List.map_cons, List.nodup_cons] at hk
    have hn : e.2 ∉ l.map (·.2) := fun hm => hk.1 (by rw [List.map_append]; exact List.mem_append_right _ hm)
    have hmid : ∀ {l' : List (Nat × α)}, l'.Perm (e :: l) → (todo ++ l').Perm (e :: todo ++ l) := fun hp =>
      (hp.append_left todo).trans List.perm_middle
    unfold rehashLoop
    simp only [hbk]
    cases hp : before n (e.1 % n) none l with
    | some q =>
      have hp' : before (HashTable.mk l bs).buckets.length (e.1 % (HashTable.mk l bs).buckets.length) none (HashTable.mk l bs).nodes = some q := by
        rw [show (HashTable.mk l bs).buckets.length = n from hl]
        exact hp
      obtain ⟨h1, h2, h3⟩ := h.link (hc e (by simp)) hn hp'
      dsimp only at h1 h2 h3
      rw [hl] at h3
      obtain ⟨t', r1, r2, r3, r4⟩ := rehashLoop_spec todo (bb := bb) h1 hl (by
        intro x r hx
        obtain ⟨y, r', hy, hxy⟩ := h3 x r hx
        rw [hbb y r' hy, hxy]) (((hmid h2).map _).nodup_iff.2 hk') (fun x hx => hc x (List.mem_cons_of_mem _ hx))
      exact ⟨t', r1, r2, r3, r4.trans (hmid h2)⟩
    | none =>
      have hp' : before (HashTable.mk l bs).buckets.length (e.1 % (HashTable.mk l bs).buckets.length) none (HashTable.mk l bs).nodes = none := by
        rw [show (HashTable.mk l bs).buckets.length = n from hl]
        exact hp
      have hq := before_none.1 hp
      have hbk' : ∀ b, b < n → bs[b]? = some (before n b none l) := by
        have := h.bucket
        dsimp only at this
        rwa [hl] at this
      dsimp only
      have hinv : Inv hash ⟨e :: l, if l.isEmpty then bs.set (e.1 % n) (some none) else (bs.set (e.1 % n) (some none)).set bb (some (some e.2))⟩ := by
        refine h.push (hc e (by simp)) hn hp' ?_ ?_
        · split <;> simp
        · dsimp only
          rw [hl]
          intro b hb'
          cases l with
          | nil =>
            have hbb' := hbk' b hb'
            simp only [List.isEmpty_nil, if_true, before] at hbb' ⊢
            rw [List.getElem?_set]
            split
            · rw [if_pos (by rw [hl]; exact hb)]
            · exact hbb'
          | cons x r =>
            rw [hbb x r rfl]
            simp only [List.isEmpty_cons, Bool.false_eq_true, if_false]
            rw [List.set_comm _ _ (fun e' => hq x (by simp) e'.symm)]
            exact pushed_buckets hl (by omega) hbk' hq b hb'
      obtain ⟨t', r1, r2, r3, r4⟩ := rehashLoop_spec (n := n) todo (bb := e.1 % n) hinv (by split <;> simp only [List.length_set, hl]) (by
        intro x r hx
        cases hx
        rfl) (((hmid (List.Perm.refl _)).map _).nodup_iff.2 hk') (fun x hx => hc x (List.mem_cons_of_mem _ hx))
      exact ⟨t', r1, r2, r3, r4.trans (hmid (List.Perm.refl _))⟩

omit [DecidableEq α] in
theorem inv_start (hash : α → Nat) {n : Nat} (hn : 1 ≤ n) : Inv hash (⟨[], List.replicate n none⟩ : HashTable α) :=
  ⟨by simp, by simp, by simpa using hn, fun b hb => by simp only [List.length_replicate] at hb; simp [before, hb], trivial⟩

theorem Inv.rehash {hash : α → Nat} {t : HashTable α} (h : Inv hash t) {n : Nat} (hn : 1 ≤ n) :
    ∃ t', t.rehash n = .ok t' ∧ Inv hash t' ∧ t'.buckets.length = n ∧ t'.nodes.Perm t.nodes := by
  obtain ⟨t', h1, h2, h3, h4⟩ := rehashLoop_spec t.nodes (bb := 0) (inv_start hash hn) (List.length_replicate ..) (by simp) (by simpa using h.keys) h.codes
  exact ⟨t', h1, h2, h3, by simpa using h4⟩

theorem Inv.insert {hash : α → Nat} {grow : Nat → Option Nat} (hg : ∀ m n, grow m = some n → 1 ≤ n) {t : HashTable α} (h : Inv hash t) (key : α) :
    ∃ t', t.insert hash grow key = .ok t' ∧ Inv hash t' ∧
      (t'.nodes.map (·.2)).Perm (if key ∈ t.nodes.map (·.2) then t.nodes.map (·.2) else key :: t.nodes.map (·.2)) := by
  unfold HashTable.insert
  rw [h.find_key]
  by_cases hm : key ∈ t.nodes.map (·.2)
  · refine ⟨t, ?_, h, by rw [if_pos hm]⟩
    simp only [hm, decide_true, ok_bind, if_true, pure_M]
  · rw [if_neg hm]
    simp only [hm, decide_false, ok_bind, Bool.false_eq_true, if_false]
    cases hgr : grow t.nodes.length with
    | none =>
      obtain ⟨t', h1, h2, h3, _⟩ := h.insertBegin (e := (hash key, key)) rfl hm
      exact ⟨t', by simp only [pure_M, ok_bind]; exact h1, h2, by simpa using h3.map (·.2)⟩
    | some n =>
      obtain ⟨t1, r1, r2, r3, r4⟩ := h.rehash (hg _ _ hgr)
      obtain ⟨t', h1, h2, h3, _⟩ := r2.insertBegin (e := (hash key, key)) rfl (fun hm' => hm ((r4.map (·.2)).mem_iff.1 hm'))
      exact ⟨t', by simp only [r1, ok_bind]; exact h1, h2, by simpa using (h3.trans (r4.cons _)).map (·.2)⟩

end HashTable

variable {F : Type}

theorem insertAll_spec {α : Type} [DecidableEq α] {hash : α → Nat} {grow : Nat → Option Nat} (hg : ∀ m n, grow m = some n → 1 ≤ n) : ∀ (ks : List α) {t : HashTable α},
    HashTable.Inv hash t → ∃ t', t.insertAll hash grow ks = .ok t' ∧ HashTable.Inv hash t' ∧ ∀ k, k ∈ t'.nodes.map (·.2) ↔ k ∈ ks ∨ k ∈ t.nodes.map (·.2)
  | [], t, h => ⟨t, rfl, h, by simp⟩
  | k :: ks, t, h => by
    obtain ⟨t1, h1, h2, h3⟩ := h.insert hg k
    obtain ⟨t', r1, r2, r3⟩ := insertAll_spec hg ks h2
    refine ⟨t', by simp only [HashTable.insertAll, h1, ok_bind, r1], r2, fun x => ?_⟩
    rw [r3, h3.mem_iff]
    split
    · next hm =>
      simp only [List.mem_cons]
      constructor
      · rintro (h | h)
        · exact Or.inl (Or.inr h)
        · exact Or.inr h
      · rintro ((rfl | h) | h)
        · exact Or.inr hm
        · exact Or.inl h
        · exact Or.inr h
    · simp only [List.mem_cons]
      tauto

theorem expandKnownTable_eq {hash : IntSeq → Nat} {grow : Nat → Option Nat} (hg : ∀ m n, grow m = some n → 1 ≤ n) (O : FloatOps F) (s : StatDict F) :
    ∀ (l : List IntSeq) {t : HashTable IntSeq}, HashTable.Inv hash t → ∃ t', HashTable.Inv hash t' ∧ (∀ k, k ∈ t'.nodes.map (·.2) ↔ k ∈ l ∨ k ∈ t.nodes.map (·.2)) ∧
      StatDict.expandKnownTable hash grow O s l t = (StatDict.expandKnown O s l).map fun items => (items, t')
  | [], t, h => ⟨t, h, by simp, rfl⟩
  | w :: l, t, h => by
    obtain ⟨t1, h1, h2, h3⟩ := h.insert hg w
    obtain ⟨t', r1, r2, r3⟩ := expandKnownTable_eq hg O s l h2
    refine ⟨t', r1, fun x => ?_, ?_⟩
    · rw [r2, h3.mem_iff]
      split
      · next hm =>
        simp only [List.mem_cons]
        constructor
        · rintro (h | h)
          · exact Or.inl (Or.inr h)
          · exact Or.inr h
        · rintro ((rfl | h) | h)
          · exact Or.inr hm
          · exact Or.inl h
          · exact Or.inr h
      · simp only [List.mem_cons]
        tauto
    · simp only [StatDict.expandKnownTable, StatDict.expandKnown, h1, ok_bind, r3]
      cases s.dict.search w none with
      | error e => rfl
      | ok p =>
        obtain ⟨d, x⟩ := p
        simp only [ok_bind]
        split
        · cases StatDict.expandKnown O s l <;> rfl
        · rfl

theorem expandPairsTable_eq {hash : IntSeq → Nat} {grow : Nat → Option Nat} (hg : ∀ m n, grow m = some n → 1 ≤ n) (E : Env F) (s : StatDict F) (st en : List Int) (total : Int) :
    ∀ (l : PairMap) {t : HashTable IntSeq} {known : List IntSeq}, HashTable.Inv hash t → (∀ k, k ∈ t.nodes.map (·.2) ↔ k ∈ known) →
      StatDict.expandPairsTable hash grow E s st en total l t = StatDict.expandPairs E s st en total l known
  | [], _, _, _, _ => rfl
  | ((first, second), f) :: l, t, known, h, hk => by
    simp only [StatDict.expandPairsTable, StatDict.expandPairs]
    congr 1; funext e
    congr 1; funext b
    congr 1; funext score
    congr 1; funext text
    rw [h.find_key, ok_bind]
    by_cases hm : text ∈ known
    · have hm' := (hk text).2 hm
      simp only [hm', decide_true, if_true, List.contains_eq_mem, hm]
      exact expandPairsTable_eq hg E s st en total l h hk
    · have hm' : text ∉ t.nodes.map (·.2) := fun h' => hm ((hk text).1 h')
      obtain ⟨t1, h1, h2, h3⟩ := h.insert hg text
      rw [if_neg hm'] at h3
      simp only [hm', decide_false, Bool.false_eq_true, if_false, List.contains_eq_mem, hm, h1, ok_bind]
      rw [expandPairsTable_eq hg E s st en total l h2 (known := text :: known) fun k => by rw [h3.mem_iff, List.mem_cons, List.mem_cons, hk]]

theorem vectorHash_concat (w : IntSeq) (a : Int) :
    vectorHash (w ++ [a]) = vectorHash w ^^^ (((a % 2 ^ 64).toNat + 0x9e3779b9 + vectorHash w <<< 6 + vectorHash w >>> 2) % 2 ^ 64) := by
  simp [vectorHash]

end VGram
