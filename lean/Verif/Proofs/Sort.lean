import Verif.Model.Sort
import Verif.Spec.Sort
import Mathlib.Tactic

/-!
# Lemmas about `std::sort`
-/

namespace VGram.Intro

open VGram Spec

variable {α : Type} {lt : α → α → Bool} {S : α → Prop}

theorem rd_nat {l : List α} {i : Nat} {a : α} (h : l[i]? = some a) : rd l (i : Int) = .ok a := by
  show rd l (.ofNat i) = _
  simp [rd, h]

/-- Elements are exchanged between places from `f` to `e` only. -/
def Moved (f e : Nat) (l l' : List α) : Prop :=
  l'.Perm l ∧ (∀ k, k < f ∨ e ≤ k → l'[k]? = l[k]?) ∧ ∀ k, f ≤ k → k < e → ∃ k', f ≤ k' ∧ k' < e ∧ l'[k]? = l[k']?

theorem Moved.refl (f e : Nat) (l : List α) : Moved f e l l := ⟨.refl l, fun _ _ => rfl, fun k h1 h2 => ⟨k, h1, h2, rfl⟩⟩

theorem Moved.trans {f e : Nat} {l l' l'' : List α} (h : Moved f e l l') (h' : Moved f e l' l'') : Moved f e l l'' := by
  refine ⟨h'.1.trans h.1, fun k hk => (h'.2.1 k hk).trans (h.2.1 k hk), fun k h1 h2 => ?_⟩
  obtain ⟨k', a, b, c⟩ := h'.2.2 k h1 h2
  obtain ⟨k'', a', b', c'⟩ := h.2.2 k' a b
  exact ⟨k'', a', b', c.trans c'⟩

theorem Moved.mono {f e f' e' : Nat} {l l' : List α} (h : Moved f e l l') (hf : f' ≤ f) (he : e ≤ e') : Moved f' e' l l' := by
  refine ⟨h.1, fun k hk => h.2.1 k (by omega), fun k h1 h2 => ?_⟩
  by_cases hk : f ≤ k ∧ k < e
  · obtain ⟨k', a, b, c⟩ := h.2.2 k hk.1 hk.2
    exact ⟨k', by omega, by omega, c⟩
  · exact ⟨k, h1, h2, h.2.1 k (by omega)⟩

theorem Moved.length {f e : Nat} {l l' : List α} (h : Moved f e l l') : l'.length = l.length := h.1.length_eq

theorem Moved.all {f e : Nat} {l l' : List α} (h : Moved f e l l') (hs : ∀ a ∈ l, S a) : ∀ a ∈ l', S a := fun a ha => hs a (h.1.mem_iff.1 ha)

theorem swap_spec {l : List α} {i j : Nat} {a b : α} (hi : l[i]? = some a) (hj : l[j]? = some b) :
    ∃ l', swap l i j = .ok l' ∧ (∀ k, l'[k]? = if k = j then some a else if k = i then some b else l[k]?) ∧ l'.Perm l := by
  obtain ⟨h1, e1⟩ := List.getElem?_eq_some_iff.1 hi
  obtain ⟨h2, e2⟩ := List.getElem?_eq_some_iff.1 hj
  refine ⟨(l.set i b).set j a, ?_, fun k => ?_, ?_⟩
  · simp [swap, rd_nat hi, rd_nat hj, bind, Except.bind, pure, Except.pure]
  · rw [List.getElem?_set, List.getElem?_set]
    simp only [List.length_set]
    by_cases hk : k = j
    · subst hk
      simp [h2]
    · rw [if_neg (by omega), if_neg hk]
      by_cases hki : k = i
      · subst hki
        simp [h1]
      · rw [if_neg (by omega), if_neg hki]
  · have := List.set_set_perm (as := l) (i := i) (j := j) h1 h2
    rw [e1, e2] at this
    exact this

theorem swap_moved {l l' : List α} {i j f e : Nat} {a b : α} (hi : l[i]? = some a) (hj : l[j]? = some b)
    (h : ∀ k, l'[k]? = if k = j then some a else if k = i then some b else l[k]?) (hp : l'.Perm l) (h1 : f ≤ i) (h2 : i < e) (h3 : f ≤ j) (h4 : j < e) : Moved f e l l' := by
  refine ⟨hp, fun k hk => ?_, fun k k1 k2 => ?_⟩
  · rw [h k, if_neg (by omega), if_neg (by omega)]
  · rw [h k]
    split
    · exact ⟨i, h1, h2, hi.symm⟩
    · split
      · exact ⟨j, h3, h4, hj.symm⟩
      · exact ⟨k, k1, k2, rfl⟩

theorem up_spec {p : α} : ∀ (l : List α) (f k : Nat) (x : α), l[k]? = some x → lt x p = false →
    ∃ i y, up lt p l f = .ok (f + i) ∧ i ≤ k ∧ l[i]? = some y ∧ lt y p = false ∧ ∀ m < i, ∃ z, l[m]? = some z ∧ lt z p = true
  | [], _, k, x, h, _ => by simp at h
  | a :: l, f, k, x, h, hx => by
    rw [up]
    by_cases ha : lt a p = true
    · rw [if_pos ha]
      cases k with
      | zero =>
        simp at h
        subst h
        rw [ha] at hx
        cases hx
      | succ k =>
        obtain ⟨i, y, e, h1, h2, h3, h4⟩ := up_spec l (f + 1) k x (by simpa using h) hx
        refine ⟨i + 1, y, by rw [e]; congr 1; omega, by omega, by simpa using h2, h3, fun m hm => ?_⟩
        cases m with
        | zero => exact ⟨a, by simp, ha⟩
        | succ m => simpa using h4 m (by omega)
    · rw [if_neg ha]
      exact ⟨0, a, rfl, by omega, by simp, by simpa using ha, fun m hm => by omega⟩

theorem down_spec {p : α} : ∀ (l : List α) (e k : Nat) (x : α), l.length = e → l[k]? = some x → lt p x = false →
    ∃ i y, down lt p l e = .ok (e - 1 - i) ∧ i ≤ k ∧ l[i]? = some y ∧ lt p y = false ∧ ∀ m < i, ∃ z, l[m]? = some z ∧ lt p z = true
  | [], _, k, x, _, h, _ => by simp at h
  | a :: l, f, k, x, hl, h, hx => by
    rw [down]
    by_cases ha : lt p a = true
    · rw [if_pos ha]
      cases k with
      | zero =>
        simp at h
        subst h
        rw [ha] at hx
        cases hx
      | succ k =>
        obtain ⟨i, y, e, h1, h2, h3, h4⟩ := down_spec l (f - 1) k x (by simp at hl; omega) (by simpa using h) hx
        refine ⟨i + 1, y, by rw [e]; congr 1; omega, by omega, by simpa using h2, h3, fun m hm => ?_⟩
        cases m with
        | zero => exact ⟨a, by simp, ha⟩
        | succ m => simpa using h4 m (by omega)
    · rw [if_neg ha]
      exact ⟨0, a, by simp, by omega, by simp, by simpa using ha, fun m hm => by omega⟩

/-- The partition: everything before the cut is not above the pivot, everything after it not below. -/
theorem partition_spec (W : Weak lt S) {p : α} (hp : S p) {A B : Nat} : ∀ (fuel : Nat) (l : List α) (f e : Nat), (∀ a ∈ l, S a) → e < fuel → A ≤ f → f ≤ e → e ≤ B → B ≤ l.length →
    (∀ k, A ≤ k → k < f → ∃ x, l[k]? = some x ∧ lt p x = false) → (∀ k, e ≤ k → k < B → ∃ x, l[k]? = some x ∧ lt x p = false) →
    (∃ k x, f ≤ k ∧ k < B ∧ l[k]? = some x ∧ lt x p = false) → (∃ k x, A ≤ k ∧ k < e ∧ l[k]? = some x ∧ lt p x = false) →
    ∃ l' cut, partition lt p fuel l f e = .ok (l', cut) ∧ Moved A B l l' ∧ A ≤ cut ∧ cut < B ∧
      (∀ k, A ≤ k → k < cut → ∃ x, l'[k]? = some x ∧ lt p x = false) ∧ (∀ k, cut ≤ k → k < B → ∃ x, l'[k]? = some x ∧ lt x p = false)
  | 0, _, _, _, _, h, _, _, _, _, _, _, _, _ => by omega
  | fuel + 1, l, f, e, hS, hfuel, hA, hfe, hB, hlen, h1, h2, ⟨k1, x1, a1, a2, a3, a4⟩, ⟨k2, x2, b1, b2, b3, b4⟩ => by
    have hmem : ∀ {k : Nat} {x : α}, l[k]? = some x → S x := fun h => hS _ (List.mem_of_getElem? h)
    obtain ⟨i, y, eu, u1, u2, u3, u4⟩ := up_spec (lt := lt) (p := p) (l.drop f) f (k1 - f) x1 (by rw [List.getElem?_drop]; rwa [Nat.add_sub_cancel' a1]) a4
    have hrev : ∀ m, m < e → (l.take e).reverse[m]? = l[e - 1 - m]? := by
      intro m hm
      rw [List.getElem?_reverse (by simp; omega)]
      rw [List.getElem?_take]
      simp only [List.length_take, Nat.min_eq_left (hB.trans hlen)]
      rw [if_pos (by omega)]
    obtain ⟨j, z, ed, d1, d2, d3, d4⟩ := down_spec (lt := lt) (p := p) (l.take e).reverse e (e - 1 - k2) x2 (by simp; omega)
      (by rw [hrev _ (by omega)]; rwa [show e - 1 - (e - 1 - k2) = k2 by omega]) b4
    rw [List.getElem?_drop] at u2
    rw [hrev _ (by omega)] at d2
    have below : ∀ k, f ≤ k → k < f + i → ∃ x, l[k]? = some x ∧ lt x p = true := by
      intro k k1 k2
      obtain ⟨z, hz, hz'⟩ := u4 (k - f) (by omega)
      rw [List.getElem?_drop, Nat.add_sub_cancel' k1] at hz
      exact ⟨z, hz, hz'⟩
    have above : ∀ k, e - 1 - j < k → k < e → ∃ x, l[k]? = some x ∧ lt p x = true := by
      intro k k1 k2
      obtain ⟨z, hz, hz'⟩ := d4 (e - 1 - k) (by omega)
      rw [hrev _ (by omega), show e - 1 - (e - 1 - k) = k by omega] at hz
      exact ⟨z, hz, hz'⟩
    rw [partition]
    simp only [eu, ed, bind, Except.bind]
    by_cases hij : f + i < e - 1 - j
    · rw [if_neg (by omega)]
      obtain ⟨l', es, hl', hperm⟩ := swap_spec u2 d2
      simp only [es]
      have hm : Moved A B l l' := swap_moved u2 d2 hl' hperm (by omega) (by omega) (by omega) (by omega)
      obtain ⟨l'', cut, e1, e2, e3⟩ := partition_spec W hp (A := A) (B := B) fuel l' (f + i + 1) (e - 1 - j) (hm.all hS) (by omega) (by omega) (by omega) (by omega)
        (by rw [hm.length]; exact hlen)
        (fun k k1 k2 => by
          rw [hl' k, if_neg (by omega)]
          by_cases hk : k = f + i
          · exact ⟨z, by rw [if_pos hk], d3⟩
          · rw [if_neg hk]
            by_cases hkf : k < f
            · exact h1 k k1 hkf
            · obtain ⟨x, hx, hx'⟩ := below k (by omega) (by omega)
              exact ⟨x, hx, W.asymm _ _ (hmem hx) hp hx'⟩)
        (fun k k1 k2 => by
          rw [hl' k]
          by_cases hk : k = e - 1 - j
          · exact ⟨y, by rw [if_pos hk], u3⟩
          · rw [if_neg hk, if_neg (by omega)]
            by_cases hke : e ≤ k
            · exact h2 k hke k2
            · obtain ⟨x, hx, hx'⟩ := above k (by omega) (by omega)
              exact ⟨x, hx, W.asymm _ _ hp (hmem hx) hx'⟩)
        ⟨e - 1 - j, y, by omega, by omega, by rw [hl', if_pos rfl], u3⟩
        ⟨f + i, z, by omega, by omega, by rw [hl', if_neg (by omega), if_pos rfl], d3⟩
      exact ⟨l'', cut, e1, hm.trans e2, e3⟩
    · rw [if_pos (by omega)]
      refine ⟨l, f + i, rfl, Moved.refl _ _ _, by omega, by omega, fun k k1 k2 => ?_, fun k k1 k2 => ?_⟩
      · by_cases hkf : k < f
        · exact h1 k k1 hkf
        · obtain ⟨x, hx, hx'⟩ := below k (by omega) (by omega)
          exact ⟨x, hx, W.asymm _ _ (hmem hx) hp hx'⟩
      · by_cases hk : k = f + i
        · exact ⟨y, by rw [hk]; exact u2, u3⟩
        · by_cases hke : e ≤ k
          · exact h2 k hke k2
          · obtain ⟨x, hx, hx'⟩ := above k (by omega) (by omega)
            exact ⟨x, hx, W.asymm _ _ hp (hmem hx) hx'⟩

/-- One of three elements is exchanged with the one at `f`; the two others stay. -/
theorem chosen {l : List α} {f e s u v : Nat} {p q r t : α} (hf : l[f]? = some t) (hs : l[s]? = some p) (hu : l[u]? = some q) (hv : l[v]? = some r)
    (h : f < s ∧ f < u ∧ f < v ∧ s < e ∧ u < e ∧ v < e) (hne : u ≠ s ∧ v ≠ s) (h1 : lt q p = false) (h2 : lt p r = false) :
    ∃ l', swap l f s = .ok l' ∧ Moved f e l l' ∧ ∃ p, l'[f]? = some p ∧ (∃ k x, f + 1 ≤ k ∧ k < e ∧ l'[k]? = some x ∧ lt x p = false) ∧
      ∃ k x, f + 1 ≤ k ∧ k < e ∧ l'[k]? = some x ∧ lt p x = false := by
  obtain ⟨l', es, hl', hperm⟩ := swap_spec hf hs
  refine ⟨l', es, swap_moved hf hs hl' hperm le_rfl (by omega) (by omega) (by omega), p, by rw [hl', if_neg (by omega), if_pos rfl],
    ⟨u, q, by omega, by omega, by rw [hl', if_neg hne.1, if_neg (by omega), hu], h1⟩, ⟨v, r, by omega, by omega, by rw [hl', if_neg hne.2, if_neg (by omega), hv], h2⟩⟩

theorem median_spec (W : Weak lt S) {l : List α} (hS : ∀ a ∈ l, S a) {f a b c e : Nat} (h1 : f < a) (h2 : a < b) (h3 : b < c) (h4 : c < e) (h5 : e ≤ l.length) :
    ∃ l', median lt l f a b c = .ok l' ∧ Moved f e l l' ∧ ∃ p, l'[f]? = some p ∧ (∃ k x, f + 1 ≤ k ∧ k < e ∧ l'[k]? = some x ∧ lt x p = false) ∧
      ∃ k x, f + 1 ≤ k ∧ k < e ∧ l'[k]? = some x ∧ lt p x = false := by
  have hmem : ∀ {k : Nat} {x : α}, l[k]? = some x → S x := fun h => hS _ (List.mem_of_getElem? h)
  obtain ⟨t, et⟩ : ∃ t, l[f]? = some t := ⟨l[f], List.getElem?_eq_getElem (by omega)⟩
  obtain ⟨x, ex⟩ : ∃ t, l[a]? = some t := ⟨l[a], List.getElem?_eq_getElem (by omega)⟩
  obtain ⟨y, ey⟩ : ∃ t, l[b]? = some t := ⟨l[b], List.getElem?_eq_getElem (by omega)⟩
  obtain ⟨z, ez⟩ : ∃ t, l[c]? = some t := ⟨l[c], List.getElem?_eq_getElem (by omega)⟩
  simp only [median, rd_nat ex, rd_nat ey, rd_nat ez, bind, Except.bind]
  by_cases hxy : lt x y = true
  · rw [if_pos hxy]
    by_cases hyz : lt y z = true
    · rw [if_pos hyz]
      exact chosen et ey ez ex (by omega) (by omega) (W.asymm _ _ (hmem ey) (hmem ez) hyz) (W.asymm _ _ (hmem ex) (hmem ey) hxy)
    · rw [if_neg hyz]
      by_cases hxz : lt x z = true
      · rw [if_pos hxz]
        exact chosen et ez ey ex (by omega) (by omega) (by simpa using hyz) (W.asymm _ _ (hmem ex) (hmem ez) hxz)
      · rw [if_neg hxz]
        exact chosen et ex ey ez (by omega) (by omega) (W.asymm _ _ (hmem ex) (hmem ey) hxy) (by simpa using hxz)
  · rw [if_neg hxy]
    by_cases hxz : lt x z = true
    · rw [if_pos hxz]
      exact chosen et ex ez ey (by omega) (by omega) (W.asymm _ _ (hmem ex) (hmem ez) hxz) (by simpa using hxy)
    · rw [if_neg hxz]
      by_cases hyz : lt y z = true
      · rw [if_pos hyz]
        exact chosen et ez ex ey (by omega) (by omega) (by simpa using hxz) (W.asymm _ _ (hmem ey) (hmem ez) hyz)
      · rw [if_neg hyz]
        exact chosen et ey ex ez (by omega) (by omega) (by simpa using hxy) (by simpa using hyz)

/-- The range is cut in two, nothing in the second part is below anything in the first. -/
theorem pivot_spec (W : Weak lt S) {l : List α} (hS : ∀ a ∈ l, S a) {f e : Nat} (h : 16 < e - f) (he : e ≤ l.length) :
    ∃ l' cut, pivot lt l f e = .ok (l', cut) ∧ Moved f e l l' ∧ f < cut ∧ cut < e ∧
      ∀ i j x y, f ≤ i → i < cut → cut ≤ j → j < e → l'[i]? = some x → l'[j]? = some y → lt y x = false := by
  obtain ⟨l', em, hm, p, ep, hup, hdown⟩ := median_spec W hS (f := f) (a := f + 1) (b := f + (e - f) / 2) (c := e - 1) (e := e) (by omega) (by omega) (by omega) (by omega) he
  have hS' := hm.all hS
  have hp : S p := hS' _ (List.mem_of_getElem? ep)
  obtain ⟨l'', cut, e1, e2, e3, e4, e5, e6⟩ := partition_spec W hp (A := f + 1) (B := e) (e + 1) l' (f + 1) e hS' (by omega) le_rfl (by omega) le_rfl (by rw [hm.length]; exact he)
    (fun k k1 k2 => by omega) (fun k k1 k2 => by omega) hup hdown
  refine ⟨l'', cut, ?_, hm.trans (e2.mono (by omega) le_rfl), by omega, e4, fun i j x y i1 i2 j1 j2 hx hy => ?_⟩
  · simp [pivot, em, rd_nat ep, e1, bind, Except.bind]
  · have hS'' := e2.all hS'
    have sx := hS'' _ (List.mem_of_getElem? hx)
    have sy := hS'' _ (List.mem_of_getElem? hy)
    obtain ⟨y', hy', hyp⟩ := e6 j j1 j2
    rw [hy] at hy'
    cases hy'
    by_cases hi : i = f
    · have := e2.2.1 f (Or.inl (by omega))
      rw [hi, this, ep] at hx
      cases hx
      exact hyp
    · obtain ⟨x', hx', hpx⟩ := e5 i (by omega) i2
      rw [hx] at hx'
      cases hx'
      exact W.trans _ _ _ sy hp sx hyp hpx

/-! ## The heap -/

theorem wr_nat {l : List α} {i : Nat} (v : α) (h : i < l.length) : wr l (i : Int) v = .ok (l.set i v) := by
  show wr l (.ofNat i) v = _
  simp [wr, h]

/-- `i` is below `top` in the tree. -/
inductive Under (top : Nat) : Nat → Prop
  | refl : Under top top
  | left {i : Nat} : Under top i → Under top (2 * (i + 1) - 1)
  | right {i : Nat} : Under top i → Under top (2 * (i + 1))

theorem Under.le {top i : Nat} (h : Under top i) : top ≤ i := by
  induction h with
  | refl => exact le_rfl
  | left _ ih => omega
  | right _ ih => omega

theorem Under.parent {top i : Nat} (h : Under top i) (hi : top < i) : Under top ((i - 1) / 2) := by
  cases h with
  | refl => omega
  | @left j h =>
    rw [show (2 * (j + 1) - 1 - 1) / 2 = j by omega]
    exact h
  | @right j h =>
    rw [show (2 * (j + 1) - 1) / 2 = j by omega]
    exact h

/-- The order of the heap, except at the hole. -/
def Edges (lt : α → α → Bool) (top len : Nat) (l : List α) (i : Nat) : Prop :=
  ∀ k x y, 0 < k → k < len → top ≤ (k - 1) / 2 → k ≠ i → (k - 1) / 2 ≠ i → l[(k - 1) / 2]? = some x → l[k]? = some y → lt x y = false

/-- The order of the parent of the hole and its children. -/
def Bridge (lt : α → α → Bool) (top len : Nat) (l : List α) (i : Nat) : Prop :=
  ∀ k x y, 0 < k → k < len → (k - 1) / 2 = i → top < i → l[(i - 1) / 2]? = some x → l[k]? = some y → lt x y = false

/-- The order of the heap. -/
def HeapAt (lt : α → α → Bool) (top len : Nat) (l : List α) : Prop :=
  ∀ k x y, 0 < k → k < len → top ≤ (k - 1) / 2 → l[(k - 1) / 2]? = some x → l[k]? = some y → lt x y = false

theorem get_set {l : List α} {i : Nat} (v : α) (h : i < l.length) (k : Nat) : (l.set i v)[k]? = if k = i then some v else l[k]? := by
  rw [List.getElem?_set]
  by_cases hk : k = i
  · subst hk
    simp [h]
  · rw [if_neg (by omega), if_neg hk]

/-- The hole moves from `i` to `c`. -/
theorem hole_moved {l : List α} {i c len : Nat} {v z : α} (hi : i < len) (hc : c < len) (hl : len ≤ l.length) (hne : i ≠ c) (hz : l[c]? = some z) :
    Moved 0 len (l.set i v) ((l.set i z).set c v) := by
  have g := get_set (l := l) (i := i) v (by omega)
  have e1 : (l.set i v)[i]? = some v := by rw [g, if_pos rfl]
  have e2 : (l.set i v)[c]? = some z := by rw [g, if_neg (by omega), hz]
  refine swap_moved e1 e2 (fun k => ?_) ?_ (by omega) hi (by omega) hc
  · rw [get_set _ (by simp; omega), get_set _ (by omega), g]
    by_cases hk : k = i
    · simp [hk]
    · simp [hk]
  · obtain ⟨h1, f1⟩ := List.getElem?_eq_some_iff.1 e1
    obtain ⟨h2, f2⟩ := List.getElem?_eq_some_iff.1 e2
    have := List.set_set_perm (as := l.set i v) (i := i) (j := c) h1 h2
    rw [f1, f2, List.set_set] at this
    exact this

theorem set_all {l : List α} {i : Nat} {v : α} (hS : ∀ a ∈ l, S a) (hv : S v) : ∀ a ∈ l.set i v, S a := by
  intro a ha
  rcases List.mem_or_eq_of_mem_set ha with h | rfl
  · exact hS a h
  · exact hv

/-- The greater child `c` moves into the hole. -/
theorem move_up {top len : Nat} {l : List α} {i c : Nat} {z : α} (hu : Under top i) (hc : c = 2 * (i + 1) ∨ c = 2 * (i + 1) - 1) (hcl : c < len) (hl : len ≤ l.length)
    (hz : l[c]? = some z) (hsib : ∀ k y, 0 < k → k < len → (k - 1) / 2 = i → k ≠ c → l[k]? = some y → lt z y = false)
    (h1 : Edges lt top len l i) (h2 : Bridge lt top len l i) : Edges lt top len (l.set i z) c ∧ Bridge lt top len (l.set i z) c := by
  have g := get_set (l := l) (i := i) z (by omega)
  have hle := hu.le
  constructor
  · intro k x y k0 k1 k2 k3 k4 hx hy
    rw [g] at hx hy
    by_cases hk : k = i
    · rw [if_pos hk] at hy
      rw [if_neg (by omega)] at hx
      cases hy
      subst hk
      exact h2 c x z (by omega) hcl (by omega) (by omega) hx hz
    · rw [if_neg hk] at hy
      by_cases hp : (k - 1) / 2 = i
      · rw [if_pos hp] at hx
        cases hx
        exact hsib k y k0 k1 hp k3 hy
      · rw [if_neg hp] at hx
        exact h1 k x y k0 k1 k2 hk hp hx hy
  · intro k x y k0 k1 k2 k3 hx hy
    rw [g, if_pos (by omega)] at hx
    rw [g, if_neg (by omega)] at hy
    cases hx
    exact h1 k z y k0 k1 (by omega) (by omega) (by omega) (by rw [k2]; exact hz) hy

theorem sift_spec (W : Weak lt S) {top len : Nat} {v : α} : ∀ (fuel : Nat) (l : List α) (i : Nat), (∀ a ∈ l, S a) → Under top i → i < len → len ≤ l.length → len - i < fuel →
    Edges lt top len l i → Bridge lt top len l i →
    ∃ l' i', sift lt len fuel l i = .ok (l', i') ∧ (∀ a ∈ l', S a) ∧ Under top i' ∧ i' < len ∧ Moved 0 len (l.set i v) (l'.set i' v) ∧ l'.length = l.length ∧
      (len - 1) / 2 ≤ i' ∧ Edges lt top len l' i' ∧ Bridge lt top len l' i'
  | 0, _, _, _, _, _, _, h, _, _ => by omega
  | fuel + 1, l, i, hS, hu, hi, hl, hf, h1, h2 => by
    rw [sift]
    by_cases hlt : i < (len - 1) / 2
    · rw [if_pos hlt]
      have hmem : ∀ {k : Nat} {x : α}, l[k]? = some x → S x := fun h => hS _ (List.mem_of_getElem? h)
      obtain ⟨x, ex⟩ : ∃ t, l[2 * (i + 1)]? = some t := ⟨l[2 * (i + 1)], List.getElem?_eq_getElem (by omega)⟩
      obtain ⟨y, ey⟩ : ∃ t, l[2 * (i + 1) - 1]? = some t := ⟨l[2 * (i + 1) - 1], List.getElem?_eq_getElem (by omega)⟩
      simp only [rd_nat ex, rd_nat ey, bind, Except.bind]
      by_cases hxy : lt x y = true
      · rw [if_pos hxy]
        obtain ⟨b1, b2⟩ := move_up hu (Or.inr rfl) (by omega) hl ey (fun k w k0 k1 k2 k3 hw => by
          have : k = 2 * (i + 1) := by omega
          rw [this, ex] at hw
          cases hw
          exact W.asymm _ _ (hmem ex) (hmem ey) hxy) h1 h2
        obtain ⟨l', i', e, c1, c2, c3, c4, c5, c6⟩ := sift_spec W (v := v) fuel (l.set i y) (2 * (i + 1) - 1) (set_all hS (hmem ey)) hu.left (by omega) (by simpa using hl)
          (by omega) b1 b2
        exact ⟨l', i', e, c1, c2, c3, (hole_moved hi (by omega) hl (by omega) ey).trans c4, by simpa using c5, c6⟩
      · rw [if_neg hxy]
        obtain ⟨b1, b2⟩ := move_up hu (Or.inl rfl) (by omega) hl ex (fun k w k0 k1 k2 k3 hw => by
          have : k = 2 * (i + 1) - 1 := by omega
          rw [this, ey] at hw
          cases hw
          simpa using hxy) h1 h2
        obtain ⟨l', i', e, c1, c2, c3, c4, c5, c6⟩ := sift_spec W (v := v) fuel (l.set i x) (2 * (i + 1)) (set_all hS (hmem ex)) hu.right (by omega) (by simpa using hl)
          (by omega) b1 b2
        exact ⟨l', i', e, c1, c2, c3, (hole_moved hi (by omega) hl (by omega) ex).trans c4, by simpa using c5, c6⟩
    · rw [if_neg hlt]
      exact ⟨l, i, rfl, hS, hu, hi, Moved.refl _ _ _, rfl, by omega, h1, h2⟩

theorem single_spec {top len : Nat} {v : α} {l : List α} {i : Nat} (hS : ∀ a ∈ l, S a) (hu : Under top i) (hi : i < len) (hl : len ≤ l.length) (hlow : (len - 1) / 2 ≤ i)
    (h1 : Edges lt top len l i) (h2 : Bridge lt top len l i) :
    ∃ l' i', single len l i = .ok (l', i') ∧ (∀ a ∈ l', S a) ∧ Under top i' ∧ i' < len ∧ Moved 0 len (l.set i v) (l'.set i' v) ∧ l'.length = l.length ∧
      len ≤ 2 * i' + 1 ∧ Edges lt top len l' i' ∧ Bridge lt top len l' i' := by
  unfold single
  by_cases hc : len % 2 = 0 ∧ i = (len - 2) / 2
  · rw [if_pos hc]
    obtain ⟨y, ey⟩ : ∃ t, l[2 * (i + 1) - 1]? = some t := ⟨l[2 * (i + 1) - 1], List.getElem?_eq_getElem (by omega)⟩
    simp only [rd_nat ey, bind, Except.bind, pure, Except.pure]
    obtain ⟨b1, b2⟩ := move_up hu (Or.inr rfl) (by omega) hl ey (fun k w k0 k1 k2 k3 hw => by omega) h1 h2
    exact ⟨_, _, rfl, set_all hS (hS _ (List.mem_of_getElem? ey)), hu.left, by omega, hole_moved hi (by omega) hl (by omega) ey, by simp, by omega, b1, b2⟩
  · rw [if_neg hc]
    exact ⟨l, i, rfl, hS, hu, hi, Moved.refl _ _ _, rfl, by omega, h1, h2⟩

theorem push_spec (W : Weak lt S) {top len : Nat} {v : α} (hv : S v) : ∀ (fuel : Nat) (l : List α) (i : Nat), (∀ a ∈ l, S a) → Under top i → i < len → len ≤ l.length → i < fuel →
    Edges lt top len l i → Bridge lt top len l i → (∀ k y, 0 < k → k < len → (k - 1) / 2 = i → l[k]? = some y → lt v y = false) →
    ∃ l', push lt top v fuel l i = .ok l' ∧ Moved 0 len (l.set i v) l' ∧ HeapAt lt top len l'
  | 0, _, _, _, _, _, _, h, _, _, _ => by omega
  | fuel + 1, l, i, hS, hu, hi, hl, hf, h1, h2, h3 => by
    have hmem : ∀ {k : Nat} {x : α}, l[k]? = some x → S x := fun h => hS _ (List.mem_of_getElem? h)
    have gv := get_set (l := l) (i := i) v (by omega)
    have done : (∀ x, top < i → l[(i - 1) / 2]? = some x → lt x v = false) → HeapAt lt top len (l.set i v) := by
      intro hp k x y k0 k1 k2 hx hy
      rw [gv] at hx hy
      have hle := hu.le
      by_cases hk : k = i
      · rw [if_pos hk] at hy
        rw [if_neg (by omega)] at hx
        cases hy
        rw [hk] at hx
        exact hp x (by omega) hx
      · rw [if_neg hk] at hy
        by_cases hpk : (k - 1) / 2 = i
        · rw [if_pos hpk] at hx
          cases hx
          exact h3 k y k0 k1 hpk hy
        · rw [if_neg hpk] at hx
          exact h1 k x y k0 k1 k2 hk hpk hx hy
    rw [push]
    by_cases htop : top < i
    · rw [if_pos htop]
      have hup := hu.parent htop
      have hle := hup.le
      obtain ⟨x, ex⟩ : ∃ t, l[(i - 1) / 2]? = some t := ⟨l[(i - 1) / 2], List.getElem?_eq_getElem (by omega)⟩
      simp only [rd_nat ex, bind, Except.bind]
      by_cases hx : lt x v = true
      · rw [if_pos hx]
        have hvx : lt v x = false := W.asymm _ _ (hmem ex) hv hx
        have g := get_set (l := l) (i := i) x (by omega)
        obtain ⟨l', e, c1, c2⟩ := push_spec W (len := len) hv fuel (l.set i x) ((i - 1) / 2) (set_all hS (hmem ex)) hup (by omega) (by simpa using hl) (by omega)
          (fun k a b k0 k1 k2 k3 k4 ha hb => by
            rw [g] at ha hb
            have hk : k ≠ i := by
              rintro rfl
              exact k4 rfl
            rw [if_neg hk] at hb
            by_cases hpk : (k - 1) / 2 = i
            · rw [if_pos hpk] at ha
              cases ha
              exact h2 k x b k0 k1 hpk htop ex hb
            · rw [if_neg hpk] at ha
              exact h1 k a b k0 k1 k2 hk hpk ha hb)
          (fun k a b k0 k1 k2 k3 ha hb => by
            rw [g, if_neg (by omega)] at ha
            rw [g] at hb
            have hq := (hup.parent k3).le
            have hax : lt a x = false := h1 ((i - 1) / 2) a x (by omega) (by omega) hq (by omega) (by omega) ha ex
            by_cases hk : k = i
            · rw [if_pos hk] at hb
              cases hb
              exact hax
            · rw [if_neg hk] at hb
              exact W.trans _ _ _ (hmem ha) (hmem ex) (hmem hb) hax (h1 k x b k0 k1 (by omega) hk (by omega) (by rw [k2]; exact ex) hb))
          (fun k b k0 k1 k2 hb => by
            rw [g] at hb
            by_cases hk : k = i
            · rw [if_pos hk] at hb
              cases hb
              exact hvx
            · rw [if_neg hk] at hb
              exact W.trans _ _ _ hv (hmem ex) (hmem hb) hvx (h1 k x b k0 k1 (by omega) hk (by omega) (by rw [k2]; exact ex) hb))
        exact ⟨l', e, (hole_moved hi (by omega) hl (by omega) ex).trans c1, c2⟩
      · rw [if_neg hx]
        refine ⟨_, wr_nat v (by omega), Moved.refl _ _ _, done fun x' _ hx' => ?_⟩
        rw [ex] at hx'
        cases hx'
        simpa using hx
    · rw [if_neg htop]
      exact ⟨_, wr_nat v (by omega), Moved.refl _ _ _, done fun x' h' _ => absurd h' htop⟩

theorem adjust_spec (W : Weak lt S) {top len : Nat} {v : α} (hv : S v) {l : List α} (hS : ∀ a ∈ l, S a) (ht : top < len) (hl : len ≤ l.length)
    (h : HeapAt lt (top + 1) len l) : ∃ l', adjust lt len l top v = .ok l' ∧ Moved 0 len (l.set top v) l' ∧ HeapAt lt top len l' := by
  obtain ⟨l1, i1, e1, s1, u1, b1, m1, n1, w1, g1, k1⟩ := sift_spec W (v := v) (len + 1) l top hS .refl ht hl (by omega)
    (fun k x y k0 k1 k2 k3 k4 hx hy => h k x y k0 k1 (by omega) hx hy) (fun k x y k0 k1 k2 k3 => by omega)
  obtain ⟨l2, i2, e2, s2, u2, b2, m2, n2, w2, g2, k2⟩ := single_spec (v := v) s1 u1 b1 (by omega) w1 g1 k1
  obtain ⟨l3, e3, m3, g3⟩ := push_spec W hv (len + 1) l2 i2 s2 u2 b2 (by omega) (by omega) g2 k2 (fun k y k0 k1 k2 => by omega)
  exact ⟨l3, by simp [adjust, e1, e2, e3, bind, Except.bind], (m1.trans m2).trans m3, g3⟩

theorem make_spec (W : Weak lt S) {len : Nat} : ∀ (n : Nat) (l : List α), (∀ a ∈ l, S a) → n ≤ len → len ≤ l.length → HeapAt lt n len l →
    ∃ l', make lt len n l = .ok l' ∧ Moved 0 len l l' ∧ HeapAt lt 0 len l'
  | 0, l, _, _, _, h => ⟨l, rfl, Moved.refl _ _ _, h⟩
  | n + 1, l, hS, hn, hl, h => by
    obtain ⟨v, ev⟩ : ∃ t, l[n]? = some t := ⟨l[n], List.getElem?_eq_getElem (by omega)⟩
    obtain ⟨l1, e1, m1, h1⟩ := adjust_spec W (hS _ (List.mem_of_getElem? ev)) hS (top := n) (len := len) (by omega) hl h
    have hset : l.set n v = l := by
      refine List.ext_getElem? fun k => ?_
      rw [get_set _ (by omega)]
      split
      · next hk => rw [hk, ev]
      · rfl
    rw [hset] at m1
    obtain ⟨l2, e2, m2, h2⟩ := make_spec W n l1 (m1.all hS) (by omega) (by rw [m1.length]; exact hl) h1
    exact ⟨l2, by simp [make, rd_nat ev, e1, e2, bind, Except.bind], m1.trans m2, h2⟩

theorem heap_top (W : Weak lt S) {len : Nat} {l : List α} (hS : ∀ a ∈ l, S a) (h : HeapAt lt 0 len l) {x : α} (hx : l[0]? = some x) :
    ∀ (k : Nat) (y : α), k < len → len ≤ l.length → l[k]? = some y → lt x y = false := by
  have hmem : ∀ {k : Nat} {x : α}, l[k]? = some x → S x := fun h => hS _ (List.mem_of_getElem? h)
  intro k
  induction k using Nat.strong_induction_on with
  | _ k ih =>
    intro y hk hl hy
    by_cases h0 : k = 0
    · rw [h0, hx] at hy
      cases hy
      by_contra hc
      have := W.asymm _ _ (hmem hx) (hmem hx) (by simpa using hc)
      simp [this] at hc
    · obtain ⟨z, ez⟩ : ∃ t, l[(k - 1) / 2]? = some t := ⟨l[(k - 1) / 2], List.getElem?_eq_getElem (by omega)⟩
      exact W.trans _ _ _ (hmem hx) (hmem ez) (hmem hy) (ih _ (by omega) z (by omega) hl ez) (h k z y (by omega) hk (by omega) ez hy)

theorem unheap_spec (W : Weak lt S) : ∀ (n : Nat) (l : List α), (∀ a ∈ l, S a) → n < l.length → HeapAt lt 0 (n + 1) l →
    (∀ i j x y, i < j → n < j → l[i]? = some x → l[j]? = some y → lt y x = false) →
    ∃ l', unheap lt n l = .ok l' ∧ l'.Perm l ∧ ∀ (i j : Nat) (x y : α), i < j → l'[i]? = some x → l'[j]? = some y → lt y x = false
  | 0, l, _, _, _, h => ⟨l, rfl, .refl _, fun i j x y hij hx hy => h i j x y hij (by omega) hx hy⟩
  | n + 1, l, hS, hn, hh, h => by
    have hmem : ∀ {k : Nat} {x : α}, l[k]? = some x → S x := fun h => hS _ (List.mem_of_getElem? h)
    obtain ⟨v, ev⟩ : ∃ t, l[n + 1]? = some t := ⟨l[n + 1], List.getElem?_eq_getElem (by omega)⟩
    obtain ⟨x, ex⟩ : ∃ t, l[0]? = some t := ⟨l[0], List.getElem?_eq_getElem (by omega)⟩
    have hmax := heap_top W hS hh ex
    have g := get_set (l := l) (i := n + 1) x hn
    obtain ⟨l1, e1, m1, h1⟩ := adjust_spec W (hmem ev) (l := l.set (n + 1) x) (set_all hS (hmem ex)) (top := 0) (len := n + 1) (by omega) (by simp; omega)
      (fun k a b k0 k1 k2 ha hb => by
        rw [g, if_neg (by omega)] at ha hb
        exact hh k a b k0 (by omega) (by omega) ha hb)
    have gl : ∀ k, ((l.set (n + 1) x).set 0 v)[k]? = if k = 0 then some v else if k = n + 1 then some x else l[k]? := by
      intro k
      rw [get_set _ (by simp; omega), g]
    have hswap : ((l.set (n + 1) x).set 0 v).Perm l := by
      obtain ⟨f1, f2⟩ := List.getElem?_eq_some_iff.1 ev
      obtain ⟨f3, f4⟩ := List.getElem?_eq_some_iff.1 ex
      have := List.set_set_perm (as := l) (i := n + 1) (j := 0) f1 f3
      rw [f2, f4] at this
      exact this
    have hS1 : ∀ a ∈ l1, S a := m1.all (set_all (set_all hS (hmem ex)) (hmem ev))
    have origin : ∀ i a, i ≤ n → l1[i]? = some a → ∃ i', i' ≤ n + 1 ∧ l[i']? = some a := by
      intro i a hi ha
      obtain ⟨i', _, i2, e⟩ := m1.2.2 i (by omega) (by omega)
      rw [e, gl] at ha
      by_cases hz : i' = 0
      · rw [if_pos hz] at ha
        exact ⟨n + 1, le_rfl, by rw [ev, ha]⟩
      · rw [if_neg hz, if_neg (by omega)] at ha
        exact ⟨i', by omega, ha⟩
    have rest : ∀ j, n + 1 ≤ j → l1[j]? = if j = n + 1 then some x else l[j]? := by
      intro j hj
      rw [m1.2.1 j (Or.inr hj), gl, if_neg (by omega)]
    obtain ⟨l2, e2, p2, h2⟩ := unheap_spec W n l1 hS1 (by rw [m1.length]; simp; omega) h1 (fun i j a b hij hj ha hb => by
      rw [rest j (by omega)] at hb
      by_cases hjn : j = n + 1
      · rw [if_pos hjn] at hb
        cases hb
        obtain ⟨i', i1, i2⟩ := origin i a (by omega) ha
        exact hmax i' a (by omega) (by omega) i2
      · rw [if_neg hjn] at hb
        by_cases hi : i ≤ n
        · obtain ⟨i', i1, i2⟩ := origin i a hi ha
          exact h i' j a b (by omega) (by omega) i2 hb
        · rw [rest i (by omega)] at ha
          by_cases hin : i = n + 1
          · rw [if_pos hin] at ha
            cases ha
            exact h 0 j _ b (by omega) (by omega) ex hb
          · rw [if_neg hin] at ha
            exact h i j a b hij (by omega) ha hb)
    refine ⟨l2, ?_, p2.trans (m1.1.trans hswap), h2⟩
    rw [unheap]
    simp only [rd_nat ev, rd_nat ex, bind, Except.bind, e1, e2]

theorem heapSort_spec (W : Weak lt S) (l : List α) (hS : ∀ a ∈ l, S a) : ∃ r, heapSort lt l = .ok r ∧ r.Perm l ∧ r.Pairwise fun a b => lt b a = false := by
  have pairwise : ∀ r : List α, (∀ (i j : Nat) (x y : α), i < j → r[i]? = some x → r[j]? = some y → lt y x = false) → r.Pairwise fun a b => lt b a = false := by
    intro r h
    exact List.pairwise_iff_getElem.2 fun i j hi hj hij => h i j _ _ hij (List.getElem?_eq_getElem hi) (List.getElem?_eq_getElem hj)
  unfold heapSort
  by_cases hl : l.length < 2
  · have : l.length - 1 = 0 := by omega
    simp only [if_pos hl, this, unheap, bind, Except.bind]
    refine ⟨l, rfl, .refl _, pairwise l fun i j x y hij hx hy => ?_⟩
    have := (List.getElem?_eq_some_iff.1 hy).1
    omega
  · obtain ⟨l1, e1, m1, h1⟩ := make_spec W (len := l.length) ((l.length - 2) / 2 + 1) l hS (by omega) le_rfl (fun k x y k0 k1 k2 => by omega)
    have hlen := m1.length
    obtain ⟨l2, e2, p2, h2⟩ := unheap_spec W (l.length - 1) l1 (m1.all hS) (by omega) (by rw [Nat.sub_add_cancel (by omega)]; exact h1) (fun i j x y hij hj hx hy => by
      have := (List.getElem?_eq_some_iff.1 hy).1
      omega)
    exact ⟨l2, by simp only [if_neg hl, e1, bind, Except.bind, e2], p2.trans m1.1, pairwise l2 h2⟩

theorem heap_moved (W : Weak lt S) {l : List α} (hS : ∀ a ∈ l, S a) {f e : Nat} (h : f < e) (he : e ≤ l.length) :
    ∃ g, heapSort lt ((l.take e).drop f) = .ok g ∧ Moved f e l (l.take f ++ g ++ l.drop e) ∧
      ∀ k x y, f ≤ k → k < e → (l.take f ++ g ++ l.drop e)[f]? = some x → (l.take f ++ g ++ l.drop e)[k]? = some y → k ≠ f → lt y x = false := by
  obtain ⟨g, hg, hp, hs⟩ := heapSort_spec W ((l.take e).drop f) fun a ha => hS a (List.mem_of_mem_take (List.mem_of_mem_drop ha))
  have hlen : g.length = e - f := by rw [hp.length_eq]; simp; omega
  have hl : l = l.take f ++ (l.take e).drop f ++ l.drop e := by
    conv_lhs => rw [← List.take_append_drop e l, ← List.take_append_drop f (l.take e), List.take_take, Nat.min_eq_left h.le]
  have hmid : ∀ k, f ≤ k → k < e → (l.take f ++ g ++ l.drop e)[k]? = g[k - f]? := by
    intro k k1 k2
    rw [List.getElem?_append_left (by simp; omega), List.getElem?_append_right (by simp; omega)]
    simp only [List.length_take]
    congr 1
    omega
  refine ⟨g, hg, ⟨?_, fun k hk => ?_, fun k k1 k2 => ?_⟩, fun k x y k1 k2 hx hy hne => ?_⟩
  · conv_rhs => rw [hl]
    exact (hp.append_left _).append_right _
  · rcases hk with hk | hk
    · rw [List.append_assoc, List.getElem?_append_left (by simp; omega), List.getElem?_take, if_pos hk]
    · rw [List.getElem?_append_right (by simp; omega), List.getElem?_drop]
      congr 1
      simp
      omega
  · rw [hmid k k1 k2]
    have : g[k - f]'(by omega) ∈ (l.take e).drop f := hp.mem_iff.1 (List.getElem_mem _)
    obtain ⟨m, hm, em⟩ := List.mem_iff_getElem.1 this
    simp only [List.length_drop, List.length_take] at hm
    refine ⟨f + m, by omega, by omega, ?_⟩
    rw [List.getElem?_eq_getElem (by omega), ← em, List.getElem?_eq_getElem (by omega)]
    simp
  · rw [hmid _ le_rfl h] at hx
    rw [hmid _ k1 k2] at hy
    obtain ⟨i1, i2⟩ := List.getElem?_eq_some_iff.1 hx
    obtain ⟨j1, j2⟩ := List.getElem?_eq_some_iff.1 hy
    rw [← i2, ← j2]
    exact List.pairwise_iff_getElem.1 hs _ _ _ _ (by omega)

/-- A list with an element that no other one is below. -/
theorem least (W : Weak lt S) : ∀ (n : Nat) (l : List α) (f : Nat), (∀ a ∈ l, S a) → f + n < l.length →
    ∃ m x, f ≤ m ∧ m ≤ f + n ∧ l[m]? = some x ∧ ∀ k y, f ≤ k → k ≤ f + n → l[k]? = some y → lt y x = false
  | 0, l, f, hS, h => by
    refine ⟨f, l[f], le_rfl, le_rfl, List.getElem?_eq_getElem (by omega), fun k y k1 k2 hy => ?_⟩
    have : k = f := by omega
    subst this
    rw [List.getElem?_eq_getElem (by omega)] at hy
    cases hy
    have hs := hS l[k] (List.getElem_mem _)
    by_contra hc
    have := W.asymm _ _ hs hs (by simpa using hc)
    simp [this] at hc
  | n + 1, l, f, hS, h => by
    have hmem : ∀ {k : Nat} {x : α}, l[k]? = some x → S x := fun h => hS _ (List.mem_of_getElem? h)
    obtain ⟨m, x, m1, m2, hx, hle⟩ := least W n l f hS (by omega)
    have ez : l[f + (n + 1)]? = some l[f + (n + 1)] := List.getElem?_eq_getElem (by omega)
    generalize l[f + (n + 1)] = z at ez
    by_cases hz : lt z x = true
    · refine ⟨f + (n + 1), z, by omega, le_rfl, ez, fun k y k1 k2 hy => ?_⟩
      by_cases hk : k = f + (n + 1)
      · rw [hk, ez] at hy
        cases hy
        by_contra hc
        have := W.asymm _ _ (hmem ez) (hmem ez) (by simpa using hc)
        simp [this] at hc
      · exact W.trans _ _ _ (hmem hy) (hmem hx) (hmem ez) (hle k y k1 (by omega) hy) (W.asymm _ _ (hmem ez) (hmem hx) hz)
    · refine ⟨m, x, m1, by omega, hx, fun k y k1 k2 hy => ?_⟩
      by_cases hk : k = f + (n + 1)
      · rw [hk, ez] at hy
        cases hy
        simpa using hz
      · exact hle k y k1 (by omega) hy

/-- After the loop an element that no other one of the range is below is among the first 16. -/
theorem introsort_spec (W : Weak lt S) : ∀ (limit : Nat) (l : List α) (f e : Nat), (∀ a ∈ l, S a) → f < e → e ≤ l.length →
    ∃ l', introsort lt limit l f e = .ok l' ∧ Moved f e l l' ∧
      ∃ m x, f ≤ m ∧ m < e ∧ m < f + 16 ∧ l'[m]? = some x ∧ ∀ k y, f ≤ k → k < e → l'[k]? = some y → lt y x = false := by
  have short : ∀ (l : List α) (f e : Nat), (∀ a ∈ l, S a) → f < e → e ≤ l.length → ¬ 16 < e - f →
      ∃ m x, f ≤ m ∧ m < e ∧ m < f + 16 ∧ l[m]? = some x ∧ ∀ k y, f ≤ k → k < e → l[k]? = some y → lt y x = false := by
    intro l f e hS h he hn
    obtain ⟨m, x, h1, h2, h3, h4⟩ := least W (e - f - 1) l f hS (by omega)
    exact ⟨m, x, h1, by omega, by omega, h3, fun k y k1 k2 hy => h4 k y k1 (by omega) hy⟩
  intro limit
  induction limit with
  | zero =>
    intro l f e hS h he
    rw [introsort]
    by_cases hn : 16 < e - f
    · rw [if_pos hn]
      obtain ⟨g, hg, hm, hle⟩ := heap_moved W hS h he
      simp only [hg, bind, Except.bind, pure, Except.pure]
      refine ⟨_, rfl, hm, ?_⟩
      generalize l.take f ++ g ++ l.drop e = l' at hm hle
      have hx : l'[f]? = some (l'[f]'(by rw [hm.length]; omega)) := List.getElem?_eq_getElem _
      refine ⟨f, _, le_rfl, h, by omega, hx, fun k y k1 k2 hy => ?_⟩
      by_cases hk : k = f
      · rw [hk, hx] at hy
        cases hy
        have hs := hm.all hS _ (List.mem_of_getElem? hx)
        by_contra hc
        have := W.asymm _ _ hs hs (by simpa using hc)
        simp [this] at hc
      · exact hle k _ y k1 k2 hx hy hk
    · rw [if_neg hn]
      exact ⟨l, rfl, Moved.refl _ _ _, short l f e hS h he hn⟩
  | succ limit ih =>
    intro l f e hS h he
    rw [introsort]
    by_cases hn : 16 < e - f
    · rw [if_pos hn]
      obtain ⟨l1, cut, e1, m1, c1, c2, hcut⟩ := pivot_spec W hS hn he
      have S1 := m1.all hS
      have n1 := m1.length
      obtain ⟨l2, e2, m2, _⟩ := ih l1 cut e S1 c2 (by omega)
      have S2 := m2.all S1
      have n2 := m2.length
      obtain ⟨l3, e3, m3, m, x, x1, x2, x3, x4, x5⟩ := ih l2 f cut S2 c1 (by omega)
      have S3 := m3.all S2
      refine ⟨l3, ?_, (m1.trans (m2.mono c1.le le_rfl)).trans (m3.mono le_rfl c2.le), m, x, x1, by omega, x3, x4, fun k y k1 k2 hy => ?_⟩
      · simp [e1, e2, e3, bind, Except.bind]
      · by_cases hk : k < cut
        · exact x5 k y k1 hk hy
        · obtain ⟨i, i1, i2, hi⟩ := m3.2.2 m x1 x2
          rw [x4, m2.2.1 i (Or.inl i2)] at hi
          have hj := m3.2.1 k (Or.inr (by omega))
          obtain ⟨j, j1, j2, hj'⟩ := m2.2.2 k (by omega) k2
          rw [hy, hj'] at hj
          exact hcut i j x y i1 i2 j1 j2 hi.symm hj.symm
    · rw [if_neg hn]
      exact ⟨l, rfl, Moved.refl _ _ _, short l f e hS h he hn⟩

/-! ## The insertion sort -/

/-- Sorted, the greatest element first. -/
def Falling (lt : α → α → Bool) (l : List α) : Prop := l.Pairwise fun a b => lt a b = false

theorem insert_spec (W : Weak lt S) {val : α} (hv : S val) : ∀ (before : List α), (∀ a ∈ before, S a) → Falling lt before → (∃ x ∈ before, lt val x = false) →
    ∃ r, insert lt val before = .ok r ∧ r.Perm (val :: before) ∧ Falling lt r
  | [], _, _, h => by simp at h
  | x :: before, hS, hf, h => by
    rw [insert]
    have hx := hS x (by simp)
    obtain ⟨f1, f2⟩ := List.pairwise_cons.1 hf
    by_cases hlt : lt val x = true
    · rw [if_pos hlt]
      obtain ⟨y, hy, hy'⟩ := h
      obtain ⟨r, e1, e2, e3⟩ := insert_spec W hv before (fun a ha => hS a (by simp [ha])) f2 (by
        rcases List.mem_cons.1 hy with rfl | hy
        · simp [hlt] at hy'
        · exact ⟨y, hy, hy'⟩)
      refine ⟨x :: r, by simp [e1, bind, Except.bind, pure, Except.pure], (e2.cons x).trans (.swap _ _ _), List.pairwise_cons.2 ⟨fun a ha => ?_, e3⟩⟩
      rcases List.mem_cons.1 (e2.mem_iff.1 ha) with rfl | ha
      · exact W.asymm _ _ hv hx hlt
      · exact f1 a ha
    · rw [if_neg hlt]
      have hlt : lt val x = false := by simpa using hlt
      refine ⟨_, rfl, .refl _, List.pairwise_cons.2 ⟨fun a ha => ?_, hf⟩⟩
      rcases List.mem_cons.1 ha with rfl | ha
      · exact hlt
      · exact W.trans _ _ _ hv hx (hS a (by simp [ha])) hlt (f1 a ha)

theorem guarded_spec (W : Weak lt S) : ∀ (rest before : List α), (∀ a ∈ before ++ rest, S a) → Falling lt before →
    ∃ r, guarded lt before rest = .ok r ∧ r.Perm (before ++ rest) ∧ Falling lt r
  | [], before, _, hf => ⟨before, by rw [guarded], by simp, hf⟩
  | val :: rest, before, hS, hf => by
    have hv := hS val (by simp)
    rw [guarded]
    cases hb : before.getLast? with
    | none =>
      have : before = [] := List.getLast?_eq_none_iff.1 hb
      subst this
      obtain ⟨r, e1, e2, e3⟩ := guarded_spec W rest [val] (by simpa using hS) (by simp [Falling])
      exact ⟨r, e1, by simpa using e2, e3⟩
    | some first =>
      dsimp only
      obtain ⟨init, rfl⟩ := List.getLast?_eq_some_iff.1 hb
      have hfirst := hS first (by simp)
      by_cases hlt : lt val first = true
      · rw [if_pos hlt]
        obtain ⟨r, e1, e2, e3⟩ := guarded_spec W rest (init ++ [first] ++ [val]) (by simpa using hS) (by
          refine List.pairwise_append.2 ⟨hf, by simp, fun a ha b hb => ?_⟩
          rw [List.mem_singleton.1 hb]
          have h1 : lt first val = false := W.asymm _ _ hv hfirst hlt
          rcases List.mem_append.1 ha with ha | ha
          · exact W.trans _ _ _ (hS a (by simp [ha])) hfirst hv ((List.pairwise_append.1 hf).2.2 a ha first (by simp)) h1
          · rw [List.mem_singleton.1 ha]
            exact h1)
        exact ⟨r, e1, by simpa using e2, e3⟩
      · rw [if_neg hlt]
        obtain ⟨b', e1, e2, e3⟩ := insert_spec W hv (init ++ [first]) (fun a ha => hS a (List.mem_append_left _ ha)) hf ⟨first, by simp, by simpa using hlt⟩
        obtain ⟨r, f1, f2, f3⟩ := guarded_spec W rest b' (fun a ha => by
          rcases List.mem_append.1 ha with ha | ha
          · have := e2.mem_iff.1 ha
            simp at this
            exact hS a (by simp; tauto)
          · exact hS a (by simp [ha])) e3
        refine ⟨r, by simp [e1, f1, bind, Except.bind], f2.trans ?_, f3⟩
        exact (e2.append_right rest).trans (List.perm_middle.symm)

theorem unguarded_spec (W : Weak lt S) : ∀ (rest before : List α), (∀ a ∈ before ++ rest, S a) → Falling lt before → (∃ x ∈ before, ∀ v ∈ rest, lt v x = false) →
    ∃ r, unguarded lt before rest = .ok r ∧ r.Perm (before ++ rest) ∧ Falling lt r
  | [], before, _, hf, _ => ⟨before, by rw [unguarded], by simp, hf⟩
  | val :: rest, before, hS, hf, ⟨x, hx, hle⟩ => by
    have hv := hS val (by simp)
    rw [unguarded]
    obtain ⟨b', e1, e2, e3⟩ := insert_spec W hv before (fun a ha => hS a (List.mem_append_left _ ha)) hf ⟨x, hx, hle val (by simp)⟩
    obtain ⟨r, f1, f2, f3⟩ := unguarded_spec W rest b' (fun a ha => by
      rcases List.mem_append.1 ha with ha | ha
      · have := e2.mem_iff.1 ha
        simp at this
        exact hS a (by simp; tauto)
      · exact hS a (by simp [ha])) e3 ⟨x, e2.mem_iff.2 (by simp [hx]), fun v hv => hle v (by simp [hv])⟩
    exact ⟨r, by simp [e1, f1, bind, Except.bind], f2.trans ((e2.append_right rest).trans List.perm_middle.symm), f3⟩

theorem sort_spec (W : Weak lt S) (l : List α) (hS : ∀ a ∈ l, S a) :
    ∃ r, sort lt l = .ok r ∧ r.Perm l ∧ r.Pairwise fun a b => lt b a = false := by
  unfold sort
  by_cases hl : l = []
  · subst hl
    exact ⟨[], rfl, .refl _, .nil⟩
  · rw [if_neg (by simpa using hl)]
    have hpos := List.length_pos_iff.2 hl
    obtain ⟨l', e1, hm, m, x, _, h2, h3, h4, h5⟩ := introsort_spec W (Nat.log 2 l.length * 2) l 0 l.length hS hpos le_rfl
    have hS' := hm.all hS
    have hlen := hm.length
    simp only [e1, bind, Except.bind]
    unfold final
    by_cases hn : 16 < l'.length
    · rw [if_pos hn]
      obtain ⟨b, f1, f2, f3⟩ := guarded_spec W (l'.take 16) [] (by simpa using fun a ha => hS' a (List.mem_of_mem_take ha)) (by simp [Falling])
      simp only [List.nil_append] at f2
      obtain ⟨r, g1, g2, g3⟩ := unguarded_spec W (l'.drop 16) b (fun a ha => by
        rcases List.mem_append.1 ha with ha | ha
        · exact hS' a (List.mem_of_mem_take (f2.mem_iff.1 ha))
        · exact hS' a (List.mem_of_mem_drop ha)) f3
        ⟨x, f2.mem_iff.2 (List.mem_of_getElem? (i := m) (by rw [List.getElem?_take, if_pos (by omega), h4])), fun v hv => by
          obtain ⟨k, hk, ek⟩ := List.mem_iff_getElem.1 hv
          simp only [List.length_drop] at hk
          refine h5 (16 + k) v (by omega) (by omega) ?_
          rw [← ek, List.getElem?_eq_getElem (by omega)]
          simp⟩
      refine ⟨r.reverse, by simp [f1, g1, bind, Except.bind, pure, Except.pure], ?_, List.pairwise_reverse.2 g3⟩
      refine (List.reverse_perm r).trans (g2.trans (((f2.append_right _).trans ?_).trans hm.1))
      rw [List.take_append_drop]
    · rw [if_neg hn]
      obtain ⟨b, f1, f2, f3⟩ := guarded_spec W l' [] (by simpa using hS') (by simp [Falling])
      exact ⟨b.reverse, by simp [f1, bind, Except.bind, pure, Except.pure], (List.reverse_perm b).trans ((by simpa using f2 : b.Perm l').trans hm.1), List.pairwise_reverse.2 f3⟩

end VGram.Intro
