import Verif.Proofs.Weighted

/-! # Histories that keep a dictionary sorted -/

namespace VGram

open Spec

variable {F : Type}

/-- Whatever a successful search does to the dictionary, it is nothing or one appended symbol. -/
theorem search_ok {d d' : IntDict} {seq : IntSeq} {ex : Option (List Int)} {i : Int}
    (h : d.search seq ex = .ok (d', i)) : d' = d ∨ ∃ x xs, seq = x :: xs ∧ d' = appendSym d x := by
  unfold IntDict.search at h
  obtain ⟨r, _, h⟩ := bind_ok.1 h
  split at h
  · cases h; exact Or.inl rfl
  · obtain ⟨o, _, h⟩ := bind_ok.1 h
    cases o with
    | some j => cases h; exact Or.inl rfl
    | none =>
      cases ex with
      | some e => cases h; exact Or.inl rfl
      | none =>
        cases seq with
        | nil => cases h
        | cons x xs => cases h; exact Or.inr ⟨x, xs, rfl, rfl⟩

theorem search_ok_wf {d d' : IntDict} {seq : IntSeq} {ex : Option (List Int)} {i : Int} (hd : WF d)
    (h : d.search seq ex = .ok (d', i)) : WF d' := by
  rcases search_ok h with rfl | ⟨x, _, _, rfl⟩
  · exact hd
  · exact appendSym_wf hd x

theorem linearLoop_ok_wf {ex : Option (List Int)} : ∀ (fuel : Nat) {d d' : IntDict} {seq : IntSeq} {b out : List Int},
    WF d → IntDict.linearLoop ex fuel d seq b = .ok (d', out) → WF d' := by
  intro fuel
  induction fuel with
  | zero =>
    intro d d' seq b out hd h
    cases seq with
    | nil => simp [IntDict.linearLoop] at h; exact h.1 ▸ hd
    | cons => simp [IntDict.linearLoop] at h
  | succ fuel ih =>
    intro d d' seq b out hd h
    cases seq with
    | nil => simp [IntDict.linearLoop] at h; exact h.1 ▸ hd
    | cons x xs =>
      simp only [IntDict.linearLoop] at h
      obtain ⟨⟨d1, sym⟩, h1, h⟩ := bind_ok.1 h
      have hd1 := search_ok_wf hd h1
      dsimp only at h
      split at h
      · exact ih hd1 h
      · obtain ⟨w, _, h⟩ := bind_ok.1 h
        split at h
        · exact ih hd1 h
        · cases h

theorem forward_ok_wf {O : FloatOps F} {freqs : List Int} {total : Int} {ex : Option (List Int)} :
    ∀ (seq : IntSeq) {pos : Nat} {d d' : IntDict} {t t' : DP F},
    WF d → IntDict.forward O freqs total ex pos seq d t = .ok (d', t') → WF d' := by
  intro seq
  induction seq with
  | nil => intro pos d d' t t' hd h; cases h; exact hd
  | cons x xs ih =>
    intro pos d d' t t' hd h
    simp only [IntDict.forward] at h
    obtain ⟨⟨d1, sym⟩, h1, h⟩ := bind_ok.1 h
    have hd1 := search_ok_wf hd h1
    dsimp only at h
    split at h
    · exact ih hd1 h
    · obtain ⟨w, _, h⟩ := bind_ok.1 h
      exact ih hd1 h

/-! ## Fresh symbols above everything -/

theorem search_fresh {d : IntDict} (hd : Sorted d) {x : Int} {xs : IntSeq}
    (h : ∀ w ∈ d.seqs, ∀ y ∈ w.head?, y < x) : d.search (x :: xs) none = .ok (appendSym d x, (d.size : Int)) := by
  obtain ⟨d', i, hs, ho⟩ := search_wf hd.wf (x :: xs) none (by simp)
  cases ho with
  | hit n w h1 h2 h3 h4 =>
    exfalso
    have hw := List.mem_of_getElem? h3
    obtain ⟨t, ht⟩ := h4
    cases w with
    | nil => exact hd.nonempty _ hw rfl
    | cons y ys =>
      have := h _ hw y (by simp)
      simp at ht
      omega
  | miss h1 => exact absurd rfl h1
  | grow y ys h1 h2 h3 h4 =>
    cases h2
    rw [hs, h3, h4]

theorem search_known {d : IntDict} (hd : Sorted d) {x : Int} {xs : IntSeq} (h : [x] ∈ d.seqs) :
    ∃ (n : Nat) (w : IntSeq), d.search (x :: xs) none = .ok (d, (n : Int)) ∧ d.seqs[n]? = some w ∧ w <+: x :: xs ∧ w ≠ [] := by
  rcases search_longest hd (xs := xs) none (fun _ => h) with ⟨n, w, h1, h2, h3, h4, _⟩ | ⟨_, h, _⟩
  · exact ⟨n, w, h1, h2, h3, h4⟩
  · exact absurd rfl h

theorem forward_fits {O : FloatOps F} {freqs : List Int} {total : Int} {words out : List IntSeq} {seq : IntSeq}
    (hfit : Fits words seq out) : ∀ {pos : Nat} {d d' : IntDict} {t t' : DP F}, Sorted d → d.seqs = words →
    IntDict.forward O freqs total none pos seq d t = .ok (d', t') → Sorted d' ∧ d'.seqs = out := by
  induction hfit with
  | nil => intro pos d d' t t' hd hw h; cases h; exact ⟨hd, hw⟩
  | @known _ _ x xs h1 _ ih =>
    intro pos d d' t t' hd hw h
    subst hw
    obtain ⟨n, w, hs, _⟩ := search_known hd (xs := xs) h1
    simp only [IntDict.forward, hs, ok_bind, show ¬ ((n : Int) < 0) by omega, if_false] at h
    obtain ⟨t1, _, h⟩ := bind_ok.1 h
    exact ih hd rfl h
  | fresh h1 _ ih =>
    intro pos d d' t t' hd hw h
    subst hw
    simp only [IntDict.forward, search_fresh hd h1, ok_bind, show ¬ ((d.size : Int) < 0) by omega, if_false] at h
    obtain ⟨t1, _, h⟩ := bind_ok.1 h
    exact ih (appendSym_sorted hd h1) rfl h

theorem Spec.Closed.append {words : List IntSeq} (h : Closed words) (x : Int) : Closed (words ++ [[x]]) := by
  intro w hw y hy
  rcases List.mem_append.1 hw with hw | hw
  · exact List.mem_append_left _ (h w hw y hy)
  · simp only [List.mem_singleton] at hw
    subst hw
    simp only [List.mem_singleton] at hy
    subst hy
    simp

theorem Spec.Fits.closed {words out : List IntSeq} {seq : IntSeq} (h : Fits words seq out) (hc : Closed words) : Closed out := by
  induction h with
  | nil => exact hc
  | known _ _ ih => exact ih hc
  | fresh _ _ ih => exact ih (hc.append _)

theorem Spec.Fits.drop {words out : List IntSeq} {seq : IntSeq} (h : Fits words seq out) {w rest : IntSeq}
    (hs : seq = w ++ rest) (hk : Knows words w) : Fits words rest out := by
  induction w generalizing seq with
  | nil => simpa [hs] using h
  | cons y ys ih =>
    subst hs
    have hy : [y] ∈ words := hk y (by simp)
    cases h with
    | known _ h2 => exact ih h2 rfl (fun z hz => hk z (by simp [hz]))
    | fresh h1 _ =>
      have := h1 _ hy y (by simp)
      omega

theorem linearLoop_fits : ∀ (fuel : Nat) {words out : List IntSeq} {seq : IntSeq} {d d' : IntDict} {b ids : List Int},
    Fits words seq out → Sorted d → Closed d.seqs → d.seqs = words →
    IntDict.linearLoop none fuel d seq b = .ok (d', ids) → Sorted d' ∧ d'.seqs = out := by
  intro fuel
  induction fuel with
  | zero =>
    intro words out seq d d' b ids hfit hd hc hw h
    cases hfit with
    | nil => simp [IntDict.linearLoop] at h; exact ⟨h.1 ▸ hd, h.1 ▸ hw⟩
    | known => simp [IntDict.linearLoop] at h
    | fresh => simp [IntDict.linearLoop] at h
  | succ fuel ih =>
    intro words out seq d d' b ids hfit hd hc hw h
    cases hfit with
    | nil => simp [IntDict.linearLoop] at h; exact ⟨h.1 ▸ hd, h.1 ▸ hw⟩
    | @known _ _ x xs h1 h2 =>
      subst hw
      obtain ⟨n, w, hs, hwn, hpre, _⟩ := search_known hd (xs := xs) h1
      simp only [IntDict.linearLoop, hs, ok_bind, show ¬ ((n : Int) < 0) by omega, if_false, IntDict.get, rd_nat_ok.2 hwn,
        hpre.length_le, if_true] at h
      obtain ⟨r, hr⟩ := hpre
      have hdrop : (x :: xs).drop w.length = r := by rw [← hr, List.drop_left]
      rw [hdrop] at h
      exact ih ((Fits.known h1 h2).drop hr.symm (hc w (List.mem_of_getElem? hwn))) hd hc rfl h
    | @fresh _ _ x xs h1 h2 =>
      subst hw
      have hget : (appendSym d x).seqs[d.size]? = some [x] := by simp [appendSym, IntDict.size]
      simp only [IntDict.linearLoop, search_fresh hd h1, ok_bind, show ¬ ((d.size : Int) < 0) by omega, if_false,
        IntDict.get, rd_nat_ok.2 hget] at h
      simp at h
      exact ih h2 (appendSym_sorted hd h1) (hc.append x) rfl h

end VGram
