import Verif.Proofs.Init

/-! # `search` -/

namespace VGram

/-- Structural invariant of every dictionary the code can reach from non-empty words. -/
structure WF (d : IntDict) : Prop where
  len : d.parents.length = d.seqs.length
  par : ∀ (i : Nat) (p : Int), d.parents[i]? = some p →
    p = -1 ∨ ∃ j : Nat, j < i ∧ p = (j : Int) ∧
      ∀ s, d.seqs[i]? = some s → ∃ w, d.seqs[j]? = some w ∧ w <+: s
  nonempty : ∀ w ∈ d.seqs, w ≠ []

/-- A dictionary that is strictly sorted with the right parents. -/
structure Sorted (d : IntDict) : Prop where
  len : d.parents.length = d.seqs.length
  sorted : d.seqs.Pairwise (· < ·)
  nonempty : ∀ w ∈ d.seqs, w ≠ []
  par : ∀ (i : Nat) (p : Int), d.parents[i]? = some p → IsParent d.seqs i p

theorem Sorted.le {d : IntDict} (h : Sorted d) : d.seqs.Pairwise (· ≤ ·) := h.sorted.imp le_of_lt

theorem Sorted.wf {d : IntDict} (h : Sorted d) : WF d := by
  refine ⟨h.len, ?_, h.nonempty⟩
  intro i p hp
  obtain ⟨hi, _⟩ := List.getElem?_eq_some_iff.1 hp
  rw [h.len] at hi
  have hs : d.seqs[i]? = some d.seqs[i] := List.getElem?_eq_getElem hi
  rcases h.par i p hp _ hs with ⟨h1, _⟩ | ⟨j, h1, h2, ⟨w, h3, h4⟩, _⟩
  · exact Or.inl h1
  · refine Or.inr ⟨j, h1, h2, fun s hs' => ⟨w, h3, ?_⟩⟩
    rw [hs] at hs'
    cases hs'
    exact h4

theorem empty_sorted : Sorted IntDict.empty := ⟨rfl, List.Pairwise.nil, by simp [IntDict.empty], by simp [IntDict.empty]⟩

theorem init_sorted {l : List IntSeq} (hnd : l.Nodup) (hne : ∀ w ∈ l, w ≠ []) :
    ∃ d, IntDict.init l = .ok d ∧ d.seqs = sortSeqs l ∧ Sorted d := by
  obtain ⟨ps, h1, h2, h3⟩ := init_spec l
  refine ⟨_, h1, rfl, ⟨by rw [h2, sortSeqs_length], ?_, ?_, h3⟩⟩
  · have hnd' : (sortSeqs l).Nodup := (sortSeqs_perm l).nodup_iff.2 hnd
    exact (sortSeqs_sorted l).imp₂ (fun a b h h' => lt_of_le_of_ne h h') hnd'
  · intro w hw
    exact hne w ((sortSeqs_perm l).mem_iff.1 hw)

theorem init_wf {l : List IntSeq} (hne : ∀ w ∈ l, w ≠ []) :
    ∃ d, IntDict.init l = .ok d ∧ d.seqs = sortSeqs l ∧ WF d := by
  obtain ⟨ps, h1, h2, h3⟩ := init_spec l
  refine ⟨_, h1, rfl, ⟨by rw [h2, sortSeqs_length], ?_, ?_⟩⟩
  · intro i p hp
    obtain ⟨hi, _⟩ := List.getElem?_eq_some_iff.1 hp
    rw [h2, ← sortSeqs_length] at hi
    have hs : (sortSeqs l)[i]? = some (sortSeqs l)[i] := List.getElem?_eq_getElem hi
    rcases h3 i p hp _ hs with ⟨h1, _⟩ | ⟨j, h1, h2, ⟨w, h3, h4⟩, _⟩
    · exact Or.inl h1
    · refine Or.inr ⟨j, h1, h2, fun s hs' => ⟨w, h3, ?_⟩⟩
      change (sortSeqs l)[i]? = some s at hs'
      rw [hs] at hs'
      cases hs'
      exact h4
  · intro w hw
    exact hne w ((sortSeqs_perm l).mem_iff.1 hw)

/-! ## lower_bound -/

/-- On *any* list, sorted or not, the element before the answer compared below the query, and the
element at the answer did not. -/
theorem lowerBoundLoop_spec (seqs : List IntSeq) (v : IntSeq) : ∀ fuel first len, len ≤ fuel →
    first + len ≤ seqs.length →
    (∀ w, 0 < first → seqs[first - 1]? = some w → w < v) →
    (∀ w, seqs[first + len]? = some w → v ≤ w) →
    ∃ r, lowerBoundLoop seqs v fuel first len = .ok r ∧ first ≤ r ∧ r ≤ first + len ∧
      (∀ w, 0 < r → seqs[r - 1]? = some w → w < v) ∧ (∀ w, seqs[r]? = some w → v ≤ w) := by
  intro fuel
  induction fuel with
  | zero =>
    intro first len hl hb h1 h2
    obtain rfl : len = 0 := by omega
    exact ⟨first, rfl, le_refl _, by omega, h1, by simpa using h2⟩
  | succ fuel ih =>
    intro first len hl hb h1 h2
    unfold lowerBoundLoop
    by_cases h0 : len = 0
    · subst h0
      exact ⟨first, by simp, le_refl _, by omega, h1, by simpa using h2⟩
    · have hmid : first + len / 2 < seqs.length := by omega
      simp only [h0, if_false, rd_of_lt hmid, ok_bind]
      by_cases hlt : seqLt seqs[first + len / 2] v = true
      · simp only [hlt, if_true]
        obtain ⟨r, e, a, b, c, dd⟩ := ih (first + len / 2 + 1) (len - len / 2 - 1) (by omega) (by omega)
          (by
            intro w _ hw
            rw [Nat.add_sub_cancel, List.getElem?_eq_getElem hmid] at hw
            cases hw
            exact (seqLt_iff _ _).1 hlt)
          (by
            intro w hw
            apply h2
            rwa [show first + len = first + len / 2 + 1 + (len - len / 2 - 1) by omega])
        exact ⟨r, e, by omega, by omega, c, dd⟩
      · simp only [hlt]
        obtain ⟨r, e, a, b, c, dd⟩ := ih first (len / 2) (by omega) (by omega) h1
          (by
            intro w hw
            rw [List.getElem?_eq_getElem hmid] at hw
            cases hw
            exact seqLt_false.1 (by simpa using hlt))
        exact ⟨r, by simpa using e, by omega, by omega, c, dd⟩

theorem lowerBound_ok (seqs : List IntSeq) (v : IntSeq) :
    ∃ r, lowerBound seqs v = .ok r ∧ r ≤ seqs.length ∧
      (∀ w, 0 < r → seqs[r - 1]? = some w → w < v) ∧ (∀ w, seqs[r]? = some w → v ≤ w) := by
  obtain ⟨r, e, a, b, c, d⟩ := lowerBoundLoop_spec seqs v seqs.length 0 seqs.length (le_refl _) (by omega)
    (by intro w h; omega) (by intro w h; simp at h)
  exact ⟨r, e, by omega, c, d⟩

/-! ## walking up the parents -/

theorem walkUp_neg (d : IntDict) (seq : IntSeq) (ex : Option (List Int)) (fuel : Nat) {i : Int} (h : i < 0) :
    d.walkUp seq ex (fuel + 1) i = .ok none := by
  have : ¬ (0 ≤ i ∧ i < (d.size : Int)) := by omega
  simp [IntDict.walkUp, this]

theorem walkUp_nat {d : IntDict} (seq : IntSeq) (ex : Option (List Int)) (fuel : Nat) {n : Nat} {w : IntSeq}
    {p : Int} (hw : d.seqs[n]? = some w) (hle : w ≤ seq) (hp : d.parents[n]? = some p) :
    d.walkUp seq ex (fuel + 1) (n : Int) =
      if w <+: seq ∧ allowed ex (n : Int) = true then .ok (some (n : Int)) else d.walkUp seq ex fuel p := by
  have hn : n < d.seqs.length := (List.getElem?_eq_some_iff.1 hw).1
  have hc : (0 : Int) ≤ (n : Int) ∧ (n : Int) < (d.size : Int) := by
    simp only [IntDict.size]; omega
  simp only [IntDict.walkUp, hc, and_self, if_true, rd_nat, hw, hp, ok_bind, mismatch_of_le hle, pure_M]
  by_cases h1 : w <+: seq <;> by_cases h2 : allowed ex (n : Int) = true <;> simp [h1, h2]

/-- On any structurally sound dictionary the walk terminates without fault, and what it returns is
an allowed word that is a prefix of the query. -/
theorem walkUp_wf {d : IntDict} (hd : WF d) (seq : IntSeq) (ex : Option (List Int)) :
    ∀ (n : Nat) (fuel : Nat), n < fuel → ∀ i : Int, i < (n : Int) →
      (0 ≤ i → ∃ w, d.seqs[i.toNat]? = some w ∧ w ≤ seq) →
      ∃ r, d.walkUp seq ex fuel i = .ok r ∧ ∀ j, r = some j →
        ∃ (m : Nat) (w : IntSeq), j = (m : Int) ∧ (m : Int) ≤ i ∧ d.seqs[m]? = some w ∧ w <+: seq ∧
          allowed ex (m : Int) = true := by
  intro n
  induction n using Nat.strong_induction_on with
  | _ n ih =>
    intro fuel hf i hi hle
    obtain ⟨fuel, rfl⟩ : ∃ f, fuel = f + 1 := ⟨fuel - 1, by omega⟩
    by_cases h0 : i < 0
    · exact ⟨none, walkUp_neg d seq ex fuel h0, by simp⟩
    · obtain ⟨k, rfl⟩ : ∃ k : Nat, i = (k : Int) := ⟨i.toNat, by omega⟩
      obtain ⟨w, hw, hwle⟩ := hle (by omega)
      simp only [Int.toNat_natCast] at hw
      have hk : k < d.seqs.length := (List.getElem?_eq_some_iff.1 hw).1
      have hp : d.parents[k]? = some (d.parents[k]'(by rw [hd.len]; exact hk)) :=
        List.getElem?_eq_getElem _
      generalize d.parents[k]'(by rw [hd.len]; exact hk) = p at hp
      rw [walkUp_nat seq ex fuel hw hwle hp]
      split
      next h =>
        refine ⟨_, rfl, ?_⟩
        intro j hj
        exact ⟨k, w, by simpa using hj.symm, le_refl _, hw, h.1, h.2⟩
      next h =>
        have hp' := hd.par k p hp
        have hpk : p < (k : Int) := by
          rcases hp' with rfl | ⟨j, hj, rfl, _⟩ <;> omega
        obtain ⟨r, hr, hr2⟩ := ih k (by omega) fuel (by omega) p hpk (by
          intro hp0
          rcases hp' with rfl | ⟨j, hj, rfl, hpar⟩
          · omega
          · obtain ⟨v, hv, hvw⟩ := hpar w hw
            exact ⟨v, by simpa using hv, le_trans (prefix_le hvw) hwle⟩)
        refine ⟨r, hr, ?_⟩
        intro j hj
        obtain ⟨m, v, h1, h2, h3⟩ := hr2 j hj
        exact ⟨m, v, h1, by omega, h3⟩

/-- On a sorted dictionary the walk finds the last allowed prefix. -/
theorem walkUp_complete {d : IntDict} (hd : Sorted d) (seq : IntSeq) (ex : Option (List Int)) :
    ∀ (n : Nat) (fuel : Nat), n < fuel → ∀ i : Int, i < (n : Int) →
      (0 ≤ i → ∃ w, d.seqs[i.toNat]? = some w ∧ w ≤ seq) →
      ∀ r, d.walkUp seq ex fuel i = .ok r →
      ∀ (k : Nat) (v : IntSeq), (k : Int) ≤ i → d.seqs[k]? = some v → v <+: seq → allowed ex (k : Int) = true →
        ∃ m : Nat, r = some (m : Int) ∧ k ≤ m := by
  intro n
  induction n using Nat.strong_induction_on with
  | _ n ih =>
    intro fuel hf i hi hle r hr k v hki hv hpre hal
    obtain ⟨fuel, rfl⟩ : ∃ f, fuel = f + 1 := ⟨fuel - 1, by omega⟩
    obtain ⟨i, rfl⟩ : ∃ k : Nat, i = (k : Int) := ⟨i.toNat, by omega⟩
    obtain ⟨w, hw, hwle⟩ := hle (by omega)
    simp only [Int.toNat_natCast] at hw
    have hlen : i < d.seqs.length := (List.getElem?_eq_some_iff.1 hw).1
    have hp : d.parents[i]? = some (d.parents[i]'(by rw [hd.len]; exact hlen)) :=
      List.getElem?_eq_getElem _
    generalize d.parents[i]'(by rw [hd.len]; exact hlen) = p at hp
    rw [walkUp_nat seq ex fuel hw hwle hp] at hr
    split at hr
    next h =>
      simp only [Except.ok.injEq] at hr
      exact ⟨i, hr.symm, by omega⟩
    next h =>
      have hne : k ≠ i := by
        rintro rfl
        rw [hw] at hv
        cases hv
        exact h ⟨hpre, hal⟩
      have hlt : k < i := by omega
      have hvw : v <+: w := prefix_of_between hpre (sorted_le hd.le (le_of_lt hlt) hv hw) hwle
      rcases hd.par i p hp w hw with ⟨rfl, hno⟩ | ⟨j, hj, rfl, ⟨u, hu, huw⟩, hmax⟩
      · exact absurd hvw (hno k hlt v hv)
      · have hkj : k ≤ j := by
          by_contra hcon
          exact hmax k (by omega) hlt v hv hvw
        exact ih i (by omega) fuel (by omega) (j : Int) (by omega)
          (fun _ => ⟨u, by simpa using hu, le_trans (prefix_le huw) hwle⟩) r hr k v (by omega) hv hpre hal

/-! ## search -/

/-- The dictionary after a missed lookup without excludes. -/
def appendSym (d : IntDict) (x : Int) : IntDict := ⟨d.seqs ++ [[x]], d.parents ++ [-1]⟩

theorem exactAt_iff {d : IntDict} {n : Nat} {seq : IntSeq} : d.exactAt n seq = true ↔ d.seqs[n]? = some seq := by
  unfold IntDict.exactAt
  cases h : d.seqs[n]? with
  | none => simp
  | some w => simp

/-- The three possible outcomes of `search`. -/
inductive SearchOutcome (d : IntDict) (seq : IntSeq) (ex : Option (List Int)) (d' : IntDict) (i : Int) : Prop
  | hit (n : Nat) (w : IntSeq) (h1 : d' = d) (h2 : i = (n : Int)) (h3 : d.seqs[n]? = some w) (h4 : w <+: seq)
      (h5 : allowed ex (n : Int) = true)
  | miss (h1 : ex ≠ none) (h2 : d' = d) (h3 : i = -1)
  | grow (x : Int) (xs : IntSeq) (h1 : ex = none) (h2 : seq = x :: xs) (h3 : d' = appendSym d x)
      (h4 : i = (d.size : Int))

theorem search_raw {d : IntDict} (hd : WF d) (seq : IntSeq) (ex : Option (List Int))
    (hne : ex = none → seq ≠ []) :
    ∃ d' i, d.search seq ex = .ok (d', i) ∧ SearchOutcome d seq ex d' i ∧
      (Sorted d → ∀ (k : Nat) (v : IntSeq), d.seqs[k]? = some v → v <+: seq → allowed ex (k : Int) = true →
        (k : Int) ≤ i ∧ d' = d) := by
  obtain ⟨r, hr, hrl, hlow, hhigh⟩ := lowerBound_ok d.seqs seq
  unfold IntDict.search
  simp only [hr, ok_bind]
  by_cases hex : (d.exactAt r seq && allowed ex (r : Int)) = true
  · simp only [hex, if_true, pure_M]
    rw [Bool.and_eq_true, exactAt_iff] at hex
    refine ⟨d, r, rfl, .hit r seq rfl rfl hex.1 (List.prefix_refl _) hex.2, ?_⟩
    intro hs k v hv hpre hal
    refine ⟨?_, rfl⟩
    by_contra hcon
    have hrk : r < k := by omega
    obtain ⟨h1, rfl⟩ := List.getElem?_eq_some_iff.1 hex.1
    obtain ⟨h2, rfl⟩ := List.getElem?_eq_some_iff.1 hv
    have := List.pairwise_iff_getElem.1 hs.sorted r k h1 h2 hrk
    exact absurd (prefix_le hpre) (not_le.2 this)
  · have hle : 0 ≤ (r : Int) - 1 → ∃ w, d.seqs[((r : Int) - 1).toNat]? = some w ∧ w ≤ seq := by
      intro h
      have h1 : ((r : Int) - 1).toNat = r - 1 := by omega
      have h2 : r - 1 < d.seqs.length := by omega
      refine ⟨d.seqs[r - 1], by rw [h1]; exact List.getElem?_eq_getElem h2, ?_⟩
      exact le_of_lt (hlow _ (by omega) (List.getElem?_eq_getElem h2))
    obtain ⟨res, hw, hres⟩ := walkUp_wf hd seq ex r (d.size + 1) (by simp only [IntDict.size]; omega)
      ((r : Int) - 1) (by omega) hle
    simp only [hex, if_false, hw, ok_bind, Bool.false_eq_true]
    have hcomp : Sorted d → ∀ (k : Nat) (v : IntSeq), d.seqs[k]? = some v → v <+: seq →
        allowed ex (k : Int) = true → ∃ m : Nat, res = some (m : Int) ∧ k ≤ m := by
      intro hs k v hv hpre hal
      have hkr : k < r := by
        by_contra hcon
        have hk : k < d.seqs.length := (List.getElem?_eq_some_iff.1 hv).1
        have hr' : r < d.seqs.length := by omega
        have hge := hhigh _ (List.getElem?_eq_getElem hr')
        have hrk : d.seqs[r] ≤ v := sorted_le hs.le (by omega) (List.getElem?_eq_getElem hr') hv
        have hveq : v = seq := le_antisymm (prefix_le hpre) (le_trans hge hrk)
        have hreq : d.seqs[r] = seq := le_antisymm (hveq ▸ hrk) hge
        have hkr : k = r := by
          by_contra hne
          have hlt : r < k := by omega
          have := List.pairwise_iff_getElem.1 hs.sorted r k hr' hk hlt
          obtain ⟨_, hv'⟩ := List.getElem?_eq_some_iff.1 hv
          rw [hreq, hv', hveq] at this
          exact lt_irrefl _ this
        subst hkr
        apply hex
        rw [Bool.and_eq_true, exactAt_iff]
        exact ⟨by rw [hv, hveq], hal⟩
      exact walkUp_complete hs seq ex r (d.size + 1) (by simp only [IntDict.size]; omega)
        ((r : Int) - 1) (by omega) hle res hw k v (by omega) hv hpre hal
    cases res with
    | some j =>
      obtain ⟨m, w, rfl, _, h2, h3, h4⟩ := hres j rfl
      refine ⟨d, m, rfl, .hit m w rfl rfl h2 h3 h4, ?_⟩
      intro hs k v hv hpre hal
      obtain ⟨m', hm', hle'⟩ := hcomp hs k v hv hpre hal
      simp only [Option.some.injEq] at hm'
      exact ⟨by omega, rfl⟩
    | none =>
      have hnone : Sorted d → ∀ (k : Nat) (v : IntSeq), d.seqs[k]? = some v → v <+: seq →
          allowed ex (k : Int) = true → False := by
        intro hs k v hv hpre hal
        obtain ⟨m', hm', _⟩ := hcomp hs k v hv hpre hal
        simp at hm'
      cases ex with
      | some e =>
        exact ⟨d, -1, rfl, .miss (by simp) rfl rfl, fun hs k v a b c => (hnone hs k v a b c).elim⟩
      | none =>
        cases seq with
        | nil => exact absurd rfl (hne rfl)
        | cons x xs =>
          exact ⟨_, _, rfl, .grow x xs rfl rfl rfl rfl, fun hs k v a b c => (hnone hs k v a b c).elim⟩

theorem search_wf {d : IntDict} (hd : WF d) (seq : IntSeq) (ex : Option (List Int)) (hne : ex = none → seq ≠ []) :
    ∃ d' i, d.search seq ex = .ok (d', i) ∧ SearchOutcome d seq ex d' i := by
  obtain ⟨d', i, h1, h2, _⟩ := search_raw hd seq ex hne
  exact ⟨d', i, h1, h2⟩

theorem appendSym_wf {d : IntDict} (hd : WF d) (x : Int) : WF (appendSym d x) := by
  refine ⟨by simp [appendSym, hd.len], ?_, ?_⟩
  · intro i p hp
    simp only [appendSym] at hp ⊢
    by_cases hi : i < d.parents.length
    · rw [List.getElem?_append_left hi] at hp
      rcases hd.par i p hp with h | ⟨j, h1, h2, h3⟩
      · exact Or.inl h
      · refine Or.inr ⟨j, h1, h2, ?_⟩
        intro s hs
        rw [List.getElem?_append_left (by rw [← hd.len]; exact hi)] at hs
        obtain ⟨w, hw, hws⟩ := h3 s hs
        refine ⟨w, ?_, hws⟩
        rw [List.getElem?_append_left (by rw [← hd.len]; omega)]
        exact hw
    · left
      rw [List.getElem?_append_right (by omega)] at hp
      have : i - d.parents.length = 0 := by
        by_contra hne
        rw [List.getElem?_eq_none (by simp; omega)] at hp
        simp at hp
      rw [this] at hp
      simpa using hp.symm
  · intro w hw
    simp only [appendSym, List.mem_append, List.mem_singleton] at hw
    rcases hw with hw | rfl
    · exact hd.nonempty w hw
    · simp

theorem outcome_wf {d d' : IntDict} {seq : IntSeq} {ex : Option (List Int)} {i : Int} (hd : WF d)
    (h : SearchOutcome d seq ex d' i) : WF d' := by
  cases h with
  | hit n w h1 => exact h1 ▸ hd
  | miss _ h2 => exact h2 ▸ hd
  | grow x xs _ _ h3 => exact h3 ▸ appendSym_wf hd x

/-- Appending a symbol above everything in the dictionary keeps it sorted. -/
theorem appendSym_sorted {d : IntDict} (hd : Sorted d) {x : Int} (hx : ∀ w ∈ d.seqs, ∀ y ∈ w.head?, y < x) :
    Sorted (appendSym d x) := by
  have hlt : ∀ w ∈ d.seqs, w < [x] := by
    intro w hw
    cases w with
    | nil => exact absurd rfl (hd.nonempty _ hw)
    | cons y ys =>
      have := hx _ hw y (by simp)
      rw [List.cons_lt_cons_iff]
      exact Or.inl this
  refine ⟨by simp [appendSym, hd.len], ?_, (appendSym_wf hd.wf x).nonempty, ?_⟩
  · simp only [appendSym]
    rw [List.pairwise_append]
    refine ⟨hd.sorted, by simp, ?_⟩
    intro a ha b hb
    rw [List.mem_singleton] at hb
    subst hb
    exact hlt a ha
  · intro i p hp s hs
    simp only [appendSym] at hp hs ⊢
    by_cases hi : i < d.seqs.length
    · rw [List.getElem?_append_left (by rw [hd.len]; exact hi)] at hp
      rw [List.getElem?_append_left hi] at hs
      rcases hd.par i p hp s hs with ⟨h1, h2⟩ | ⟨j, h1, h2, ⟨w, h3, h4⟩, h5⟩
      · refine Or.inl ⟨h1, fun j hj w hw => h2 j hj w ?_⟩
        rwa [List.getElem?_append_left (by omega)] at hw
      · refine Or.inr ⟨j, h1, h2, ⟨w, ?_, h4⟩, fun k hk1 hk2 w hw => h5 k hk1 hk2 w ?_⟩
        · rw [List.getElem?_append_left (by omega)]; exact h3
        · rwa [List.getElem?_append_left (by omega)] at hw
    · rw [List.getElem?_append_right (by rw [hd.len]; omega)] at hp
      rw [List.getElem?_append_right (by omega)] at hs
      have hi0 : i - d.seqs.length = 0 := by
        by_contra hne
        rw [List.getElem?_eq_none (by simp; omega)] at hs
        simp at hs
      rw [hd.len, hi0] at hp
      rw [hi0] at hs
      have hs' : [x] = s := by simpa using hs
      have hp' : p = -1 := by simpa using hp.symm
      subst hs' hp'
      refine Or.inl ⟨rfl, ?_⟩
      intro j hj w hw hpre
      rw [List.getElem?_append_left (by omega)] at hw
      have hmem := List.mem_of_getElem? hw
      obtain ⟨t, ht⟩ := hpre
      cases w with
      | nil => exact hd.nonempty _ hmem rfl
      | cons y ys =>
        rw [List.cons_append, List.cons.injEq] at ht
        have := hx _ hmem y (by simp)
        omega

end VGram
