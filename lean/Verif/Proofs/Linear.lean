import Verif.Spec.Parse
import Verif.Proofs.Search

/-! # Growth of dictionaries and the greedy parse -/

namespace VGram

open Spec

theorem isWord_nat {words : List IntSeq} {n : Nat} {w : IntSeq} : IsWord words (n : Int) w ↔ words[n]? = some w := by
  simp [IsWord]

theorem Spec.IsWord.exists_nat {words : List IntSeq} {i : Int} {w : IntSeq} (h : IsWord words i w) :
    ∃ n : Nat, i = (n : Int) ∧ words[n]? = some w := ⟨i.toNat, by have := h.1; omega, h.2⟩

theorem Spec.IsWord.mono {words : List IntSeq} {i : Int} {w : IntSeq} (h : IsWord words i w) (l : List IntSeq) :
    IsWord (words ++ l) i w := by
  refine ⟨h.1, ?_⟩
  rw [List.getElem?_append_left (List.getElem?_eq_some_iff.1 h.2).1]
  exact h.2

theorem Spec.IsWord.unique {words : List IntSeq} {i : Int} {w v : IntSeq} (h : IsWord words i w) (h' : IsWord words i v) :
    w = v := Option.some.inj (h.2.symm.trans h'.2)

/-- Growth of the whole dictionary object (words and parents). -/
def Grow (d d' : IntDict) (seq : IntSeq) : Prop :=
  ∃ syms : List Int, d'.seqs = d.seqs ++ syms.map (fun x => [x]) ∧
    d'.parents = d.parents ++ List.replicate syms.length (-1) ∧ ∀ x ∈ syms, x ∈ seq

theorem Grow.refl (d : IntDict) (seq : IntSeq) : Grow d d seq := ⟨[], by simp, by simp, by simp⟩

theorem Grow.trans {d d' d'' : IntDict} {s : IntSeq} (h : Grow d d' s) (h' : Grow d' d'' s) : Grow d d'' s := by
  obtain ⟨a, h1, h2, h3⟩ := h
  obtain ⟨b, h1', h2', h3'⟩ := h'
  refine ⟨a ++ b, by simp [h1, h1'], ?_, ?_⟩
  · rw [h2', h2, List.length_append, ← List.replicate_append_replicate, List.append_assoc]
  · intro x hx
    rcases List.mem_append.1 hx with h | h
    · exact h3 x h
    · exact h3' x h

theorem Grow.weaken {d d' : IntDict} {s s' : IntSeq} (h : Grow d d' s) (hs : ∀ x ∈ s, x ∈ s') : Grow d d' s' := by
  obtain ⟨a, h1, h2, h3⟩ := h
  exact ⟨a, h1, h2, fun x hx => hs x (h3 x hx)⟩

theorem Grow.growsBy {d d' : IntDict} {s : IntSeq} (h : Grow d d' s) : GrowsBy d.seqs d'.seqs s := by
  obtain ⟨a, h1, _, h3⟩ := h
  exact ⟨a, h1, h3⟩

theorem Grow.isWord {d d' : IntDict} {s : IntSeq} (h : Grow d d' s) {i : Int} {w : IntSeq}
    (hw : IsWord d.seqs i w) : IsWord d'.seqs i w := by
  obtain ⟨a, h1, _, _⟩ := h
  rw [h1]
  exact hw.mono _

theorem outcome_grow {d d' : IntDict} {seq : IntSeq} {ex : Option (List Int)} {i : Int}
    (h : SearchOutcome d seq ex d' i) : Grow d d' seq := by
  cases h with
  | hit n w h1 => exact h1 ▸ Grow.refl d seq
  | miss _ h2 => exact h2 ▸ Grow.refl d seq
  | grow x xs _ h2 h3 => exact ⟨[x], by simp [h3, appendSym], by simp [h3, appendSym], by simp [h2]⟩

/-- Without excludes the outcome always names a non-empty word that is a prefix of the query. -/
theorem outcome_none {d d' : IntDict} {seq : IntSeq} {i : Int} (hd : WF d) (h : SearchOutcome d seq none d' i) :
    ∃ (n : Nat) (w : IntSeq), i = (n : Int) ∧ d'.seqs[n]? = some w ∧ w <+: seq ∧ w ≠ [] := by
  cases h with
  | hit n w h1 h2 h3 h4 => subst h1; exact ⟨n, w, h2, h3, h4, hd.nonempty w (List.mem_of_getElem? h3)⟩
  | miss h1 => exact absurd rfl h1
  | grow x xs _ h2 h3 h4 =>
    refine ⟨d.size, [x], h4, ?_, ?_, by simp⟩
    · simp [h3, appendSym, IntDict.size]
    · rw [h2]; exact ⟨xs, rfl⟩

theorem Spec.Spells.cons {words : List IntSeq} {i : Int} {w rest : IntSeq} {ids : List Int} (h : IsWord words i w)
    (h' : Spells words ids rest) : Spells words (i :: ids) (w ++ rest) := by
  obtain ⟨ws, h1, h2⟩ := h'
  exact ⟨w :: ws, List.Forall₂.cons h h1, by simp [h2]⟩

theorem Spec.Spells.nil (words : List IntSeq) : Spells words [] [] := ⟨[], List.Forall₂.nil, rfl⟩

theorem Spec.Spells.append {words : List IntSeq} {a b : List Int} {s t : IntSeq} (h : Spells words a s)
    (h' : Spells words b t) : Spells words (a ++ b) (s ++ t) := by
  obtain ⟨ws, h1, h2⟩ := h
  obtain ⟨ws', h1', h2'⟩ := h'
  exact ⟨ws ++ ws', List.rel_append h1 h1', by simp [h2, h2']⟩

theorem Spec.Spells.mono {words : List IntSeq} {ids : List Int} {s : IntSeq} (h : Spells words ids s) (l : List IntSeq) :
    Spells (words ++ l) ids s := by
  obtain ⟨ws, h1, h2⟩ := h
  exact ⟨ws, h1.imp fun _ _ h => h.mono l, h2⟩

/-- The greedy parse without excludes on any structurally sound dictionary. -/
theorem linearLoop_wf : ∀ (fuel : Nat) (d : IntDict) (seq : IntSeq) (out : List Int), WF d → seq.length ≤ fuel →
    ∃ d' ids, IntDict.linearLoop none fuel d seq out = .ok (d', out ++ ids) ∧ WF d' ∧ Grow d d' seq ∧
      Spells d'.seqs ids seq := by
  intro fuel
  induction fuel with
  | zero =>
    intro d seq out hd hl
    obtain rfl : seq = [] := List.length_eq_zero_iff.1 (by omega)
    exact ⟨d, [], by simp [IntDict.linearLoop], hd, Grow.refl _ _, Spells.nil _⟩
  | succ fuel ih =>
    intro d seq out hd hl
    cases seq with
    | nil => exact ⟨d, [], by simp [IntDict.linearLoop], hd, Grow.refl _ _, Spells.nil _⟩
    | cons x xs =>
      obtain ⟨d', i, hs, ho⟩ := search_wf hd (x :: xs) none (by simp)
      obtain ⟨n, w, rfl, hw, hpre, hne⟩ := outcome_none hd ho
      have hd' := outcome_wf hd ho
      have hlen : w.length ≤ (x :: xs).length := hpre.length_le
      have hpos : 0 < w.length := List.length_pos_iff.2 hne
      obtain ⟨d'', ids, h1, h2, h3, h4⟩ := ih d' ((x :: xs).drop w.length) (out ++ [(n : Int)]) hd'
        (by simp at hl ⊢; omega)
      have hg := h3.weaken (s' := x :: xs) (fun y hy => List.mem_of_mem_drop hy)
      refine ⟨d'', (n : Int) :: ids, ?_, h2, (outcome_grow ho).trans hg, ?_⟩
      · have hneg : ¬ ((n : Int) < 0) := by omega
        simp only [IntDict.linearLoop, hs, ok_bind, hneg, if_false, IntDict.get, rd_nat, hw, hlen, if_true]
        rw [h1]
        simp
      · have hsplit : w ++ (x :: xs).drop w.length = x :: xs := by
          obtain ⟨t, ht⟩ := hpre
          rw [← ht, List.drop_left]
        have := Spells.cons (hg.isWord (isWord_nat.2 hw)) h4
        rwa [hsplit] at this

/-- When the dictionary cannot grow (an exclude set is given, or it is sorted and knows all the
symbols) a search on a sorted dictionary is the longest allowed prefix. -/
theorem search_longest {d : IntDict} (hd : Sorted d) {x : Int} {xs : IntSeq} (ex : Option (List Int))
    (hk : ex = none → [x] ∈ d.seqs) :
    (∃ (n : Nat) (w : IntSeq), d.search (x :: xs) ex = .ok (d, (n : Int)) ∧ d.seqs[n]? = some w ∧ w <+: x :: xs ∧
        w ≠ [] ∧ IsLongestPrefix d.seqs (fun i => allowed ex i = true) (x :: xs) (n : Int)) ∨
      (d.search (x :: xs) ex = .ok (d, -1) ∧ ex ≠ none ∧ NoPrefix d.seqs (fun i => allowed ex i = true) (x :: xs)) := by
  obtain ⟨d', i, hs, ho, hmax⟩ := search_raw hd.wf (x :: xs) ex (by simp)
  replace hmax := hmax hd
  cases ho with
  | hit n w h1 h2 h3 h4 h5 =>
    subst h1 h2
    refine Or.inl ⟨n, w, hs, h3, h4, hd.nonempty w (List.mem_of_getElem? h3), w, isWord_nat.2 h3, h4, h5, ?_⟩
    intro j v hj hv hal
    obtain ⟨k, rfl, hk⟩ := hj.exists_nat
    have hkn : k ≤ n := by have := (hmax k v hk hv hal).1; omega
    have hle := sorted_le hd.le hkn hk h3
    exact (prefix_of_between hv hle (prefix_le h4)).length_le
  | miss h1 h2 h3 =>
    subst h2 h3
    refine Or.inr ⟨hs, h1, ?_⟩
    intro j v hj hv hal
    obtain ⟨k, rfl, hk⟩ := hj.exists_nat
    have := (hmax k v hk hv hal).1
    omega
  | grow y ys h1 h2 h3 h4 =>
    obtain ⟨k, hklt, hk'⟩ := List.getElem_of_mem (hk h1)
    have := hmax k [x] (by rw [List.getElem?_eq_getElem hklt, hk']) ⟨xs, rfl⟩ (by simp [h1, allowed])
    have hsz := congrArg (fun d => d.seqs.length) this.2
    simp [h3, appendSym] at hsz

theorem linearLoop_sorted {d : IntDict} (hd : Sorted d) (ex : Option (List Int)) :
    ∀ (fuel : Nat) (seq : IntSeq) (out : List Int), (ex = none → Knows d.seqs seq) → seq.length ≤ fuel →
    ∃ ids, IntDict.linearLoop ex fuel d seq out = .ok (d, out ++ ids) ∧
      GreedyCover d.seqs (fun i => allowed ex i = true) seq ids := by
  intro fuel
  induction fuel with
  | zero =>
    intro seq out hk hl
    obtain rfl : seq = [] := List.length_eq_zero_iff.1 (by omega)
    exact ⟨[], by simp [IntDict.linearLoop], .nil⟩
  | succ fuel ih =>
    intro seq out hk hl
    cases seq with
    | nil => exact ⟨[], by simp [IntDict.linearLoop], .nil⟩
    | cons x xs =>
      rcases search_longest hd (xs := xs) ex (fun h => hk h x (by simp)) with
        ⟨n, w, hs, hw, hpre, hne, hlong⟩ | ⟨hs, _, hno⟩
      · have hlen : w.length ≤ (x :: xs).length := hpre.length_le
        have hpos : 0 < w.length := List.length_pos_iff.2 hne
        obtain ⟨ids, h1, h2⟩ := ih ((x :: xs).drop w.length) (out ++ [(n : Int)])
          (fun h y hy => hk h y (List.mem_of_mem_drop hy)) (by simp at hl ⊢; omega)
        have hsplit : w ++ (x :: xs).drop w.length = x :: xs := by
          obtain ⟨t, ht⟩ := hpre
          rw [← ht, List.drop_left]
        refine ⟨(n : Int) :: ids, ?_, ?_⟩
        · have hneg : ¬ ((n : Int) < 0) := by omega
          simp only [IntDict.linearLoop, hs, ok_bind, hneg, if_false, IntDict.get, rd_nat, hw, hlen, if_true]
          rw [h1]
          simp
        · have := GreedyCover.word (words := d.seqs) (ok := fun i => allowed ex i = true) (isWord_nat.2 hw)
            (by rw [hsplit]; exact hlong) h2
          rwa [hsplit] at this
      · obtain ⟨ids, h1, h2⟩ := ih xs out (fun h y hy => hk h y (by simp [hy])) (by simp at hl; omega)
        refine ⟨ids, ?_, .skip hno h2⟩
        simp only [IntDict.linearLoop, hs, ok_bind]
        simpa using h1

/-- With an exclude set, on any structurally sound dictionary. -/
theorem linearLoop_ex {d : IntDict} (hd : WF d) (e : List Int) : ∀ (fuel : Nat) (seq : IntSeq) (out : List Int),
    seq.length ≤ fuel →
    ∃ ids, IntDict.linearLoop (some e) fuel d seq out = .ok (d, out ++ ids) ∧
      SparseCover d.seqs (fun i => i ∉ e) seq ids := by
  intro fuel
  induction fuel with
  | zero =>
    intro seq out hl
    obtain rfl : seq = [] := List.length_eq_zero_iff.1 (by omega)
    exact ⟨[], by simp [IntDict.linearLoop], .nil⟩
  | succ fuel ih =>
    intro seq out hl
    cases seq with
    | nil => exact ⟨[], by simp [IntDict.linearLoop], .nil⟩
    | cons x xs =>
      obtain ⟨d', i, hs, ho⟩ := search_wf hd (x :: xs) (some e) (by simp)
      cases ho with
      | hit n w h1 h2 h3 hpre h5 =>
        subst h1 h2
        have hlen : w.length ≤ (x :: xs).length := hpre.length_le
        have hpos : 0 < w.length := List.length_pos_iff.2 (hd.nonempty w (List.mem_of_getElem? h3))
        obtain ⟨ids, h1, h2⟩ := ih ((x :: xs).drop w.length) (out ++ [(n : Int)]) (by simp at hl ⊢; omega)
        have hsplit : w ++ (x :: xs).drop w.length = x :: xs := by
          obtain ⟨t, ht⟩ := hpre
          rw [← ht, List.drop_left]
        refine ⟨(n : Int) :: ids, ?_, ?_⟩
        · have hneg : ¬ ((n : Int) < 0) := by omega
          simp only [IntDict.linearLoop, hs, ok_bind, hneg, if_false, IntDict.get, rd_nat, h3, hlen, if_true]
          rw [h1]
          simp
        · have hal : (n : Int) ∉ e := by simpa [allowed] using h5
          have := SparseCover.word (words := d'.seqs) (ok := fun i => i ∉ e) (isWord_nat.2 h3) hal h2
          rwa [hsplit] at this
      | miss h1 h2 h3 =>
        subst h2 h3
        obtain ⟨ids, h1, h2⟩ := ih xs out (by simp at hl; omega)
        refine ⟨ids, ?_, .skip h2⟩
        simp only [IntDict.linearLoop, hs, ok_bind]
        simpa using h1
      | grow y ys h1 => simp at h1

end VGram
