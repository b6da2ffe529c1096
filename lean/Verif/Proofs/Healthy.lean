import Verif.Proofs.StatParse
import Verif.Proofs.Fits

/-! # States of an admissible training run -/

namespace VGram

open Spec

variable {F : Type}

/-- Invariant of the working dictionary during admissible training. -/
structure Healthy (s : StatDict F) : Prop where
  inv : SInv s
  sorted : Sorted s.dict
  closed : Closed s.dict.seqs
  full : s.symbolFreqs.length = s.dict.seqs.length
  pkey : ∀ e ∈ s.pairs, (0 ≤ e.1.1 ∧ e.1.1 < (s.dict.seqs.length : Int)) ∧ (0 ≤ e.1.2 ∧ e.1.2 < (s.dict.seqs.length : Int))
  ppos : ∀ e ∈ s.pairs, 0 < e.2
  pnodup : (s.pairs.map (·.1)).Nodup
  sum : s.power = sumI s.symbolFreqs
  chars : s.totalChars = charSum s

theorem Sorted.nodup {d : IntDict} (h : Sorted d) : d.seqs.Nodup := h.sorted.imp ne_of_lt

theorem index_unique {l : List IntSeq} (h : l.Nodup) {i j : Nat} {w : IntSeq} (hi : l[i]? = some w) (hj : l[j]? = some w) :
    i = j := by
  obtain ⟨h1, rfl⟩ := List.getElem?_eq_some_iff.1 hi
  obtain ⟨h2, e⟩ := List.getElem?_eq_some_iff.1 hj
  exact ((List.nodup_iff_injective_getElem.1 h (a₁ := ⟨j, h2⟩) (a₂ := ⟨i, h1⟩) e |> Fin.mk.inj_iff.1)).symm

/-- A symbol of a spelled sequence occurs in the word of one of the ids. -/
theorem Spec.Spells.mem {words : List IntSeq} {ids : List Int} {seq : IntSeq} (h : Spells words ids seq) {x : Int}
    (hx : x ∈ seq) : ∃ (n : Nat) (w : IntSeq), (n : Int) ∈ ids ∧ words[n]? = some w ∧ x ∈ w := by
  obtain ⟨ws, h1, rfl⟩ := h
  induction h1 with
  | nil => simp at hx
  | @cons i w is ws a _ ih =>
    rw [List.flatten_cons, List.mem_append] at hx
    rcases hx with hx | hx
    · obtain ⟨n, rfl, hn⟩ := a.exists_nat
      exact ⟨n, w, by simp, hn, hx⟩
    · obtain ⟨n, w', m1, m2, m3⟩ := ih hx
      exact ⟨n, w', by simp [m1], m2, m3⟩

/-- Appending symbols keeps a dictionary sorted with the right parents as long as its words are strictly sorted. -/
theorem Grow.sorted {d d' : IntDict} {seq : IntSeq} (hg : Grow d d' seq) (hd : Sorted d) (h : d'.seqs.Pairwise (· < ·)) :
    Sorted d' := by
  obtain ⟨a, h1, h2, _⟩ := hg
  refine ⟨by rw [h1, h2, List.length_append, List.length_append, hd.len]; simp, h, ?_, ?_⟩
  · intro w hw
    rw [h1] at hw
    rcases List.mem_append.1 hw with hw | hw
    · exact hd.nonempty w hw
    · obtain ⟨x, _, rfl⟩ := List.mem_map.1 hw
      simp
  · intro i p hp w hw
    rw [h2] at hp
    by_cases hi : i < d.seqs.length
    · rw [List.getElem?_append_left (by rw [hd.len]; exact hi)] at hp
      have hold : ∀ j, j < d.seqs.length → d'.seqs[j]? = d.seqs[j]? := fun j hj => by rw [h1, List.getElem?_append_left hj]
      rw [hold i hi] at hw
      rcases hd.par i p hp w hw with ⟨e, h⟩ | ⟨j, hj, e, ⟨v, hv, hpre⟩, h⟩
      · exact Or.inl ⟨e, fun j hj v hv => h j hj v (by rw [← hold j (by omega)]; exact hv)⟩
      · exact Or.inr ⟨j, hj, e, ⟨v, by rw [hold j (by omega)]; exact hv, hpre⟩,
          fun k hk hk' v hv => h k hk hk' v (by rw [← hold k (by omega)]; exact hv)⟩
    · left
      rw [List.getElem?_append_right (by rw [hd.len]; omega), List.getElem?_replicate] at hp
      split at hp
      · refine ⟨(Option.some.inj hp).symm, ?_⟩
        intro j hj v hv hpre
        rw [h1, List.getElem?_append_right (by omega), List.getElem?_map] at hw
        obtain ⟨x, hx, rfl⟩ := Option.map_eq_some_iff.1 hw
        have hvne : v ≠ [] := by
          have hm := List.mem_of_getElem? hv
          rw [h1] at hm
          rcases List.mem_append.1 hm with hm | hm
          · exact hd.nonempty v hm
          · obtain ⟨y, _, rfl⟩ := List.mem_map.1 hm
            simp
        have hveq : v = [x] := by
          have hl := hpre.length_le
          have := List.length_pos_iff.2 hvne
          exact hpre.eq_of_length (by simp at hl ⊢; omega)
        have hw' : d'.seqs[i]? = some [x] := by
          rw [h1, List.getElem?_append_right (by omega), List.getElem?_map, hx]; rfl
        have := index_unique (h.imp ne_of_lt) (hveq ▸ hv) hw'
        omega
      · cases hp

/-- Every appended symbol is emitted, so the frequency vector covers the dictionary. -/
theorem full_of_spells {d d' : IntDict} {seq : IntSeq} {ids : List Int} {L : Nat} (hg : Grow d d' seq) (hs : Sorted d')
    (hc : Closed d.seqs) (hsp : Spells d'.seqs ids seq) (hids : ∀ i ∈ ids, i < (L : Int)) (hL : d.seqs.length ≤ L) :
    d'.seqs.length ≤ L := by
  obtain ⟨a, h1, _, h3⟩ := hg
  rcases List.eq_nil_or_concat a with rfl | ⟨b, x, rfl⟩
  · simpa [h1] using hL
  · have hlast : d'.seqs[d.seqs.length + b.length]? = some [x] := by
      rw [h1, List.getElem?_append_right (by omega)]
      simp
    have hlen : d'.seqs.length = d.seqs.length + b.length + 1 := by rw [h1]; simp; omega
    obtain ⟨n, w, m1, m2, m3⟩ := hsp.mem (h3 x (by simp))
    have hn : n = d.seqs.length + b.length := by
      by_cases hnd : n < d.seqs.length
      · exfalso
        have hw : d.seqs[n]? = some w := by rw [h1, List.getElem?_append_left hnd] at m2; exact m2
        have := hc w (List.mem_of_getElem? hw) x m3
        obtain ⟨m, hm, hm'⟩ := List.getElem_of_mem this
        have hmx : d'.seqs[m]? = some [x] := by rw [h1, List.getElem?_append_left hm, List.getElem?_eq_getElem hm, hm']
        have := index_unique hs.nodup hmx hlast
        omega
      · rw [h1, List.getElem?_append_right (by omega)] at m2
        have : ∃ y, w = [y] := by
          have := List.mem_of_getElem? m2
          simp only [List.mem_map] at this
          obtain ⟨y, _, rfl⟩ := this
          exact ⟨y, rfl⟩
        obtain ⟨y, rfl⟩ := this
        simp only [List.mem_singleton] at m3
        subst m3
        refine index_unique hs.nodup ?_ hlast
        rw [h1, List.getElem?_append_right (by omega)]
        exact m2
    have := hids _ m1
    omega

/-- `parse` of symbols that are known or arrive above the known ones. -/
theorem Healthy.parse {O : FloatOps F} (L : ScoreLaws O) {s : StatDict F} (h : Healthy s) {seq : IntSeq} {words : List IntSeq}
    (hfit : Fits s.dict.seqs seq words) :
    ∃ s' ids, s.parse O seq [] = .ok (s', ids, (ids.length : Int)) ∧ Healthy s' ∧ s'.dict.seqs = words ∧
      Spells words ids seq ∧ s'.minProb = s.minProb ∧ s'.power = s.power + (ids.length : Int) ∧
      (∀ k ∈ s'.pairs.map (·.1), k ∈ s.pairs.map (·.1) ∨ k ∈ adj ids) ∧
      (∀ i : Nat, s'.freq (i : Int) = s.freq (i : Int) + (ids.count (i : Int) : Int)) := by
  obtain ⟨s', ids, p, i1, g, sp, c1, c2, c3, c4, c5, c6, c7, c8, c9, c10, c11, c12, c13, c14⟩ :=
    statParse_spec L h.inv seq [] (by simp)
  simp only [List.nil_append] at *
  have hd : Sorted s'.dict ∧ s'.dict.seqs = words := by
    simp only [StatDict.parse, IntDict.parse, IntDict.weightedParse] at p
    obtain ⟨⟨d1, o1, n1⟩, h1, p⟩ := bind_ok.1 p
    obtain ⟨⟨d2, o2, n2⟩, h2, h1⟩ := bind_ok.1 h1
    obtain ⟨⟨d3, t3⟩, h3, h2⟩ := bind_ok.1 h2
    obtain ⟨o, _, h2⟩ := bind_ok.1 h2
    obtain ⟨sc, _, h2⟩ := bind_ok.1 h2
    obtain ⟨s2, ht, p⟩ := bind_ok.1 p
    cases h2; cases h1
    have hs2 : s2.dict = d3 := by
      have : s2 = s' := by injection p with p; exact (Prod.mk.inj p).1
      have hpos : ∀ i ∈ ([] ++ o2 : List Int), 0 ≤ i := by
        have he : [] ++ o2 = ids := by injection p with p; exact (Prod.mk.inj (Prod.mk.inj p).2).1
        rw [he]
        exact fun i hi => (sp.range i hi).1
      obtain ⟨_, _, _, ht', _⟩ := tally_spec ([] ++ o2) { s with dict := d3, totalChars := s.totalChars + (seq.length : Int) }
        (-1) h.inv.len hpos
      rw [ht] at ht'
      injection ht' with ht'
      rw [ht']
    have : s2 = s' := by injection p with p; exact (Prod.mk.inj p).1
    rw [← this, hs2]
    exact forward_fits hfit h.sorted rfl h3
  have hfull : s'.symbolFreqs.length = s'.dict.seqs.length := by
    have h1 := i1.size
    have h2 := full_of_spells g hd.1 h.closed sp c14 (by rw [← h.full]; exact c13)
    omega
  have hgl := g.length
  refine ⟨s', ids, p, ⟨i1, hd.1, hd.2 ▸ hfit.closed h.closed, hfull, ?_, c11 h.ppos, c10 h.pnodup, ?_, ?_⟩, hd.2,
    hd.2 ▸ sp, c7, c3, c12, ?_⟩
  · intro e he
    rcases c12 e.1 (List.mem_map_of_mem he) with hk | hk
    · obtain ⟨e', he', heq⟩ := List.mem_map.1 hk
      have := h.pkey e' he'
      rw [heq] at this
      omega
    · have h1 := List.of_mem_zip (show (e.1.1, e.1.2) ∈ ids.zip ids.tail from hk)
      have h2 := sp.range _ h1.1
      have h3 := sp.range _ (List.mem_of_mem_tail h1.2)
      exact ⟨h2, h3⟩
  · rw [c3, c4, h.sum]
  · rw [c5, c6 trivial, h.chars]
  · intro i
    rw [freq_nat, freq_nat, c1]

/-- Construction from duplicate-free, closed words. -/
theorem Healthy.ofSeqs {words : List IntSeq} (hnd : words.Nodup) (hne : ∀ w ∈ words, w ≠ []) (hc : Closed words) (mp : F)
    (fr : Option (List Int)) (hf : ∀ l, fr = some l → ∀ f ∈ l, 0 ≤ f) :
    ∃ s, StatDict.ofSeqs words mp fr = .ok s ∧ Healthy s ∧ s.dict.seqs = sortSeqs words ∧ s.minProb = mp ∧ s.power = 0 ∧
      s.pairs = [] := by
  obtain ⟨s, h1, h2, h3, h4, h5, h6, h7, h8, h9, h10⟩ := ofSeqs_spec hne mp fr hf
  obtain ⟨d, k1, k2, k3⟩ := init_sorted hnd hne
  rw [h3] at k1
  cases k1
  have hperm := sortSeqs_perm words
  refine ⟨s, h1, ⟨h2, k3, ?_, ?_, ?_, ?_, ?_, ?_, ?_⟩, h4, h8, h6, h7⟩
  · rw [h4]
    intro w hw x hx
    exact hperm.mem_iff.2 (hc w (hperm.mem_iff.1 hw) x hx)
  · rw [h5, h4, sortSeqs_length]; simp
  · simp [h7]
  · simp [h7]
  · simp [h7]
  · rw [h6, h5, sumI_replicate]
  · rw [h9]
    unfold charSum
    symm
    apply Finset.sum_eq_zero
    intro i _
    rw [h5, fq, List.getElem?_replicate]
    split <;> simp

theorem Healthy.new (mp : F) : Healthy (StatDict.new mp) :=
  ⟨new_sinv mp, empty_sorted, by simp [StatDict.new, IntDict.empty, Closed], rfl, by simp [StatDict.new],
    by simp [StatDict.new], by simp [StatDict.new], by simp [StatDict.new, sumI], by simp [StatDict.new, charSum, IntDict.empty]⟩

end VGram
