import Verif.Spec.Score
import Verif.Proofs.Linear

/-! # The frequency-weighted parse -/

namespace VGram

open Spec

variable {F : Type}

theorem symLogProb_eq (O : FloatOps F) (freqs : List Int) (total : Int) (size n : Nat) :
    symLogProb O freqs total size (n : Int) = wordScore O freqs total size (n : Int) := by
  unfold symLogProb wordScore
  rw [rd_nat, Int.toNat_natCast]
  cases freqs[n]? <;> rfl

theorem wordScore_isLp (O : FloatOps F) {freqs : List Int} {total : Int} {size : Nat} (n : Int)
    (hf : ∀ f ∈ freqs, 0 ≤ f) (ht : 0 ≤ total) (hs : 1 ≤ size) : IsLp O (wordScore O freqs total size n) := by
  refine ⟨total + size, by omega, ?_⟩
  unfold wordScore
  cases h : freqs[n.toNat]? with
  | none => exact Or.inl rfl
  | some f => exact Or.inr ⟨f, hf f (List.mem_of_getElem? h), rfl⟩

/-- Table invariant: filled cells have a back pointer to a filled cell. -/
structure Cells {O : FloatOps F} (L : ScoreLaws O) (d : IntDict) (seq : IntSeq) (t : DP F) : Prop where
  ls : t.score.length = seq.length + 1
  ly : t.symbols.length = seq.length + 1
  cell : ∀ (k : Nat) (x : F), t.score[k]? = some x → x = O.lowest ∨ L.Good x
  zero : ∃ x, t.score[0]? = some x ∧ L.Good x
  back : ∀ (k : Nat) (x : F), 0 < k → t.score[k]? = some x → L.Good x →
    ∃ (n : Nat) (w : IntSeq) (y : F), t.symbols[k]? = some (n : Int) ∧ d.seqs[n]? = some w ∧ w ≠ [] ∧ w.length ≤ k ∧
      w <+: seq.drop (k - w.length) ∧ t.score[k - w.length]? = some y ∧ L.Good y

/-- Filled cells stay filled. -/
def Filled {O : FloatOps F} (L : ScoreLaws O) (t : DP F) (k : Nat) : Prop := ∃ x, t.score[k]? = some x ∧ L.Good x

theorem relaxOne_eq (O : FloatOps F) {d : IntDict} (freqs : List Int) (total : Int) {pos n : Nat} {w : IntSeq} {t : DP F}
    {o b : F} (hw : d.seqs[n]? = some w) (ho : t.score[w.length + pos]? = some o) (hb : t.score[pos]? = some b)
    (hl : t.symbols.length = t.score.length) :
    relaxOne O d freqs total pos (n : Int) t =
      if O.lt o (O.add b (wordScore O freqs total d.size (n : Int))) = true then
        .ok ⟨t.score.set (w.length + pos) (O.add b (wordScore O freqs total d.size (n : Int))),
          t.symbols.set (w.length + pos) (n : Int)⟩
      else .ok t := by
  have h1 : w.length + pos < t.score.length := (List.getElem?_eq_some_iff.1 ho).1
  simp only [relaxOne, IntDict.get, rd_nat_ok.2 hw, ok_bind, rd_nat_ok.2 ho, rd_nat_ok.2 hb, symLogProb_eq]
  split
  · rw [wr_of_lt h1, wr_of_lt (by rw [hl]; exact h1)]
    rfl
  · rfl

theorem relaxOne_inv {O : FloatOps F} (L : ScoreLaws O) {d : IntDict} {freqs : List Int} {total : Int} {seq : IntSeq}
    {pos n : Nat} {w : IntSeq} {t : DP F} (hf : ∀ f ∈ freqs, 0 ≤ f) (ht : 0 ≤ total)
    (hw : d.seqs[n]? = some w) (hne : w ≠ []) (hpre : w <+: seq.drop pos) (inv : Cells L d seq t) :
    ∃ t', relaxOne O d freqs total pos (n : Int) t = .ok t' ∧ Cells L d seq t' ∧
      (∀ k, Filled L t k → Filled L t' k) ∧ (Filled L t pos → Filled L t' (pos + w.length)) := by
  have hlen := hpre.length_le
  rw [List.length_drop] at hlen
  have hwpos : 0 < w.length := List.length_pos_iff.2 hne
  have h1 : w.length + pos < t.score.length := by rw [inv.ls]; omega
  have h2 : pos < t.score.length := by omega
  obtain ⟨o, ho⟩ : ∃ o, t.score[w.length + pos]? = some o := ⟨_, List.getElem?_eq_getElem h1⟩
  obtain ⟨b, hb⟩ : ∃ b, t.score[pos]? = some b := ⟨_, List.getElem?_eq_getElem h2⟩
  have hsize : 1 ≤ d.size := by
    have := (List.getElem?_eq_some_iff.1 hw).1
    simp only [IntDict.size]; omega
  have hlp := wordScore_isLp O (n : Int) hf ht hsize
  rw [relaxOne_eq O freqs total hw ho hb (by rw [inv.ls, inv.ly])]
  generalize wordScore O freqs total d.size (n : Int) = lp at hlp
  rcases inv.cell pos b hb with hbl | hbg
  · subst hbl
    rw [L.dead o lp (inv.cell _ _ ho) hlp]
    refine ⟨t, rfl, inv, fun _ h => h, ?_⟩
    rintro ⟨x, hx, hg⟩
    rw [hb] at hx
    cases hx
    exact absurd hg L.notGood
  · by_cases hlt : O.lt o (O.add b lp) = true
    · rw [if_pos hlt]
      have hgood := L.step b lp hbg hlp
      have hget : ∀ k x, (t.score.set (w.length + pos) (O.add b lp))[k]? = some x →
          (k = w.length + pos ∧ x = O.add b lp) ∨ (k ≠ w.length + pos ∧ t.score[k]? = some x) := by
        intro k x hx
        by_cases hk : k = w.length + pos
        · subst hk
          rw [List.getElem?_set_self h1] at hx
          exact Or.inl ⟨rfl, (Option.some.inj hx).symm⟩
        · rw [List.getElem?_set_ne (Ne.symm hk)] at hx
          exact Or.inr ⟨hk, hx⟩
      have hkeep : ∀ k, Filled L t k → ∃ x, (t.score.set (w.length + pos) (O.add b lp))[k]? = some x ∧ L.Good x := by
        rintro k ⟨x, hx, hg⟩
        by_cases hk : k = w.length + pos
        · subst hk
          exact ⟨_, List.getElem?_set_self h1, hgood⟩
        · exact ⟨x, by rw [List.getElem?_set_ne (Ne.symm hk)]; exact hx, hg⟩
      refine ⟨_, rfl, ⟨by simp [inv.ls], by simp [inv.ly], ?_, hkeep 0 inv.zero, ?_⟩, hkeep, ?_⟩
      · intro k x hx
        rcases hget k x hx with ⟨_, rfl⟩ | ⟨_, hx⟩
        · exact Or.inr hgood
        · exact inv.cell k x hx
      · intro k x hk hx hg
        rcases hget k x hx with ⟨rfl, rfl⟩ | ⟨hkne, hx⟩
        · obtain ⟨y, hy, hyg⟩ := hkeep pos ⟨b, hb, hbg⟩
          refine ⟨n, w, y, ?_, hw, hne, by omega, ?_, ?_, hyg⟩
          · exact List.getElem?_set_self (by rw [inv.ly]; omega)
          · rwa [Nat.add_sub_cancel_left]
          · rwa [Nat.add_sub_cancel_left]
        · obtain ⟨m, v, y, e1, e2, e3, e4, e5, e6, e7⟩ := inv.back k x hk hx hg
          obtain ⟨y', hy', hyg'⟩ := hkeep _ ⟨y, e6, e7⟩
          refine ⟨m, v, y', ?_, e2, e3, e4, e5, hy', hyg'⟩
          rw [List.getElem?_set_ne (Ne.symm hkne)]
          exact e1
      · intro _
        rw [Nat.add_comm pos]
        exact ⟨_, List.getElem?_set_self h1, hgood⟩
    · rw [if_neg hlt]
      refine ⟨t, rfl, inv, fun _ h => h, fun _ => ?_⟩
      rcases inv.cell _ _ ho with hol | hog
      · subst hol
        exact absurd (L.above _ (L.step b lp hbg hlp)) hlt
      · exact ⟨o, by rw [Nat.add_comm]; exact ho, hog⟩

theorem relaxChain_inv {O : FloatOps F} (L : ScoreLaws O) {d : IntDict} (hd : WF d) {freqs : List Int} {total : Int}
    {seq : IntSeq} {pos : Nat} (hf : ∀ f ∈ freqs, 0 ≤ f) (ht : 0 ≤ total) :
    ∀ (n fuel : Nat) (w : IntSeq) (t : DP F), n < fuel → d.seqs[n]? = some w → w <+: seq.drop pos → Cells L d seq t →
    ∃ t', relaxChain O d freqs total pos fuel (n : Int) t = .ok t' ∧ Cells L d seq t' ∧
      (∀ k, Filled L t k → Filled L t' k) ∧ (Filled L t pos → ∃ k, pos < k ∧ Filled L t' k) := by
  intro n
  induction n using Nat.strong_induction_on with
  | _ n ih =>
    intro fuel w t hfu hw hpre inv
    obtain ⟨fuel, rfl⟩ : ∃ f, fuel = f + 1 := ⟨fuel - 1, by omega⟩
    have hne := hd.nonempty w (List.mem_of_getElem? hw)
    have hwpos : 0 < w.length := List.length_pos_iff.2 hne
    obtain ⟨t1, r1, i1, k1, f1⟩ := relaxOne_inv L (pos := pos) hf ht hw hne hpre inv
    have hn : n < d.seqs.length := (List.getElem?_eq_some_iff.1 hw).1
    obtain ⟨p, hp⟩ : ∃ p, d.parents[n]? = some p := ⟨_, List.getElem?_eq_getElem (by rw [hd.len]; exact hn)⟩
    simp only [relaxChain, r1, ok_bind, IntDict.parent, rd_nat_ok.2 hp]
    rcases hd.par n p hp with rfl | ⟨j, hj, rfl, hpar⟩
    · simp only [show ¬ (0 : Int) ≤ -1 by omega, if_false, pure_M]
      exact ⟨t1, rfl, i1, k1, fun h => ⟨_, by omega, f1 h⟩⟩
    · simp only [show (0 : Int) ≤ (j : Int) by omega, if_true]
      obtain ⟨v, hv, hvw⟩ := hpar w hw
      obtain ⟨t2, r2, i2, k2, f2⟩ := ih j hj fuel v t1 (by omega) hv (hvw.trans hpre) i1
      exact ⟨t2, r2, i2, fun k h => k2 k (k1 k h), fun h => f2 (k1 pos h)⟩

theorem Cells.mono {O : FloatOps F} {L : ScoreLaws O} {d d' : IntDict} {seq s : IntSeq} {t : DP F} (h : Cells L d seq t)
    (hg : Grow d d' s) : Cells L d' seq t := by
  refine ⟨h.ls, h.ly, h.cell, h.zero, ?_⟩
  intro k x hk hx hgd
  obtain ⟨n, w, y, e1, e2, e3⟩ := h.back k x hk hx hgd
  exact ⟨n, w, y, e1, isWord_nat.1 (hg.isWord (isWord_nat.2 e2)), e3⟩

theorem forward_inv {O : FloatOps F} (L : ScoreLaws O) {freqs : List Int} {total : Int} {seq : IntSeq}
    (hf : ∀ f ∈ freqs, 0 ≤ f) (ht : 0 ≤ total) :
    ∀ (rest : IntSeq) (pos : Nat) (d : IntDict) (t : DP F), seq.drop pos = rest → pos + rest.length = seq.length →
      WF d → Cells L d seq t → (∃ k, pos ≤ k ∧ Filled L t k) →
    ∃ d' t', IntDict.forward O freqs total none pos rest d t = .ok (d', t') ∧ WF d' ∧ Grow d d' rest ∧
      Cells L d' seq t' ∧ (∃ k, seq.length ≤ k ∧ Filled L t' k) := by
  intro rest
  induction rest with
  | nil =>
    intro pos d t hdrop hlen hd inv hreach
    refine ⟨d, t, rfl, hd, Grow.refl _ _, inv, ?_⟩
    simpa [← hlen] using hreach
  | cons x xs ih =>
    intro pos d t hdrop hlen hd inv hreach
    obtain ⟨d', i, hs, ho⟩ := search_wf hd (x :: xs) none (by simp)
    obtain ⟨n, w, rfl, hw, hpre, hne⟩ := outcome_none hd ho
    have hd' := outcome_wf hd ho
    have hg := outcome_grow ho
    have hn : n < d'.seqs.length := (List.getElem?_eq_some_iff.1 hw).1
    obtain ⟨t1, r1, i1, k1, f1⟩ := relaxChain_inv L hd' (pos := pos) hf ht n (d'.size + 1) w t
      (by simp only [IntDict.size]; omega) hw (by rw [hdrop]; exact hpre) (inv.mono hg)
    have hreach' : ∃ k, pos + 1 ≤ k ∧ Filled L t1 k := by
      obtain ⟨k, hk, hfk⟩ := hreach
      rcases Nat.lt_or_eq_of_le hk with h | rfl
      · exact ⟨k, h, k1 k hfk⟩
      · exact f1 hfk
    have hdrop' : seq.drop (pos + 1) = xs := by
      have := congrArg List.tail hdrop
      simpa using this
    obtain ⟨d2, t2, r2, w2, g2, c2, z2⟩ := ih (pos + 1) d' t1 hdrop'
      (by simp at hlen; omega) hd' i1 hreach'
    refine ⟨d2, t2, ?_, w2, hg.trans (g2.weaken (by simp +contextual)), c2, z2⟩
    simp only [IntDict.forward, hs, ok_bind, show ¬ ((n : Int) < 0) by omega, if_false, r1, r2]

theorem start_cells {O : FloatOps F} (L : ScoreLaws O) (d : IntDict) (seq : IntSeq) :
    Cells L d seq (DP.start O seq.length) := by
  have hk : ∀ k x, 0 < k → (DP.start O seq.length).score[k]? = some x → x = O.lowest := by
    intro k x hk hx
    obtain ⟨k, rfl⟩ : ∃ j, k = j + 1 := ⟨k - 1, by omega⟩
    simp only [DP.start, List.getElem?_cons_succ] at hx
    exact List.eq_of_mem_replicate (List.mem_of_getElem? hx)
  refine ⟨by simp [DP.start], by simp [DP.start], ?_, ⟨_, rfl, L.zero⟩, ?_⟩
  · intro k x hx
    rcases Nat.eq_zero_or_pos k with rfl | hpos
    · right
      have : O.ofInt 0 = x := by simpa [DP.start] using hx
      exact this ▸ L.zero
    · exact Or.inl (hk k x hpos hx)
  · intro k x hpos hx hg
    exact absurd (hk k x hpos hx ▸ hg) L.notGood

theorem backtrack_spec {O : FloatOps F} (L : ScoreLaws O) {d : IntDict} {seq : IntSeq} {t : DP F} (inv : Cells L d seq t) :
    ∀ (k fuel : Nat) (acc : List Int), k ≤ fuel → k ≤ seq.length → Filled L t k →
      ∃ ids, d.backtrack t.symbols fuel k acc = .ok (ids ++ acc) ∧ Spells d.seqs ids (seq.take k) := by
  intro k
  induction k using Nat.strong_induction_on with
  | _ k ih =>
    intro fuel acc hf hk hfill
    cases k with
    | zero => exact ⟨[], by simp [IntDict.backtrack], by simpa using Spells.nil _⟩
    | succ k =>
      obtain ⟨fuel, rfl⟩ : ∃ f, fuel = f + 1 := ⟨fuel - 1, by omega⟩
      obtain ⟨x, hx, hg⟩ := hfill
      obtain ⟨n, w, y, e1, e2, e3, e4, e5, e6, e7⟩ := inv.back (k + 1) x (by omega) hx hg
      have hwpos : 0 < w.length := List.length_pos_iff.2 e3
      obtain ⟨ids, h1, h2⟩ := ih (k + 1 - w.length) (by omega) fuel ((n : Int) :: acc) (by omega) (by omega) ⟨y, e6, e7⟩
      refine ⟨ids ++ [(n : Int)], ?_, ?_⟩
      · simp only [IntDict.backtrack, rd_nat_ok.2 e1, ok_bind, IntDict.get, rd_nat_ok.2 e2, e4, if_true, h1]
        simp
      · have hsp := h2.append ((Spells.nil d.seqs).cons (isWord_nat.2 e2))
        have htake : seq.take (k + 1) = seq.take (k + 1 - w.length) ++ (w ++ []) := by
          obtain ⟨r, hr⟩ := e5
          have hsplit : seq = seq.take (k + 1 - w.length) ++ (w ++ r) := by
            rw [hr, List.take_append_drop]
          conv_lhs => rw [hsplit]
          rw [List.take_append, List.take_of_length_le (by simp), List.length_take,
            Nat.min_eq_left (by omega), show k + 1 - (k + 1 - w.length) = w.length by omega, List.take_left]
          simp
        rw [htake]
        exact hsp

/-- Losslessness, termination and memory safety of the weighted parse. -/
theorem weightedParse_spec {O : FloatOps F} (L : ScoreLaws O) {d : IntDict} (hd : WF d) (seq : IntSeq)
    {freqs : List Int} {total : Int} (hf : ∀ f ∈ freqs, 0 ≤ f) (ht : 0 ≤ total) :
    ∃ d' ids sc, d.weightedParse O seq freqs total = .ok (d', ids, sc) ∧ WF d' ∧ Grow d d' seq ∧
      Spells d'.seqs ids seq := by
  obtain ⟨d', t', r, hw, hg, hc, k, hk, hfill⟩ := forward_inv L hf ht seq 0 d (DP.start O seq.length) (by simp)
    (by simp) hd (start_cells L d seq) ⟨0, le_refl _, (start_cells L d seq).zero⟩
  have hkl : k < t'.score.length := by
    obtain ⟨x, hx, _⟩ := hfill
    exact (List.getElem?_eq_some_iff.1 hx).1
  rw [hc.ls] at hkl
  obtain rfl : k = seq.length := by omega
  obtain ⟨ids, hb, hs⟩ := backtrack_spec L hc seq.length seq.length [] (le_refl _) (le_refl _) hfill
  rw [List.take_length] at hs
  obtain ⟨x, hx, _⟩ := hfill
  refine ⟨d', ids, x, ?_, hw, hg, hs⟩
  simp only [IntDict.weightedParse, r, ok_bind, hb, rd_nat_ok.2 hx, pure_M, List.append_nil]

theorem parse_spec {O : FloatOps F} (L : ScoreLaws O) {d : IntDict} (hd : WF d) (seq : IntSeq)
    {freqs : List Int} {total : Int} (out : List Int) (hf : ∀ f ∈ freqs, 0 ≤ f) (ht : 0 ≤ total) :
    ∃ d' ids, d.parse O seq freqs total out = .ok (d', out ++ ids, ((out ++ ids).length : Int)) ∧ WF d' ∧
      Grow d d' seq ∧ Spells d'.seqs ids seq := by
  obtain ⟨d', ids, sc, h1, h2, h3, h4⟩ := weightedParse_spec L hd seq hf ht
  exact ⟨d', ids, by simp [IntDict.parse, h1], h2, h3, h4⟩

end VGram
