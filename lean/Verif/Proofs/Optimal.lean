import Verif.Proofs.Weighted

/-! # Optimality of the weighted parse -/

namespace VGram

open Spec

variable {F : Type}

/-- Score of cell `k`. -/
def DP.S (O : FloatOps F) (t : DP F) (k : Nat) : F := (t.score[k]?).getD O.lowest

/-- `x ≤ y` as the code sees it. -/
def Le (O : FloatOps F) (x y : F) : Prop := O.lt y x = false

theorem DP.S_eq {O : FloatOps F} {t : DP F} {k : Nat} {x : F} (h : t.score[k]? = some x) : t.S O k = x := by
  simp [DP.S, h]

theorem DP.get_S {O : FloatOps F} {t : DP F} {k : Nat} (h : k < t.score.length) : t.score[k]? = some (t.S O k) := by
  simp [DP.S, List.getElem?_eq_getElem h]

/-- Invariant when the positions below `pos` have been processed (and possibly `pos` itself, up to `lim`). -/
structure Opt {O : FloatOps F} (L : ScoreLaws O) (OL : OrderLaws O) (d : IntDict) (lp : Int → F) (lim : Nat) (t : DP F) :
    Prop where
  ly : t.symbols.length = t.score.length
  ok : ∀ k, k < t.score.length → OL.Ok (t.S O k)
  zero : t.S O 0 = O.ofInt 0
  path : ∀ k, 0 < k → k < t.score.length → L.Good (t.S O k) → ∀ (n : Nat) (w : IntSeq), t.symbols[k]? = some (n : Int) →
    d.seqs[n]? = some w → k - w.length < lim ∧ t.S O k = O.add (t.S O (k - w.length)) (lp (n : Int))

/-- What one step at `pos` does. -/
structure Step {O : FloatOps F} (OL : OrderLaws O) (pos : Nat) (t t' : DP F) : Prop where
  len : t'.score.length = t.score.length
  up : ∀ k, k < t.score.length → Le O (t.S O k) (t'.S O k)
  frozen : ∀ k, k ≤ pos → t'.S O k = t.S O k

theorem Spec.OrderLaws.refl {O : FloatOps F} (OL : OrderLaws O) {x : F} (h : OL.Ok x) : Le O x x := by
  unfold Le
  cases h' : O.lt x x with
  | false => rfl
  | true => exact (h' ▸ OL.asymm x x h h h')

theorem relaxOne_opt {O : FloatOps F} {L : ScoreLaws O} {OL : OrderLaws O} {d : IntDict} {freqs : List Int} {total : Int}
    {pos n : Nat} {w : IntSeq} {t t' : DP F} (hf : ∀ f ∈ freqs, 0 ≤ f) (ht : 0 ≤ total)
    (hw : d.seqs[n]? = some w) (hne : w ≠ []) (hlen : w.length + pos < t.score.length)
    (inv : Opt L OL d (wordScore O freqs total d.size) (pos + 1) t)
    (hr : relaxOne O d freqs total pos (n : Int) t = .ok t') :
    Opt L OL d (wordScore O freqs total d.size) (pos + 1) t' ∧ Step OL pos t t' ∧
      Le O (O.add (t.S O pos) (wordScore O freqs total d.size (n : Int))) (t'.S O (w.length + pos)) := by
  have hwpos : 0 < w.length := List.length_pos_iff.2 hne
  have hp : pos < t.score.length := by omega
  have hsize : 1 ≤ d.size := by
    have := (List.getElem?_eq_some_iff.1 hw).1
    simp only [IntDict.size]; omega
  have hlp := wordScore_isLp O (n : Int) hf ht hsize
  rw [relaxOne_eq O freqs total hw (DP.get_S (O := O) hlen) (DP.get_S (O := O) hp) inv.ly] at hr
  generalize hlpe : wordScore O freqs total d.size (n : Int) = lp at hlp hr ⊢
  have hcok := OL.step _ _ (inv.ok pos hp) hlp
  by_cases hlt : O.lt (t.S O (w.length + pos)) (O.add (t.S O pos) lp) = true
  · rw [if_pos hlt] at hr
    cases hr
    have hS : ∀ k, k ≠ w.length + pos → DP.S O ⟨t.score.set (w.length + pos) (O.add (t.S O pos) lp),
        t.symbols.set (w.length + pos) (n : Int)⟩ k = t.S O k := by
      intro k hk
      simp [DP.S, List.getElem?_set_ne (Ne.symm hk)]
    have hS' : DP.S O ⟨t.score.set (w.length + pos) (O.add (t.S O pos) lp),
        t.symbols.set (w.length + pos) (n : Int)⟩ (w.length + pos) = O.add (t.S O pos) lp := by
      simp [DP.S, hlen]
    generalize ht' : (⟨t.score.set (w.length + pos) (O.add (t.S O pos) lp),
        t.symbols.set (w.length + pos) (n : Int)⟩ : DP F) = t' at hS hS'
    have hl' : t'.score.length = t.score.length := by simp [← ht']
    refine ⟨⟨by simp [← ht', inv.ly], ?_, ?_, ?_⟩, ⟨hl', ?_, ?_⟩, ?_⟩
    · intro k hk
      by_cases h : k = w.length + pos
      · rw [h, hS']; exact hcok
      · rw [hS k h]; exact inv.ok k (hl' ▸ hk)
    · rw [hS 0 (by omega)]; exact inv.zero
    · intro k hk0 hk hg m v hm hv
      by_cases h : k = w.length + pos
      · subst h
        have : (n : Int) = (m : Int) := by
          rw [← ht', List.getElem?_set_self (by rw [inv.ly]; exact hlen)] at hm
          exact Option.some.inj hm
        obtain rfl : n = m := Int.ofNat.inj this
        obtain rfl : w = v := Option.some.inj (hw.symm.trans hv)
        refine ⟨by omega, ?_⟩
        rw [Nat.add_sub_cancel_left, hS', hS pos (by omega), hlpe]
      · rw [hS k h] at hg
        rw [← ht', List.getElem?_set_ne (Ne.symm h)] at hm
        obtain ⟨a, b⟩ := inv.path k hk0 (hl' ▸ hk) hg m v hm hv
        refine ⟨a, ?_⟩
        rw [hS k h, hS _ (by omega)]
        exact b
    · intro k hk
      by_cases h : k = w.length + pos
      · rw [h, hS']; exact OL.asymm _ _ (inv.ok _ hlen) hcok hlt
      · rw [hS k h]; exact OL.refl (inv.ok k hk)
    · intro k hk
      exact hS k (by omega)
    · rw [hS']; exact OL.refl hcok
  · rw [if_neg hlt] at hr
    cases hr
    exact ⟨inv, ⟨rfl, fun k hk => OL.refl (inv.ok k hk), fun _ _ => rfl⟩, by simpa [Le] using hlt⟩

theorem Step.trans {O : FloatOps F} {L : ScoreLaws O} {OL : OrderLaws O} {d : IntDict} {lp : Int → F} {pos m : Nat}
    {a b c : DP F} (ia : Opt L OL d lp m a)
    (ib : Opt L OL d lp m b) (ic : Opt L OL d lp m c) (h : Step OL pos a b) (h' : Step OL pos b c) : Step OL pos a c := by
  refine ⟨h'.len.trans h.len, ?_, fun k hk => (h'.frozen k hk).trans (h.frozen k hk)⟩
  intro k hk
  have hb : k < b.score.length := h.len ▸ hk
  exact OL.leTrans _ _ _ (ia.ok k hk) (ib.ok k hb) (ic.ok k (h'.len ▸ hb)) (h.up k hk) (h'.up k hb)

theorem relaxChain_opt {O : FloatOps F} {L : ScoreLaws O} {OL : OrderLaws O} {d : IntDict} (hd : Sorted d)
    {freqs : List Int} {total : Int} {pos : Nat} (hf : ∀ f ∈ freqs, 0 ≤ f) (ht : 0 ≤ total) :
    ∀ (n fuel : Nat) (w : IntSeq) (t t' : DP F), d.seqs[n]? = some w → w.length + pos < t.score.length →
      Opt L OL d (wordScore O freqs total d.size) (pos + 1) t → relaxChain O d freqs total pos fuel (n : Int) t = .ok t' →
    Opt L OL d (wordScore O freqs total d.size) (pos + 1) t' ∧ Step OL pos t t' ∧
      ∀ (k : Nat) (v : IntSeq), k ≤ n → d.seqs[k]? = some v → v <+: w →
        Le O (O.add (t.S O pos) (wordScore O freqs total d.size (k : Int))) (t'.S O (v.length + pos)) := by
  intro n
  induction n using Nat.strong_induction_on with
  | _ n ih =>
    intro fuel w t t' hw hlen inv hr
    cases fuel with
    | zero => simp [relaxChain] at hr
    | succ fuel =>
    simp only [relaxChain] at hr
    obtain ⟨t1, r1, hr⟩ := bind_ok.1 hr
    obtain ⟨p, hp, hr⟩ := bind_ok.1 hr
    have hp' : d.parents[n]? = some p := rd_nat_ok.1 hp
    obtain ⟨i1, s1, b1⟩ := relaxOne_opt hf ht hw (hd.nonempty w (List.mem_of_getElem? hw)) hlen inv r1
    have hsize : ∀ k : Nat, ∀ v, d.seqs[k]? = some v → 1 ≤ d.size := by
      intro k v hv
      have := (List.getElem?_eq_some_iff.1 hv).1
      simp only [IntDict.size]; omega
    have hpos : pos < t.score.length := by omega
    rcases hd.par n p hp' w hw with ⟨rfl, hno⟩ | ⟨j, hj, rfl, ⟨u, hu, huw⟩, hno⟩
    · simp only [show ¬ (0 : Int) ≤ -1 by omega, if_false, pure_M] at hr
      cases hr
      refine ⟨i1, s1, ?_⟩
      intro k v hk hv hvw
      rcases Nat.lt_or_eq_of_le hk with h | rfl
      · exact absurd hvw (hno k h v hv)
      · obtain rfl : w = v := Option.some.inj (hw.symm.trans hv)
        exact b1
    · simp only [show (0 : Int) ≤ (j : Int) by omega, if_true] at hr
      have hul := huw.length_le
      obtain ⟨i2, s2, b2⟩ := ih j hj fuel u t1 t' hu (by rw [s1.len]; omega) i1 hr
      refine ⟨i2, Step.trans inv i1 i2 s1 s2, ?_⟩
      intro k v hk hv hvw
      have hvl := hvw.length_le
      rcases Nat.lt_or_eq_of_le hk with h | rfl
      · have hkj : k ≤ j := by
          by_contra hc
          exact hno k (by omega) h v hv hvw
        have hvu : v <+: u := prefix_of_between hvw (sorted_le hd.le hkj hv hu) (prefix_le huw)
        have := b2 k v hkj hv hvu
        rwa [s1.frozen pos (le_refl _)] at this
      · obtain rfl : w = v := Option.some.inj (hw.symm.trans hv)
        have h1 : w.length + pos < t1.score.length := by rw [s1.len]; exact hlen
        exact OL.leTrans _ _ _ (OL.step _ _ (inv.ok pos hpos) (wordScore_isLp O _ hf ht (hsize _ _ hw)))
          (i1.ok _ h1) (i2.ok _ (by rw [s2.len]; exact h1)) b1 (s2.up _ h1)

/-- The table dominates every parse whose last word starts before `lim`. -/
def Best (O : FloatOps F) (words : List IntSeq) (freqs : List Int) (total : Int) (seq : IntSeq) (lim : Nat) (t : DP F) :
    Prop :=
  ∀ (pos n : Nat) (w : IntSeq) (ids : List Int), pos < lim → words[n]? = some w → w <+: seq.drop pos →
    Spells words ids (seq.take pos) →
      Le O (parseScore O freqs total words.length (ids ++ [(n : Int)])) (t.S O (w.length + pos))

theorem parseScore_snoc (O : FloatOps F) (freqs : List Int) (total : Int) (size : Nat) (ids : List Int) (i : Int) :
    parseScore O freqs total size (ids ++ [i]) =
      O.add (parseScore O freqs total size ids) (wordScore O freqs total size i) := by
  simp [parseScore]

theorem Spec.Spells.eq_nil {words : List IntSeq} (hne : ∀ w ∈ words, w ≠ []) {ids : List Int} (h : Spells words ids []) :
    ids = [] := by
  obtain ⟨ws, h1, h2⟩ := h
  cases h1 with
  | nil => rfl
  | cons ha hb =>
    exfalso
    simp at h2
    exact hne _ (List.mem_of_getElem? ha.2) h2.1

theorem Spec.Spells.snoc_inv {words : List IntSeq} {ids : List Int} {s : IntSeq} (h : Spells words ids s) (hs : s ≠ []) :
    ∃ ids' n w s', ids = ids' ++ [((n : Nat) : Int)] ∧ words[n]? = some w ∧ s = s' ++ w ∧ Spells words ids' s' := by
  obtain ⟨ws, h1, h2⟩ := h
  induction h1 generalizing s with
  | nil => exact absurd h2.symm hs
  | @cons i w is ws ha hb ih =>
    by_cases hr : ws.flatten = []
    · cases hb with
      | nil =>
        obtain ⟨n, rfl, hn⟩ := ha.exists_nat
        exact ⟨[], n, w, [], rfl, hn, by simpa using h2.symm, Spells.nil _⟩
      | @cons j v js vs hc hd =>
        -- trailing empty words: peel the last one anyway
        have : ∃ (a : List Int) (n : Nat), j :: js = a ++ [(n : Int)] ∧ ∃ (b : List IntSeq) (u : IntSeq), v :: vs = b ++ [u] ∧
            List.Forall₂ (IsWord words) a b ∧ words[n]? = some u := by
          clear ih hr h2 hs ha
          induction hd generalizing j v with
          | nil =>
            obtain ⟨n, rfl, hn⟩ := hc.exists_nat
            exact ⟨[], n, rfl, [], v, rfl, .nil, hn⟩
          | cons hc' hd' ih' =>
            obtain ⟨a, n, e1, b, u, e2, e3, e4⟩ := ih' hc'
            exact ⟨j :: a, n, by simp [e1], v :: b, u, by simp [e2], .cons hc e3, e4⟩
        obtain ⟨a, n, e1, b, u, e2, e3, e4⟩ := this
        refine ⟨i :: a, n, u, w ++ b.flatten, by simp [e1], e4, ?_, ⟨w :: b, .cons ha e3, rfl⟩⟩
        rw [← h2, e2]
        simp
    · obtain ⟨ids', n, u, s', e1, e2, e3, e4⟩ := ih hr rfl
      refine ⟨i :: ids', n, u, w ++ s', by simp [e1], e2, ?_, e4.cons ha⟩
      rw [← h2]
      simp [e3]

theorem best_all {O : FloatOps F} {L : ScoreLaws O} {OL : OrderLaws O} {d : IntDict} (hne : ∀ w ∈ d.seqs, w ≠ [])
    {freqs : List Int} {total : Int} {seq : IntSeq} {lim : Nat} {t : DP F} {lp : Int → F} {m : Nat}
    (hlen : 0 < t.score.length) (inv : Opt L OL d lp m t)
    (hb : Best O d.seqs freqs total seq lim t) {k : Nat} (hk : k ≤ lim) (hks : k ≤ seq.length) {ids : List Int}
    (hs : Spells d.seqs ids (seq.take k)) : Le O (parseScore O freqs total d.seqs.length ids) (t.S O k) := by
  cases k with
  | zero =>
    have := Spec.Spells.eq_nil hne (by simpa using hs)
    subst this
    have h0 := OL.refl (inv.ok 0 hlen)
    rw [inv.zero] at h0 ⊢
    exact h0
  | succ k =>
    have hnil : seq.take (k + 1) ≠ [] := by
      intro h
      have := congrArg List.length h
      simp at this
      subst this
      simp at hks
    obtain ⟨ids', n, w, s', rfl, hn, hs', hsp⟩ := hs.snoc_inv hnil
    have hwpos := List.length_pos_iff.2 (hne w (List.mem_of_getElem? hn))
    have hl := congrArg List.length hs'
    simp only [List.length_take, List.length_append] at hl
    have hs'' : s' = seq.take s'.length := by
      have : s' = (seq.take (k + 1)).take s'.length := by rw [hs', List.take_left]
      conv_lhs => rw [this]
      rw [List.take_take, Nat.min_eq_left (by omega)]
    have hpre : w <+: seq.drop s'.length := by
      refine ⟨seq.drop (k + 1), ?_⟩
      have h2 : seq = s' ++ (w ++ seq.drop (k + 1)) := by
        rw [← List.append_assoc, ← hs', List.take_append_drop]
      conv_rhs => rw [h2]
      rw [List.drop_left]
    have := hb s'.length n w ids' (by omega) hn hpre (hs'' ▸ hsp)
    rwa [show w.length + s'.length = k + 1 by omega] at this

theorem forward_opt {O : FloatOps F} {L : ScoreLaws O} {OL : OrderLaws O} {d : IntDict} (hd : Sorted d)
    {freqs : List Int} {total : Int} {seq : IntSeq} (hf : ∀ f ∈ freqs, 0 ≤ f) (ht : 0 ≤ total) :
    ∀ (rest : IntSeq) (pos : Nat) (t : DP F) (d' : IntDict) (t' : DP F), seq.drop pos = rest →
      pos + rest.length = seq.length → Knows d.seqs rest → t.score.length = seq.length + 1 →
      Opt L OL d (wordScore O freqs total d.size) pos t → Best O d.seqs freqs total seq pos t →
      IntDict.forward O freqs total none pos rest d t = .ok (d', t') →
      d' = d ∧ t'.score.length = seq.length + 1 ∧ Opt L OL d (wordScore O freqs total d.size) seq.length t' ∧
        Best O d.seqs freqs total seq seq.length t' := by
  intro rest
  induction rest with
  | nil =>
    intro pos t d' t' hdrop hlen hk hl inv hb hr
    cases hr
    obtain rfl : pos = seq.length := by simpa using hlen
    exact ⟨rfl, hl, inv, hb⟩
  | cons x xs ih =>
    intro pos t d' t' hdrop hlen hk hl inv hb hr
    rcases search_longest hd (xs := xs) none (fun _ => hk x (by simp)) with
      ⟨n, w, hs, hw, hpre, hwne, hlong⟩ | ⟨_, h, _⟩
    swap
    · exact absurd rfl h
    simp only [IntDict.forward, hs, ok_bind, show ¬ ((n : Int) < 0) by omega, if_false] at hr
    obtain ⟨t1, r1, hr⟩ := bind_ok.1 hr
    have hdrop' : seq.drop (pos + 1) = xs := by
      have := congrArg List.tail hdrop
      simpa using this
    have hwl := hpre.length_le
    have hlen' : pos + (xs.length + 1) = seq.length := by simpa using hlen
    have hwl' : w.length ≤ xs.length + 1 := by simpa using hwl
    have inv' : Opt L OL d (wordScore O freqs total d.size) (pos + 1) t :=
      ⟨inv.ly, inv.ok, inv.zero, fun k h0 h1 h2 m v h3 h4 => by
        obtain ⟨a, b⟩ := inv.path k h0 h1 h2 m v h3 h4
        exact ⟨by omega, b⟩⟩
    obtain ⟨i1, s1, b1⟩ := relaxChain_opt hd hf ht n _ w t t1 hw (by rw [hl]; omega) inv' r1
    have hb1 : Best O d.seqs freqs total seq (pos + 1) t1 := by
      intro q m v ids hq hv hvpre hsp
      have hvl := hvpre.length_le
      rw [List.length_drop] at hvl
      have hsz : 1 ≤ d.size := by
        have := (List.getElem?_eq_some_iff.1 hw).1
        simp only [IntDict.size]; omega
      have hok : ∀ is : List Int, OL.Ok (parseScore O freqs total d.seqs.length is) := by
        intro is
        suffices ∀ (x : F), OL.Ok x →
            OL.Ok (is.foldl (fun s i => O.add s (wordScore O freqs total d.seqs.length i)) x) from this _ OL.zero
        induction is with
        | nil => intro x hx; exact hx
        | cons i is ih2 => intro x hx; exact ih2 _ (OL.step _ _ hx (wordScore_isLp O i hf ht hsz))
      have hcell : v.length + q < t.score.length ∨ v = [] := by
        have := hd.nonempty v (List.mem_of_getElem? hv)
        have := List.length_pos_iff.2 this
        left
        rw [hl]
        omega
      rcases hcell with hcell | hcell
      swap
      · exact absurd hcell (hd.nonempty v (List.mem_of_getElem? hv))
      rcases Nat.lt_or_eq_of_le (Nat.lt_succ_iff.1 hq) with h | rfl
      · exact OL.leTrans _ _ _ (hok _) (inv.ok _ hcell) (i1.ok _ (by rw [s1.len]; exact hcell)) (hb q m v ids h hv hvpre hsp)
          (s1.up _ hcell)
      · rw [hdrop] at hvpre
        obtain ⟨w', hw', _, _, hmax⟩ := hlong
        obtain rfl : w = w' := Option.some.inj (hw.symm.trans (isWord_nat.1 hw'))
        have hvw : v <+: w := List.prefix_of_prefix_length_le hvpre hpre
          (hmax m v (isWord_nat.2 hv) hvpre (by simp [allowed]))
        have hmn : m ≤ n := by
          by_contra hc
          obtain ⟨h1, rfl⟩ := List.getElem?_eq_some_iff.1 hv
          obtain ⟨h2, rfl⟩ := List.getElem?_eq_some_iff.1 hw
          have := List.pairwise_iff_getElem.1 hd.sorted n m h2 h1 (by omega)
          exact absurd (prefix_le hvw) (not_le.2 this)
        have hbase := best_all (OL := OL) (L := L) hd.nonempty (by omega) inv hb (le_refl q) (by omega) hsp
        rw [parseScore_snoc]
        have hlp := wordScore_isLp O (m : Int) hf ht hsz
        have hpl : q < t.score.length := by omega
        have hm := OL.mono _ _ _ (hok ids) (inv.ok q hpl) hlp hbase
        exact OL.leTrans _ _ _ (OL.step _ _ (hok ids) hlp) (OL.step _ _ (inv.ok q hpl) hlp)
          (i1.ok _ (by rw [s1.len]; exact hcell)) hm (b1 m v hmn hv hvw)
    exact ih (pos + 1) t1 d' t' hdrop' (by omega) (fun y hy => hk y (by simp [hy])) (by rw [s1.len]; exact hl) i1 hb1 hr

theorem start_opt {O : FloatOps F} (L : ScoreLaws O) (OL : OrderLaws O) (d : IntDict) (lp : Int → F) (len : Nat) :
    Opt L OL d lp 0 (DP.start O len) := by
  have h0 : (DP.start O len).S O 0 = O.ofInt 0 := by simp [DP.S, DP.start]
  have hk : ∀ k, 0 < k → (DP.start O len).S O k = O.lowest := by
    intro k hk
    obtain ⟨k, rfl⟩ : ∃ j, k = j + 1 := ⟨k - 1, by omega⟩
    simp only [DP.S, DP.start, List.getElem?_cons_succ, List.getElem?_replicate]
    split <;> rfl
  refine ⟨by simp [DP.start], ?_, h0, ?_⟩
  · intro k _
    rcases Nat.eq_zero_or_pos k with rfl | h
    · rw [h0]; exact OL.zero
    · rw [hk k h]; exact OL.lowest
  · intro k h _ hg
    rw [hk k h] at hg
    exact absurd hg L.notGood

theorem backtrack_score {O : FloatOps F} {L : ScoreLaws O} {OL : OrderLaws O} {d : IntDict} {seq : IntSeq} {t : DP F}
    {freqs : List Int} {total : Int} {lim : Nat} (inv : Cells L d seq t)
    (io : Opt L OL d (wordScore O freqs total d.seqs.length) lim t) :
    ∀ (k fuel : Nat) (acc : List Int) (out : List Int), k ≤ seq.length → Filled L t k →
      d.backtrack t.symbols fuel k acc = .ok out →
      ∃ ids, out = ids ++ acc ∧ t.S O k = parseScore O freqs total d.seqs.length ids := by
  intro k
  induction k using Nat.strong_induction_on with
  | _ k ih =>
    intro fuel acc out hk hfill hr
    cases k with
    | zero =>
      have : out = acc := by cases fuel <;> (simp [IntDict.backtrack] at hr; exact hr.symm)
      exact ⟨[], by simp [this], by rw [io.zero]; rfl⟩
    | succ k =>
      obtain ⟨x, hx, hg⟩ := hfill
      obtain ⟨n, w, y, e1, e2, e3, e4, e5, e6, e7⟩ := inv.back (k + 1) x (by omega) hx hg
      have hwpos : 0 < w.length := List.length_pos_iff.2 e3
      cases fuel with
      | zero => simp [IntDict.backtrack] at hr
      | succ fuel =>
      simp only [IntDict.backtrack, rd_nat_ok.2 e1, ok_bind, IntDict.get, rd_nat_ok.2 e2, e4, if_true] at hr
      obtain ⟨ids, h1, h2⟩ := ih (k + 1 - w.length) (by omega) fuel _ out (by omega) ⟨y, e6, e7⟩ hr
      refine ⟨ids ++ [(n : Int)], by simp [h1], ?_⟩
      have hlt : k + 1 < t.score.length := (List.getElem?_eq_some_iff.1 hx).1
      obtain ⟨_, hpath⟩ := io.path (k + 1) (by omega) hlt (by rw [DP.S_eq hx]; exact hg) n w e1 e2
      rw [parseScore_snoc, ← h2, hpath]

/-- Optimality: the returned score is the score of the returned parse and is at least that of any other. -/
theorem weightedParse_opt {O : FloatOps F} (L : ScoreLaws O) (OL : OrderLaws O) {d : IntDict} (hd : Sorted d)
    {seq : IntSeq} {freqs : List Int} {total : Int} (hk : Knows d.seqs seq) (hf : ∀ f ∈ freqs, 0 ≤ f) (ht : 0 ≤ total) :
    ∃ ids, d.weightedParse O seq freqs total = .ok (d, ids, parseScore O freqs total d.seqs.length ids) ∧
      Spells d.seqs ids seq ∧ ∀ ids', Spells d.seqs ids' seq →
        O.lt (parseScore O freqs total d.seqs.length ids) (parseScore O freqs total d.seqs.length ids') = false := by
  obtain ⟨d', t', r, hw, hg, hc, k, hkl, hfill⟩ := forward_inv L hf ht seq 0 d (DP.start O seq.length) (by simp)
    (by simp) hd.wf (start_cells L d seq) ⟨0, le_refl _, (start_cells L d seq).zero⟩
  obtain ⟨rfl, hl, io, hb⟩ := forward_opt (L := L) (OL := OL) (seq := seq) hd hf ht seq 0 (DP.start O seq.length) d' t' (by simp) (by simp) hk
    (by simp [DP.start]) (start_opt L OL d _ _) (by intro pos n w ids h; omega) r
  have hkl' : k < t'.score.length := by
    obtain ⟨x, hx, _⟩ := hfill
    exact (List.getElem?_eq_some_iff.1 hx).1
  obtain rfl : k = seq.length := by omega
  obtain ⟨ids, hbt, hs⟩ := backtrack_spec L hc seq.length seq.length [] (le_refl _) (le_refl _) hfill
  rw [List.take_length] at hs
  obtain ⟨ids2, e, hsc⟩ := backtrack_score hc io seq.length seq.length [] _ (le_refl _) hfill hbt
  obtain rfl : ids = ids2 := by simpa using e
  obtain ⟨x, hx, _⟩ := hfill
  have hxs := DP.S_eq (O := O) hx
  refine ⟨ids, ?_, hs, ?_⟩
  · simp only [IntDict.weightedParse, r, ok_bind, hbt, rd_nat_ok.2 hx, pure_M, List.append_nil]
    rw [← hsc, hxs]
  · intro ids' hs'
    rw [← hsc]
    exact best_all (L := L) (OL := OL) hd.nonempty (by omega) io hb (le_refl _) (le_refl _) (by rwa [List.take_length])

end VGram
