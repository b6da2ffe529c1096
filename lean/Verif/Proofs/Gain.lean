import Verif.Proofs.Reduce
import Verif.Proofs.Optimal
import Verif.Spec.Gain
import Mathlib.Analysis.Convex.SpecificFunctions.Basic
import Mathlib.Analysis.SpecialFunctions.Log.NegMulLog

/-! # The replacement split used for scoring a word, and what a reduction keeps -/

namespace VGram

open Spec

variable {F : Type}

/-! ## optimality with excluded words -/

/-- The table dominates every parse with allowed ids whose last word starts before `lim`. -/
def BestOn (O : FloatOps F) (words : List IntSeq) (ok : Int → Prop) (freqs : List Int) (total : Int) (seq : IntSeq) (lim : Nat)
    (t : DP F) : Prop :=
  ∀ (pos n : Nat) (w : IntSeq) (ids : List Int), pos < lim → words[n]? = some w → w <+: seq.drop pos → ok (n : Int) →
    Spells words ids (seq.take pos) → (∀ i ∈ ids, ok i) →
      Le O (parseScore O freqs total words.length (ids ++ [(n : Int)])) (t.S O (w.length + pos))

theorem bestOn_all {O : FloatOps F} {L : ScoreLaws O} {OL : OrderLaws O} {d : IntDict} (hne : ∀ w ∈ d.seqs, w ≠ [])
    {ok : Int → Prop} {freqs : List Int} {total : Int} {seq : IntSeq} {lim : Nat} {t : DP F} {lp : Int → F} {m : Nat}
    (hlen : 0 < t.score.length) (inv : Opt L OL d lp m t)
    (hb : BestOn O d.seqs ok freqs total seq lim t) {k : Nat} (hk : k ≤ lim) (hks : k ≤ seq.length) {ids : List Int}
    (hs : Spells d.seqs ids (seq.take k)) (hok : ∀ i ∈ ids, ok i) :
    Le O (parseScore O freqs total d.seqs.length ids) (t.S O k) := by
  cases k with
  | zero =>
    have := Spec.Spells.eq_nil hne (by simpa using hs)
    subst this
    have h0 := OL.refl (inv.ok 0 hlen)
    rw [inv.zero] at h0 ⊢
    exact h0
  | succ k =>
    have hnil : seq.take (k + 1) ≠ [] := by
      intro h
      have := congrArg List.length h
      simp at this
      subst this
      simp at hks
    obtain ⟨ids', n, w, s', rfl, hn, hs', hsp⟩ := hs.snoc_inv hnil
    have hwpos := List.length_pos_iff.2 (hne w (List.mem_of_getElem? hn))
    have hl := congrArg List.length hs'
    simp only [List.length_take, List.length_append] at hl
    have hs'' : s' = seq.take s'.length := by
      have : s' = (seq.take (k + 1)).take s'.length := by rw [hs', List.take_left]
      conv_lhs => rw [this]
      rw [List.take_take, Nat.min_eq_left (by omega)]
    have hpre : w <+: seq.drop s'.length := by
      refine ⟨seq.drop (k + 1), ?_⟩
      have h2 : seq = s' ++ (w ++ seq.drop (k + 1)) := by
        rw [← List.append_assoc, ← hs', List.take_append_drop]
      conv_rhs => rw [h2]
      rw [List.drop_left]
    have := hb s'.length n w ids' (by omega) hn hpre (hok _ (by simp)) (hs'' ▸ hsp) fun i hi => hok i (by simp [hi])
    rwa [show w.length + s'.length = k + 1 by omega] at this

theorem parseScore_ok {O : FloatOps F} (OL : OrderLaws O) {freqs : List Int} {total : Int} {size : Nat}
    (hf : ∀ f ∈ freqs, 0 ≤ f) (ht : 0 ≤ total) (hsz : 1 ≤ size) (is : List Int) : OL.Ok (parseScore O freqs total size is) := by
  suffices ∀ (x : F), OL.Ok x → OL.Ok (is.foldl (fun s i => O.add s (wordScore O freqs total size i)) x) from this _ OL.zero
  induction is with
  | nil => intro x hx; exact hx
  | cons i is ih2 => intro x hx; exact ih2 _ (OL.step _ _ hx (wordScore_isLp O i hf ht hsz))

theorem wForward_opt {O : FloatOps F} {L : ScoreLaws O} {OL : OrderLaws O} {d : IntDict} (hd : Sorted d)
    {freqs : List Int} {total : Int} {seq : IntSeq} {ex : List Int} (hf : ∀ f ∈ freqs, 0 ≤ f) (ht : 0 ≤ total) :
    ∀ (rest : IntSeq) (pos : Nat) (t : DP F) (t' : DP F), seq.drop pos = rest →
      pos + rest.length = seq.length → Avail d ex rest → t.score.length = seq.length + 1 →
      Opt L OL d (wordScore O freqs total d.size) pos t → BestOn O d.seqs (· ∉ ex) freqs total seq pos t →
      StatDict.wForward O d freqs total ex pos rest t = .ok t' →
      t'.score.length = seq.length + 1 ∧ Opt L OL d (wordScore O freqs total d.size) seq.length t' ∧
        BestOn O d.seqs (· ∉ ex) freqs total seq seq.length t' := by
  intro rest
  induction rest with
  | nil =>
    intro pos t t' hdrop hlen _ hl inv hb hr
    cases hr
    obtain rfl : pos = seq.length := by simpa using hlen
    exact ⟨hl, inv, hb⟩
  | cons x xs ih =>
    intro pos t t' hdrop hlen hk hl inv hb hr
    rcases search_longest hd (xs := xs) (some ex) (by simp) with ⟨n, w, hs, hw, hpre, hwne, hlong⟩ | ⟨_, _, hno⟩
    swap
    · obtain ⟨k, hk1, hk2⟩ := hk x (by simp)
      exact absurd (allowed_some.2 hk2) (hno k [x] (isWord_nat.2 hk1) ⟨xs, rfl⟩)
    simp only [StatDict.wForward, hs, ok_bind] at hr
    obtain ⟨t1, r1, hr⟩ := bind_ok.1 hr
    have hdrop' : seq.drop (pos + 1) = xs := by
      have := congrArg List.tail hdrop
      simpa using this
    have hwl := hpre.length_le
    have hlen' : pos + (xs.length + 1) = seq.length := by simpa using hlen
    have hwl' : w.length ≤ xs.length + 1 := by simpa using hwl
    have inv' : Opt L OL d (wordScore O freqs total d.size) (pos + 1) t :=
      ⟨inv.ly, inv.ok, inv.zero, fun k h0 h1 h2 m v h3 h4 => by
        obtain ⟨a, b⟩ := inv.path k h0 h1 h2 m v h3 h4
        exact ⟨by omega, b⟩⟩
    obtain ⟨i1, s1, b1⟩ := relaxChain_opt hd hf ht n _ w t t1 hw (by rw [hl]; omega) inv' r1
    have hb1 : BestOn O d.seqs (· ∉ ex) freqs total seq (pos + 1) t1 := by
      intro q m v ids hq hv hvpre hallow hsp hids
      have hvl := hvpre.length_le
      rw [List.length_drop] at hvl
      have hsz : 1 ≤ d.size := by
        have := (List.getElem?_eq_some_iff.1 hw).1
        simp only [IntDict.size]; omega
      have hok : ∀ is : List Int, OL.Ok (parseScore O freqs total d.seqs.length is) := parseScore_ok OL hf ht hsz
      have hcell : v.length + q < t.score.length := by
        have := hd.nonempty v (List.mem_of_getElem? hv)
        have := List.length_pos_iff.2 this
        rw [hl]
        omega
      rcases Nat.lt_or_eq_of_le (Nat.lt_succ_iff.1 hq) with h | rfl
      · exact OL.leTrans _ _ _ (hok _) (inv.ok _ hcell) (i1.ok _ (by rw [s1.len]; exact hcell))
          (hb q m v ids h hv hvpre hallow hsp hids) (s1.up _ hcell)
      · rw [hdrop] at hvpre
        obtain ⟨w', hw', _, _, hmax⟩ := hlong
        obtain rfl : w = w' := Option.some.inj (hw.symm.trans (isWord_nat.1 hw'))
        have hvw : v <+: w := List.prefix_of_prefix_length_le hvpre hpre
          (hmax m v (isWord_nat.2 hv) hvpre (allowed_some.2 hallow))
        have hmn : m ≤ n := by
          by_contra hc
          obtain ⟨h1, rfl⟩ := List.getElem?_eq_some_iff.1 hv
          obtain ⟨h2, rfl⟩ := List.getElem?_eq_some_iff.1 hw
          have := List.pairwise_iff_getElem.1 hd.sorted n m h2 h1 (by omega)
          exact absurd (prefix_le hvw) (not_le.2 this)
        have hbase := bestOn_all (OL := OL) (L := L) hd.nonempty (by omega) inv hb (le_refl q) (by omega) hsp hids
        rw [parseScore_snoc]
        have hlp := wordScore_isLp O (m : Int) hf ht hsz
        have hpl : q < t.score.length := by omega
        have hm := OL.mono _ _ _ (hok ids) (inv.ok q hpl) hlp hbase
        exact OL.leTrans _ _ _ (OL.step _ _ (hok ids) hlp) (OL.step _ _ (inv.ok q hpl) hlp)
          (i1.ok _ (by rw [s1.len]; exact hcell)) hm (b1 m v hmn hv hvw)
    exact ih (pos + 1) t1 t' hdrop' (by omega) (fun y hy => hk y (by simp [hy])) (by rw [s1.len]; exact hl) i1 hb1 hr

/-- The ids written by the do-while loop are prefixes of the first one. -/
theorem relaxChain_symbols {O : FloatOps F} {d : IntDict} (hd : Sorted d) {freqs : List Int} {total : Int} {pos : Nat} :
    ∀ (fuel n : Nat) (w : IntSeq) (t t' : DP F), d.seqs[n]? = some w → relaxChain O d freqs total pos fuel (n : Int) t = .ok t' →
      ∀ (k : Nat) (i : Int), t'.symbols[k]? = some i → t.symbols[k]? = some i ∨
        ∃ (j : Nat) (v : IntSeq), i = (j : Int) ∧ d.seqs[j]? = some v ∧ v <+: w := by
  intro fuel
  induction fuel with
  | zero => intro n w t t' _ hr; simp [relaxChain] at hr
  | succ fuel ih =>
    intro n w t t' hw hr k i hi
    simp only [relaxChain] at hr
    obtain ⟨t1, r1, hr⟩ := bind_ok.1 hr
    obtain ⟨p, hp, hr⟩ := bind_ok.1 hr
    have h1 : t1.symbols[k]? = some i → t.symbols[k]? = some i ∨
        ∃ (j : Nat) (v : IntSeq), i = (j : Int) ∧ d.seqs[j]? = some v ∧ v <+: w := by
      intro hi
      simp only [relaxOne] at r1
      obtain ⟨w', _, r1⟩ := bind_ok.1 r1
      obtain ⟨old, _, r1⟩ := bind_ok.1 r1
      obtain ⟨base, _, r1⟩ := bind_ok.1 r1
      split at r1
      · obtain ⟨sc, _, r1⟩ := bind_ok.1 r1
        obtain ⟨sy, e, r1⟩ := bind_ok.1 r1
        cases r1
        by_cases hl : w'.length + pos < t.symbols.length
        · rw [wr_of_lt hl] at e
          cases e
          dsimp only at hi
          by_cases hk : w'.length + pos = k
          · subst hk
            rw [List.getElem?_set_self hl] at hi
            exact Or.inr ⟨n, w, (Option.some.inj hi).symm, hw, List.prefix_refl _⟩
          · rw [List.getElem?_set_ne hk] at hi
            exact Or.inl hi
        · exfalso
          have : wr t.symbols ((w'.length + pos : Nat) : Int) (n : Int) = .error .oob := by
            simp only [wr]
            rw [if_neg]
            omega
          rw [this] at e
          cases e
      · cases r1
        exact Or.inl hi
    by_cases h0 : 0 ≤ p
    · rw [if_pos h0] at hr
      have hn := (List.getElem?_eq_some_iff.1 hw).1
      have hp' : d.parents[n]? = some p := rd_nat_ok.1 hp
      rcases hd.par n p hp' w hw with ⟨rfl, _⟩ | ⟨j, _, rfl, ⟨u, hu, huw⟩, _⟩
      · omega
      · rcases ih j u t1 t' hu hr k i hi with h | ⟨m, v, a, b, c⟩
        · exact h1 h
        · exact Or.inr ⟨m, v, a, b, c.trans huw⟩
    · rw [if_neg h0] at hr
      cases hr
      exact h1 hi

theorem wForward_symbols {O : FloatOps F} {d : IntDict} (hd : Sorted d) {freqs : List Int} {total : Int} {ex : List Int}
    {seq : IntSeq} {n : Nat} (hn : d.seqs[n]? = some seq) (hx : (n : Int) ∈ ex) :
    ∀ (rest : IntSeq) (pos : Nat) (t t' : DP F), seq.drop pos = rest → Avail d ex rest →
      (∀ k : Nat, t.symbols[k]? ≠ some (n : Int)) → StatDict.wForward O d freqs total ex pos rest t = .ok t' →
      ∀ k : Nat, t'.symbols[k]? ≠ some (n : Int) := by
  intro rest
  induction rest with
  | nil => intro pos t t' _ _ h hr; cases hr; exact h
  | cons x xs ih =>
    intro pos t t' hdrop hav h hr
    obtain ⟨k, hk, hke⟩ := hav x (by simp)
    obtain ⟨m, w, hs, hw, hpre, hm⟩ := search_avail hd (xs := xs) hk hke
    simp only [StatDict.wForward, hs, ok_bind] at hr
    obtain ⟨t1, r1, hr⟩ := bind_ok.1 hr
    have hdrop' : seq.drop (pos + 1) = xs := by
      have := congrArg List.tail hdrop
      simpa using this
    refine ih (pos + 1) t1 t' hdrop' (fun y hy => hav y (by simp [hy])) ?_ hr
    intro k hk1
    rcases relaxChain_symbols hd _ m w t t1 hw r1 k n hk1 with hh | ⟨j, v, e, hv, hvw⟩
    · exact h k hh
    · have : n = j := by omega
      subst this
      rw [hn] at hv
      cases hv
      have h1 := hvw.length_le
      have h2 := hpre.length_le
      rw [← hdrop, List.length_drop] at h2
      have hpos : 0 < seq.length := List.length_pos_iff.2 (hd.nonempty _ (List.mem_of_getElem? hn))
      have : w = seq := (hvw.eq_of_length (by omega)).symm
      subst this
      have := index_unique hd.nodup hn hw
      subst this
      exact hm hx

theorem wBacktrack_mem {d : IntDict} {symbols : List Int} : ∀ (fuel pos : Nat) (acc ids : List Int),
    StatDict.wBacktrack d symbols fuel pos acc = .ok ids → ∀ i ∈ ids, i ∈ acc ∨ ∃ k : Nat, symbols[k]? = some i := by
  intro fuel
  induction fuel with
  | zero =>
    intro pos acc ids h i hi
    cases pos with
    | zero => simp [StatDict.wBacktrack] at h; subst h; exact Or.inl hi
    | succ pos => simp [StatDict.wBacktrack] at h
  | succ fuel ih =>
    intro pos acc ids h i hi
    cases pos with
    | zero => simp [StatDict.wBacktrack] at h; subst h; exact Or.inl hi
    | succ pos =>
      simp only [StatDict.wBacktrack] at h
      obtain ⟨sym, h1, h⟩ := bind_ok.1 h
      obtain ⟨w, _, h⟩ := bind_ok.1 h
      rcases ih _ _ _ h i hi with hh | hh
      · rcases List.mem_cons.1 hh with rfl | hh
        · exact Or.inr ⟨pos + 1, rd_nat_ok.1 h1⟩
        · exact Or.inl hh
      · exact Or.inr hh

/-- The replacement split of a word: it spells the word with other words, and is the most probable one among
those that avoid the excluded words. -/
theorem statWeighted_opt {O : FloatOps F} (L : ScoreLaws O) {d : IntDict} (hd : Sorted d) {seq : IntSeq} {ex : List Int}
    {freqs : List Int} {total : Int} (hf : ∀ f ∈ freqs, 0 ≤ f) (ht : 0 ≤ total) (hav : Avail d ex seq) {n : Nat}
    (hn : d.seqs[n]? = some seq) (hx : (n : Int) ∈ ex) (h0 : n ≠ 0) :
    ∃ ids, StatDict.weightedParse O d seq freqs total ex = .ok ids ∧ Spells d.seqs ids seq ∧ (n : Int) ∉ ids ∧
      ∀ (_ : OrderLaws O) (ids' : List Int), Spells d.seqs ids' seq → (∀ i ∈ ids', i ∉ ex) →
        O.lt (parseScore O freqs total d.seqs.length ids) (parseScore O freqs total d.seqs.length ids') = false := by
  obtain ⟨t', r, hc, k, hk, hfill⟩ := wForward_inv L hd hf ht seq 0 (DP.start O seq.length) (by simp)
    (by simp) hav (start_cells L d seq) ⟨0, le_refl _, (start_cells L d seq).zero⟩
  have hkl : k < t'.score.length := by
    obtain ⟨x, hx, _⟩ := hfill
    exact (List.getElem?_eq_some_iff.1 hx).1
  rw [hc.ls] at hkl
  obtain rfl : k = seq.length := by omega
  obtain ⟨ids, hb, hs⟩ := wBacktrack_spec L hc seq.length seq.length [] (le_refl _) (le_refl _) hfill
  obtain ⟨ids', hb', hs'⟩ := backtrack_spec L hc seq.length seq.length [] (le_refl _) (le_refl _) hfill
  rw [List.take_length] at hs'
  rw [List.append_nil] at hb hs hb'
  have hbt := hs
  rw [hs] at hb'
  cases hb'
  refine ⟨ids, by simp only [StatDict.weightedParse, r, ok_bind, hb], hs', ?_, ?_⟩
  · intro hmem
    rcases wBacktrack_mem _ _ _ _ hb n hmem with h | ⟨k, h⟩
    · simp at h
    · refine wForward_symbols hd hn hx seq 0 _ _ (by simp) hav ?_ r k h
      intro k hk
      simp only [DP.start, List.getElem?_replicate] at hk
      split at hk
      · have := Option.some.inj hk
        omega
      · cases hk
  · intro OL ids' hsp hok
    obtain ⟨hl, io, hbest⟩ := wForward_opt (L := L) (OL := OL) (seq := seq) hd hf ht seq 0 (DP.start O seq.length) t' (by simp)
      (by simp) hav (by simp [DP.start]) (start_opt L OL d _ _) (by intro pos n w ids h; omega) r
    obtain ⟨ids2, e, hsc⟩ := backtrack_score hc io seq.length seq.length [] _ (le_refl _) hfill hbt
    obtain rfl : ids = ids2 := by simpa using e
    have hfin := bestOn_all (OL := OL) (L := L) hd.nonempty (by omega) io hbest (le_refl _) (le_refl _)
      (by rw [List.take_length]; exact hsp) hok
    rw [hsc] at hfin
    exact hfin

/-! ## the shape of a reduction -/

theorem Healthy.roots {s : StatDict F} (h : Healthy s) :
    s.countRoots (List.range s.symbolFreqs.length) = .ok ((Spec.prefixFree s.dict.seqs : Nat) : Int) := by
  have hpref : ∀ n w, s.dict.seqs[n]? = some w →
      (rootAt s n =
        s.dict.seqs.all fun v => !(v.isPrefixOf w) || v == w) := by
    intro n w hw
    have hn := (List.getElem?_eq_some_iff.1 hw).1
    have hn' : n < s.dict.parents.length := by rw [h.sorted.len]; exact hn
    unfold rootAt
    rw [List.getElem?_eq_getElem hn']
    have := isParent_root h.sorted hw (h.sorted.par n _ (List.getElem?_eq_getElem hn'))
    rw [Bool.eq_iff_iff]
    simp only [decide_eq_true_eq, List.all_eq_true, Bool.or_eq_true, Bool.not_eq_true', beq_iff_eq]
    rw [this]
    constructor
    · intro hh v hv
      by_cases hp : v <+: w
      · exact Or.inr (hh v hv hp)
      · left
        rw [← Bool.not_eq_true]
        simpa using hp
    · intro hh v hv hp
      rcases hh v hv with h' | h'
      · rw [← Bool.not_eq_true] at h'
        exact absurd (by simpa using hp) h'
      · exact h'
  rw [countRoots_eq h.sorted _ (by intro i hi; rw [← h.full]; simpa using hi), h.full, filter_range s.dict.seqs hpref]
  rfl

theorem Healthy.unused {s : StatDict F} (h : Healthy s) : ∃ ex, s.unusedIds (List.range s.size) = .ok ex ∧
    ∀ (k : Nat) w, s.dict.seqs[k]? = some w → ((k : Int) ∈ ex ↔ 1 < w.length ∧ s.freq (k : Int) = 0) := by
  obtain ⟨ex, u1, u2⟩ := unusedIds_spec h.sorted (List.range s.size) (by intro i hi; simpa [StatDict.size, IntDict.size] using hi)
  refine ⟨ex, u1, fun k w hk => ?_⟩
  have hkl := (List.getElem?_eq_some_iff.1 hk).1
  have hkp : k < s.dict.parents.length := by rw [h.sorted.len]; exact hkl
  have hpos : 0 < w.length := List.length_pos_iff.2 (h.sorted.nonempty _ (List.mem_of_getElem? hk))
  have hroot := (isParent_root h.sorted hk (h.sorted.par k _ (List.getElem?_eq_getElem hkp))).trans
    (root_single h.sorted.nonempty h.closed (List.mem_of_getElem? hk))
  constructor
  · intro hmem
    obtain ⟨n, _, e, hf, p, hp, hp0⟩ := (u2 k).1 hmem
    have : k = n := by omega
    subst this
    rw [List.getElem?_eq_getElem hkp] at hp
    cases hp
    refine ⟨?_, hf⟩
    by_contra hc
    have := hroot.2 (by omega)
    omega
  · rintro ⟨hl, hf⟩
    refine (u2 k).2 ⟨k, by simpa [StatDict.size, IntDict.size] using hkl, rfl, hf, _, List.getElem?_eq_getElem hkp, ?_⟩
    by_contra hcon
    have := hroot.1 (by omega)
    omega

/-- What `stat_items` does with one id. -/
def itemOf (O : FloatOps F) (s : StatDict F) (cl : F) (ex : List Int) (alt : Nat → List Int) (i : Nat) : Option (StatItem F) :=
  if ex.contains (i : Int) = true then none
  else if 1 < (wordAt s (i : Int)).length then
    if O.lt (O.ofInt 0) (s.itemScore O cl (s.freq (i : Int)) (alt i)) = true then
      some ⟨-1, (i : Int), s.itemScore O cl (s.freq (i : Int)) (alt i), s.freq (i : Int)⟩
    else none
  else some ⟨-1, (i : Int), O.maxVal, s.freq (i : Int)⟩

theorem statItemsLoop_eq {O : FloatOps F} {s : StatDict F} {cl : F} {ex : List Int} {alt : Nat → List Int} : ∀ (l : List Nat),
    (∀ i ∈ l, i < s.dict.seqs.length) →
    (∀ i ∈ l, (i : Int) ∉ ex → 1 < (wordAt s (i : Int)).length →
      StatDict.weightedParse O s.dict (wordAt s (i : Int)) s.symbolFreqs s.power ((i : Int) :: ex) = .ok (alt i)) →
    s.statItemsLoop O cl ex l = .ok (l.filterMap (itemOf O s cl ex alt)) := by
  intro l
  induction l with
  | nil => intro _ _; rfl
  | cons i l ih =>
    intro hl hw
    have hi := hl i (by simp)
    have ih := ih (fun j hj => hl j (by simp [hj])) fun j hj => hw j (by simp [hj])
    rw [List.filterMap_cons, itemOf]
    by_cases hx : ex.contains (i : Int) = true
    · simp only [StatDict.statItemsLoop, hx, if_true, ih]
    · have hx' : (i : Int) ∉ ex := by simpa using hx
      have hg := get_wordAt (s := s) (i := (i : Int)) (by omega) (by omega)
      simp only [StatDict.statItemsLoop, hx, if_false, hg, ok_bind, Bool.false_eq_true]
      by_cases hlen : 1 < (wordAt s (i : Int)).length
      · simp only [hlen, if_true, hw i (by simp) hx' hlen, ok_bind, ih, pure_M]
        split <;> rfl
      · simp only [hlen, if_false, ih, ok_bind, pure_M]

/-- The items of a reduction: the one-symbol words and the used longer words with a positive score, in the order of the
sort, and cut off when the slots are used up. -/
theorem reduce_shape {E : Env F} (L : EnvLaws E) (SL : ScoreLaws E.ops) {s : StatDict F} (h : Healthy s) (slots : Int) :
    ∃ (alt : Nat → List Int) (kept rest : List (StatItem F)) (m : F),
      s.reduce E slots = .ok (kept.map fun it => wordAt s it.second, kept.map (·.count), m) ∧
      s.reduceLoop E.ops (sumI (kept.map (·.count))) kept
        (E.ops.min (E.ops.div (E.ops.ofInt 1) (E.ops.ofInt (s.size : Int))) s.minProb) =
        .ok (kept.map fun it => wordAt s it.second, kept.map (·.count), m) ∧
      (kept ++ rest).Pairwise (fun a b => E.ops.lt (E.ops.neg b.score) (E.ops.neg a.score) = false) ∧
      (rest ≠ [] → (kept.length : Int) = slots + Spec.prefixFree s.dict.seqs) ∧
      (∀ it, it ∈ kept ++ rest ↔ ∃ (n : Nat) (w : IntSeq), s.dict.seqs[n]? = some w ∧ it.first = -1 ∧ it.second = (n : Int) ∧
        it.count = s.freq (n : Int) ∧ ((w.length = 1 ∧ it.score = E.ops.maxVal) ∨ (1 < w.length ∧ 1 ≤ s.freq (n : Int) ∧
          it.score = s.itemScore E.ops (E.ops.mul (s.codeLengthPerChar E.ops) (E.ops.ofInt s.totalChars)) (s.freq (n : Int)) (alt n) ∧
          E.ops.lt (E.ops.ofInt 0) it.score = true))) ∧
      (∀ (n : Nat) (w : IntSeq), s.dict.seqs[n]? = some w → 1 < w.length → 1 ≤ s.freq (n : Int) →
        Spells s.dict.seqs (alt n) w ∧ (n : Int) ∉ alt n ∧
        ∀ (_ : OrderLaws E.ops) (ids : List Int), Spells s.dict.seqs ids w → (n : Int) ∉ ids →
          (∀ (k : Nat) v, (k : Int) ∈ ids → s.dict.seqs[k]? = some v → v.length = 1 ∨ 1 ≤ s.freq (k : Int)) →
          E.ops.lt (parseScore E.ops s.symbolFreqs s.power s.dict.seqs.length (alt n))
            (parseScore E.ops s.symbolFreqs s.power s.dict.seqs.length ids) = false) := by
  obtain ⟨ex, u1, u2⟩ := h.unused
  have hex : ∀ (k : Nat) (x : Int), s.dict.seqs[k]? = some [x] → (k : Int) ∉ ex := by
    intro k x hk hmem
    have := ((u2 k _ hk).1 hmem).1
    simp at this
  have hwat : ∀ (n : Nat) w, s.dict.seqs[n]? = some w → wordAt s (n : Int) = w := by
    intro n w hw
    simp [wordAt, hw]
  -- the replacement of each word
  have halt : ∀ n : Nat, ∃ ids, ∀ w, s.dict.seqs[n]? = some w → 1 < w.length → 1 ≤ s.freq (n : Int) →
      StatDict.weightedParse E.ops s.dict w s.symbolFreqs s.power ((n : Int) :: ex) = .ok ids ∧
      Spells s.dict.seqs ids w ∧ (n : Int) ∉ ids ∧
        ∀ (_ : OrderLaws E.ops) (ids' : List Int), Spells s.dict.seqs ids' w → (∀ i ∈ ids', i ∉ (n : Int) :: ex) →
          E.ops.lt (parseScore E.ops s.symbolFreqs s.power s.dict.seqs.length ids)
            (parseScore E.ops s.symbolFreqs s.power s.dict.seqs.length ids') = false := by
    intro n
    by_cases hn : ∃ w, s.dict.seqs[n]? = some w ∧ 1 < w.length
    · obtain ⟨w, hw, hl⟩ := hn
      have h0 : n ≠ 0 := by
        rintro rfl
        cases w with
        | nil => simp at hl
        | cons x xs =>
          obtain ⟨k, hk, hk'⟩ := List.getElem_of_mem (h.closed _ (List.mem_of_getElem? hw) x (by simp))
          have hk1 : s.dict.seqs[k]? = some [x] := by rw [List.getElem?_eq_getElem hk, hk']
          have := sorted_le h.sorted.le (Nat.zero_le k) hw hk1
          have h2 := prefix_le (show [x] <+: x :: xs from ⟨xs, rfl⟩)
          have := le_antisymm this h2
          rw [this] at hl
          simp at hl
      obtain ⟨ids, a, b, c, e⟩ := statWeighted_opt SL h.sorted (seq := w) (ex := (n : Int) :: ex) (freqs := s.symbolFreqs)
        (total := s.power) h.inv.nonneg h.inv.power (h.avail hw hl hex) hw (by simp) h0
      refine ⟨ids, fun v hv _ _ => ?_⟩
      rw [hw] at hv
      cases hv
      exact ⟨a, b, c, e⟩
    · exact ⟨[], fun w hw hl _ => absurd ⟨w, hw, hl⟩ hn⟩
  choose alt halt using halt
  have hloop := statItemsLoop_eq (O := E.ops) (s := s) (cl := E.ops.mul (s.codeLengthPerChar E.ops) (E.ops.ofInt s.totalChars))
    (ex := ex) (alt := alt) (List.range s.symbolFreqs.length) (by intro i hi; rw [← h.full]; simpa using hi) (by
      intro i hi hx hl
      have hi : i < s.dict.seqs.length := by rw [← h.full]; simpa using hi
      have hw : s.dict.seqs[i]? = some s.dict.seqs[i] := List.getElem?_eq_getElem hi
      rw [hwat i _ hw] at hl ⊢
      have hf := h.freq_nonneg (i : Int)
      have : ¬ s.freq (i : Int) = 0 := fun hc => hx ((u2 i _ hw).2 ⟨hl, hc⟩)
      exact (halt i _ hw hl (by omega)).1)
  generalize hraw : (List.range s.symbolFreqs.length).filterMap (itemOf E.ops s
    (E.ops.mul (s.codeLengthPerChar E.ops) (E.ops.ofInt s.totalChars)) ex alt) = raw at hloop
  have hmem : ∀ it, it ∈ raw ↔ ∃ (n : Nat) (w : IntSeq), s.dict.seqs[n]? = some w ∧ it.first = -1 ∧ it.second = (n : Int) ∧
        it.count = s.freq (n : Int) ∧ ((w.length = 1 ∧ it.score = E.ops.maxVal) ∨ (1 < w.length ∧ 1 ≤ s.freq (n : Int) ∧
          it.score = s.itemScore E.ops (E.ops.mul (s.codeLengthPerChar E.ops) (E.ops.ofInt s.totalChars)) (s.freq (n : Int)) (alt n) ∧
          E.ops.lt (E.ops.ofInt 0) it.score = true)) := by
    intro it
    rw [← hraw, List.mem_filterMap]
    constructor
    · rintro ⟨n, hn, hit⟩
      have hn : n < s.dict.seqs.length := by rw [← h.full]; simpa using hn
      have hw : s.dict.seqs[n]? = some s.dict.seqs[n] := List.getElem?_eq_getElem hn
      refine ⟨n, _, hw, ?_⟩
      rw [itemOf, hwat n _ hw] at hit
      split at hit
      · cases hit
      · next hx =>
        have hx : (n : Int) ∉ ex := by simpa using hx
        split at hit
        · next hl =>
          split at hit
          · next hsc =>
            cases hit
            have hf := h.freq_nonneg (n : Int)
            have : ¬ s.freq (n : Int) = 0 := fun hc => hx ((u2 n _ hw).2 ⟨hl, hc⟩)
            exact ⟨rfl, rfl, rfl, Or.inr ⟨hl, by omega, rfl, hsc⟩⟩
          · cases hit
        · next hl =>
          cases hit
          have := List.length_pos_iff.2 (h.sorted.nonempty _ (List.mem_of_getElem? hw))
          exact ⟨rfl, rfl, rfl, Or.inl ⟨by omega, rfl⟩⟩
    · rintro ⟨n, w, hw, h1, h2, h3, h4⟩
      have hn := (List.getElem?_eq_some_iff.1 hw).1
      refine ⟨n, by rw [h.full]; simpa using hn, ?_⟩
      rw [itemOf, hwat n _ hw]
      obtain ⟨f1, f2, f3, f4⟩ := it
      dsimp only at h1 h2 h3 h4
      subst h1 h2 h3
      rcases h4 with ⟨hl, hs⟩ | ⟨hl, hf, hs, hp⟩
      · have hx : ¬ ex.contains (n : Int) = true := by
          intro hx
          have := ((u2 n _ hw).1 (by simpa using hx)).1
          omega
        rw [if_neg hx, if_neg (by omega), hs]
      · have hx : ¬ ex.contains (n : Int) = true := by
          intro hx
          have := ((u2 n _ hw).1 (by simpa using hx)).2
          omega
        rw [if_neg hx, if_pos hl, ← hs, if_pos hp]
  have hnum : ∀ a ∈ raw, a.score = E.ops.maxVal ∨ L.Num a.score := by
    intro a ha
    obtain ⟨n, w, hw, _, _, _, h4⟩ := (hmem a).1 ha
    rcases h4 with ⟨_, hs⟩ | ⟨hl, hf, hs, _⟩
    · exact Or.inl hs
    · right
      obtain ⟨_, hsp, _⟩ := halt n w hw hl hf
      have hpow := h.freq_le_power n
      have hch := h.power_le_chars
      have hids : alt n ≠ [] := by
        intro he
        rw [he] at hsp
        obtain ⟨ws, a, b⟩ := hsp
        cases a
        rw [← b] at hl
        simp at hl
      rw [hs]
      exact itemScore_num L (codeLength_num L (by omega) (by omega)) hf (by omega) hids h.freq_nonneg
  obtain ⟨sp, ss⟩ := L.sort raw hnum
  generalize hsorted : E.sortItems raw = items at sp ss
  have hrange : ∀ it ∈ items, 0 ≤ it.second ∧ it.second < (s.dict.seqs.length : Int) := by
    intro it hit
    obtain ⟨n, w, hw, _, h2, _⟩ := (hmem it).1 (sp.mem_iff.1 hit)
    have := (List.getElem?_eq_some_iff.1 hw).1
    omega
  have hopt : ∀ (n : Nat) (w : IntSeq), s.dict.seqs[n]? = some w → 1 < w.length → 1 ≤ s.freq (n : Int) →
        Spells s.dict.seqs (alt n) w ∧ (n : Int) ∉ alt n ∧
        ∀ (_ : OrderLaws E.ops) (ids : List Int), Spells s.dict.seqs ids w → (n : Int) ∉ ids →
          (∀ (k : Nat) v, (k : Int) ∈ ids → s.dict.seqs[k]? = some v → v.length = 1 ∨ 1 ≤ s.freq (k : Int)) →
          E.ops.lt (parseScore E.ops s.symbolFreqs s.power s.dict.seqs.length (alt n))
            (parseScore E.ops s.symbolFreqs s.power s.dict.seqs.length ids) = false := by
    intro n w hw hl hf
    obtain ⟨_, a, b, c⟩ := halt n w hw hl hf
    refine ⟨a, b, fun OL ids hsp hn hu => c OL ids hsp ?_⟩
    intro i hi hmem
    have hr := hsp.range i hi
    obtain ⟨k, rfl⟩ : ∃ k : Nat, i = (k : Int) := ⟨i.toNat, by omega⟩
    have hk : k < s.dict.seqs.length := by omega
    have hkw : s.dict.seqs[k]? = some s.dict.seqs[k] := List.getElem?_eq_getElem hk
    rcases List.mem_cons.1 hmem with e | hmem
    · have : k = n := by omega
      exact hn (this ▸ hi)
    · have h1 := (u2 k _ hkw).1 hmem
      rcases hu k _ hi hkw with h2 | h2 <;> omega
  have hmem' : ∀ it, it ∈ items ↔ it ∈ raw := fun it => sp.mem_iff
  by_cases hneg : slots + (Spec.prefixFree s.dict.seqs : Int) < 0
  · obtain ⟨m, hm⟩ := reduceLoop_eq E.ops h.sorted (sumI (items.map (·.count))) items
      (E.ops.min (E.ops.div (E.ops.ofInt 1) (E.ops.ofInt (s.size : Int))) s.minProb) hrange
    refine ⟨alt, items, [], m, ?_, hm, by rw [List.append_nil]; exact ss, fun hc => absurd rfl hc, ?_, hopt⟩
    · simp only [StatDict.reduce, StatDict.filterStatItems, h.roots, ok_bind, u1, StatDict.statItems, hloop, pure_M, hsorted, if_pos hneg]
      exact hm
    · intro it
      rw [List.append_nil, hmem', hmem]
  · have hsplit := List.take_append_drop (slots + (Spec.prefixFree s.dict.seqs : Int)).toNat items
    obtain ⟨m, hm⟩ := reduceLoop_eq E.ops h.sorted
      (sumI ((items.take (slots + (Spec.prefixFree s.dict.seqs : Int)).toNat).map (·.count)))
      (items.take (slots + (Spec.prefixFree s.dict.seqs : Int)).toNat)
      (E.ops.min (E.ops.div (E.ops.ofInt 1) (E.ops.ofInt (s.size : Int))) s.minProb)
      fun it hit => hrange it (List.mem_of_mem_take hit)
    refine ⟨alt, items.take (slots + (Spec.prefixFree s.dict.seqs : Int)).toNat,
      items.drop (slots + (Spec.prefixFree s.dict.seqs : Int)).toNat, m, ?_, hm, by rw [hsplit]; exact ss, ?_, ?_, hopt⟩
    · simp only [StatDict.reduce, StatDict.filterStatItems, h.roots, ok_bind, u1, StatDict.statItems, hloop, pure_M, hsorted, if_neg hneg]
      exact hm
    · intro hne
      rw [List.length_take]
      have : (slots + (Spec.prefixFree s.dict.seqs : Int)).toNat < items.length := by
        by_contra hc
        exact hne (List.drop_eq_nil_of_le (by omega))
      omega
    · intro it
      rw [hsplit, hmem', hmem]

/-! ## the score in exact arithmetic -/

theorem xlogx_real {n : Int} (h : 0 < n) : StatDict.xlogx (Ext.ops ℝ Real.log) n = .fin (xlog n) := by
  have h' : (0 : ℝ) < (n : ℝ) := by exact_mod_cast h
  simp only [StatDict.xlogx, Ext.ops, Ext.log, h', if_true, Ext.mul, xlog]

theorem xlog_convex (a c : ℝ) (ha : 0 ≤ a) (hc : 0 ≤ c) (k : Nat) :
    (k : ℝ) * (xlog (a + c) - xlog a) ≤ xlog (a + c * k) - xlog a := by
  rcases Nat.eq_zero_or_pos k with rfl | hk
  · simp
  have hk' : (0 : ℝ) < k := by exact_mod_cast hk
  have h1 : (1 : ℝ) ≤ k := by exact_mod_cast hk
  have hcv := Real.convexOn_mul_log.2
  have hw : (0 : ℝ) ≤ 1 - 1 / (k : ℝ) := by rw [sub_nonneg, div_le_one hk']; exact h1
  have hv : (0 : ℝ) ≤ 1 / (k : ℝ) := by positivity
  have := hcv (show a ∈ Set.Ici (0 : ℝ) from ha) (show a + c * k ∈ Set.Ici (0 : ℝ) from add_nonneg ha (by positivity)) hw hv (by ring)
  have he : (1 - 1 / (k : ℝ)) • a + (1 / (k : ℝ)) • (a + c * k) = a + c := by
    simp only [smul_eq_mul]
    field_simp
    ring
  rw [he] at this
  change xlog (a + c) ≤ (1 - 1 / (k : ℝ)) * xlog a + (1 / (k : ℝ)) * xlog (a + c * k) at this
  have h2 := mul_le_mul_of_nonneg_left this hk'.le
  have h3 : (k : ℝ) * ((1 - 1 / (k : ℝ)) * xlog a + (1 / (k : ℝ)) * xlog (a + c * k)) = ((k : ℝ) - 1) * xlog a + xlog (a + c * k) := by
    field_simp
  rw [h3] at h2
  linarith

theorem tokens_replaced {size : Nat} {f : Nat → Int} {n : Nat} {alt : List Int} (hn : n < size) (hna : (n : Int) ∉ alt)
    (hr : ∀ i ∈ alt, 0 ≤ i ∧ i < (size : Int)) :
    tokens size (replaced f n alt) = tokens size f + ((alt.length : Int) - 1) * f n := by
  have h1 := sum_count size (fun _ => 1) alt hr
  have h2 : (alt.map fun _ : Int => (1 : Int)).sum = (alt.length : Int) := by simp
  have key : ∀ i ∈ Finset.range size, replaced f n alt i = f i + f n * ((alt.count (i : Int) : Int) * 1) - (if i = n then f n else 0) := by
    intro i _
    by_cases h : i = n
    · subst h
      simp [replaced, List.count_eq_zero_of_not_mem hna]
    · simp [replaced, h]
  unfold tokens
  rw [Finset.sum_congr rfl key, Finset.sum_sub_distrib, Finset.sum_add_distrib, ← Finset.mul_sum, h1,
    Finset.sum_ite_eq' (Finset.range size) n]
  simp only [Finset.mem_range, hn, if_true]
  rw [h2]
  ring

/-- The sum over the replacement, as the code forms it: repeated ids are all compared with the old count. -/
noncomputable def altSum (f : Nat → Int) (c : Int) (alt : List Int) : ℝ :=
  (alt.map fun i => xlog ((f i.toNat : ℝ) + (c : ℝ)) - xlog (f i.toNat)).sum

theorem itemScore_fold {s : StatDict (Ext ℝ)} {c : Int} (hc : 1 ≤ c) (hf : ∀ i, 0 ≤ s.freq i) :
    ∀ (alt : List Int) (x : ℝ), (∀ i ∈ alt, 0 ≤ i) →
    alt.foldl (fun r next =>
      let old := s.freq next
      let new := old + c
      (Ext.ops ℝ Real.log).sub r ((Ext.ops ℝ Real.log).sub (StatDict.xlogx (Ext.ops ℝ Real.log) new)
        (if 0 < old then StatDict.xlogx (Ext.ops ℝ Real.log) old else (Ext.ops ℝ Real.log).ofInt 0))) (.fin x) =
      .fin (x - altSum (fun i => s.freq (i : Int)) c alt) := by
  intro alt
  induction alt with
  | nil => intro x _; simp [altSum]
  | cons i alt ih =>
    intro x h
    have h0 := h i (by simp)
    have hi := hf i
    have e : ((i.toNat : Nat) : Int) = i := by omega
    have hs : (Ext.ops ℝ Real.log).sub (.fin x) ((Ext.ops ℝ Real.log).sub (StatDict.xlogx (Ext.ops ℝ Real.log) (s.freq i + c))
        (if 0 < s.freq i then StatDict.xlogx (Ext.ops ℝ Real.log) (s.freq i) else (Ext.ops ℝ Real.log).ofInt 0)) =
        .fin (x - (xlog ((s.freq i : ℝ) + (c : ℝ)) - xlog (s.freq i))) := by
      rw [xlogx_real (by omega)]
      split
      · next hp =>
        rw [xlogx_real hp]
        simp only [Ext.ops, Ext.neg, Ext.add]
        push_cast
        congr 1
      · have : s.freq i = 0 := by omega
        rw [this]
        simp only [Ext.ops, Ext.neg, Ext.add, xlog]
        push_cast
        congr 1
        simp
        ring
    rw [List.foldl_cons]
    dsimp only
    rw [hs, ih _ fun j hj => h j (by simp [hj])]
    simp only [altSum, List.map_cons, List.sum_cons, e]
    congr 1
    ring

theorem itemScore_real {s : StatDict (Ext ℝ)} {cl : ℝ} {c : Int} {alt : List Int} (hc : 1 ≤ c) (hf : ∀ i, 0 ≤ s.freq i)
    (hp : 1 ≤ s.power) (hne : alt ≠ []) (h0 : ∀ i ∈ alt, 0 ≤ i) :
    s.itemScore (Ext.ops ℝ Real.log) (.fin cl) c alt = .fin (xlog c - xlog s.power +
      xlog ((s.power + ((alt.length : Int) - 1) * c : Int) : ℝ) - altSum (fun i => s.freq (i : Int)) c alt) := by
  have hlen : 1 ≤ (alt.length : Int) := by
    have := List.length_pos_iff.2 hne
    omega
  have hnp : 1 ≤ s.power + ((alt.length : Int) - 1) * c := by
    have : 0 ≤ ((alt.length : Int) - 1) * c := Int.mul_nonneg (by omega) (by omega)
    omega
  unfold StatDict.itemScore
  dsimp only
  rw [xlogx_real (n := c) (by omega), xlogx_real (n := s.power) (by omega),
    xlogx_real (n := s.power + ((alt.length : Int) - 1) * c) (by omega)]
  have e : (Ext.ops ℝ Real.log).add ((Ext.ops ℝ Real.log).sub ((Ext.ops ℝ Real.log).add (.fin cl) (.fin (xlog c))) (.fin (xlog s.power)))
      (.fin (xlog ((s.power + ((alt.length : Int) - 1) * c : Int) : ℝ))) =
      .fin (cl + xlog c - xlog s.power + xlog ((s.power + ((alt.length : Int) - 1) * c : Int) : ℝ)) := by
    simp only [Ext.ops, Ext.neg, Ext.add]
    congr 1
  rw [e]
  have hfold := itemScore_fold hc hf alt (cl + xlog c - xlog s.power + xlog ((s.power + ((alt.length : Int) - 1) * c : Int) : ℝ)) h0
  dsimp only at hfold
  rw [hfold]
  simp only [Ext.ops, Ext.neg, Ext.add]
  congr 1
  ring

/-- The sum over the ids of the replacement, id by id. -/
theorem altSum_eq {size : Nat} {f : Nat → Int} {c : Int} : ∀ {alt : List Int}, (∀ i ∈ alt, 0 ≤ i ∧ i < (size : Int)) →
    altSum f c alt = (Finset.range size).sum fun i => (alt.count (i : Int) : ℝ) * (xlog ((f i : ℝ) + (c : ℝ)) - xlog (f i)) := by
  intro alt
  induction alt with
  | nil => intro _; simp [altSum]
  | cons a alt ih =>
    intro h
    have ha := h a (by simp)
    have e : ∀ i ∈ Finset.range size, ((a :: alt).count (i : Int) : ℝ) * (xlog ((f i : ℝ) + (c : ℝ)) - xlog (f i)) =
        (alt.count (i : Int) : ℝ) * (xlog ((f i : ℝ) + (c : ℝ)) - xlog (f i)) +
          (if i = a.toNat then (xlog ((f a.toNat : ℝ) + (c : ℝ)) - xlog (f a.toNat)) else 0) := by
      intro i _
      rw [List.count_cons]
      by_cases hi : i = a.toNat
      · subst hi
        have : a = ((a.toNat : Nat) : Int) := by omega
        have hb : (a == ((a.toNat : Nat) : Int)) = true := by simpa using this
        rw [hb]
        simp only [if_true]
        push_cast
        ring
      · have hb : (a == (i : Int)) = false := by
          rw [beq_eq_false_iff_ne]
          omega
        rw [hb]
        simp [hi]
    rw [Finset.sum_congr rfl e, Finset.sum_add_distrib, ← ih fun i hi => h i (by simp [hi]), Finset.sum_ite_eq' (Finset.range size) a.toNat]
    have : a.toNat ∈ Finset.range size := by simp; omega
    rw [if_pos this]
    simp only [altSum, List.map_cons, List.sum_cons]
    ring

/-- The score of the code is at least the gain, and equal to it when the replacement has no repetitions. -/
theorem gain_le_score {size : Nat} {f : Nat → Int} {n : Nat} {alt : List Int} (hn : n < size) (hf : ∀ i, 0 ≤ f i)
    (hna : (n : Int) ∉ alt) (hr : ∀ i ∈ alt, 0 ≤ i ∧ i < (size : Int)) :
    let score := xlog (f n) - xlog (tokens size f) + xlog ((tokens size f + ((alt.length : Int) - 1) * f n : Int) : ℝ) - altSum f (f n) alt
    gain size f n alt ≤ score ∧ (alt.Nodup → gain size f n alt = score) := by
  intro score
  have hd : ∀ i ∈ Finset.range size, xlog (replaced f n alt i) - xlog (f i) =
      (xlog ((f i : ℝ) + (f n : ℝ) * (alt.count (i : Int) : ℝ)) - xlog (f i)) - (if i = n then xlog (f n) else 0) := by
    intro i _
    by_cases h : i = n
    · subst h
      simp [replaced, List.count_eq_zero_of_not_mem hna, xlog]
    · simp only [replaced, h, if_false, sub_zero]
      push_cast
      rfl
  have hg : gain size f n alt = xlog (f n) - xlog (tokens size f) + xlog ((tokens size f + ((alt.length : Int) - 1) * f n : Int) : ℝ) -
      (Finset.range size).sum fun i => (xlog ((f i : ℝ) + (f n : ℝ) * (alt.count (i : Int) : ℝ)) - xlog (f i)) := by
    have hs := Finset.sum_congr rfl hd
    rw [Finset.sum_sub_distrib, Finset.sum_sub_distrib, Finset.sum_ite_eq' (Finset.range size) n] at hs
    have hmem : n ∈ Finset.range size := by simpa using hn
    rw [if_pos hmem] at hs
    unfold gain codeLen
    rw [tokens_replaced hn hna hr]
    linarith
  constructor
  · rw [hg]
    show _ ≤ xlog (f n) - xlog (tokens size f) + xlog ((tokens size f + ((alt.length : Int) - 1) * f n : Int) : ℝ) - altSum f (f n) alt
    rw [altSum_eq hr]
    have : (Finset.range size).sum (fun i => (alt.count (i : Int) : ℝ) * (xlog ((f i : ℝ) + (f n : ℝ)) - xlog (f i))) ≤
        (Finset.range size).sum fun i => (xlog ((f i : ℝ) + (f n : ℝ) * (alt.count (i : Int) : ℝ)) - xlog (f i)) :=
      Finset.sum_le_sum fun i _ => xlog_convex _ _ (by exact_mod_cast hf i) (by exact_mod_cast hf n) _
    linarith
  · intro hnd
    rw [hg]
    show _ = xlog (f n) - xlog (tokens size f) + xlog ((tokens size f + ((alt.length : Int) - 1) * f n : Int) : ℝ) - altSum f (f n) alt
    rw [altSum_eq hr]
    congr 1
    refine Finset.sum_congr rfl fun i _ => ?_
    have := List.nodup_iff_count_le_one.1 hnd (i : Int)
    rcases Nat.le_one_iff_eq_zero_or_eq_one.1 this with h | h
    · rw [h]; simp
    · rw [h]; simp

end VGram
