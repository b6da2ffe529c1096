import Mathlib.Algebra.Order.BigOperators.Group.Finset
import Verif.Spec.Count
import Verif.Proofs.Expand

/-! # `reduce` -/

namespace VGram

open Spec

variable {F : Type}

/-! ## the parse with excludes -/

/-- Every symbol of `seq` has a one-symbol word that is not excluded. -/
def Avail (d : IntDict) (ex : List Int) (seq : IntSeq) : Prop :=
  ∀ x ∈ seq, ∃ n : Nat, d.seqs[n]? = some [x] ∧ (n : Int) ∉ ex

theorem allowed_some {ex : List Int} {i : Int} : allowed (some ex) i = true ↔ i ∉ ex := by simp [allowed]

theorem search_avail {d : IntDict} (hd : Sorted d) {ex : List Int} {x : Int} {xs : IntSeq} {k : Nat}
    (hk : d.seqs[k]? = some [x]) (he : (k : Int) ∉ ex) :
    ∃ (n : Nat) (w : IntSeq), d.search (x :: xs) (some ex) = .ok (d, (n : Int)) ∧ d.seqs[n]? = some w ∧ w <+: x :: xs ∧
      (n : Int) ∉ ex := by
  rcases search_longest hd (xs := xs) (some ex) (by simp) with ⟨n, w, h1, h2, h3, _, v, h5, h6, h7, _⟩ | ⟨_, _, h⟩
  · exact ⟨n, w, h1, h2, h3, allowed_some.1 h7⟩
  · exact absurd (allowed_some.2 he) (h k [x] (isWord_nat.2 hk) ⟨xs, rfl⟩)

theorem wForward_inv {O : FloatOps F} (L : ScoreLaws O) {d : IntDict} (hd : Sorted d) {freqs : List Int} {total : Int}
    {seq : IntSeq} {ex : List Int} (hf : ∀ f ∈ freqs, 0 ≤ f) (ht : 0 ≤ total) :
    ∀ (rest : IntSeq) (pos : Nat) (t : DP F), seq.drop pos = rest → pos + rest.length = seq.length →
      Avail d ex rest → Cells L d seq t → (∃ k, pos ≤ k ∧ Filled L t k) →
    ∃ t', StatDict.wForward O d freqs total ex pos rest t = .ok t' ∧ Cells L d seq t' ∧
      (∃ k, seq.length ≤ k ∧ Filled L t' k) := by
  intro rest
  induction rest with
  | nil =>
    intro pos t hdrop hlen _ inv hreach
    refine ⟨t, rfl, inv, ?_⟩
    simpa [← hlen] using hreach
  | cons x xs ih =>
    intro pos t hdrop hlen hav inv hreach
    obtain ⟨k, hk, hke⟩ := hav x (by simp)
    obtain ⟨n, w, hs, hw, hpre, _⟩ := search_avail hd (xs := xs) hk hke
    have hn : n < d.seqs.length := (List.getElem?_eq_some_iff.1 hw).1
    obtain ⟨t1, r1, i1, k1, f1⟩ := relaxChain_inv L hd.wf (pos := pos) hf ht n (d.size + 1) w t
      (by simp only [IntDict.size]; omega) hw (by rw [hdrop]; exact hpre) inv
    have hreach' : ∃ k, pos + 1 ≤ k ∧ Filled L t1 k := by
      obtain ⟨k, hk, hfk⟩ := hreach
      rcases Nat.lt_or_eq_of_le hk with h | rfl
      · exact ⟨k, h, k1 k hfk⟩
      · exact f1 hfk
    have hdrop' : seq.drop (pos + 1) = xs := by
      have := congrArg List.tail hdrop
      simpa using this
    obtain ⟨t2, r2, c2, z2⟩ := ih (pos + 1) t1 hdrop' (by simp at hlen; omega) (fun y hy => hav y (by simp [hy])) i1 hreach'
    exact ⟨t2, by simp only [StatDict.wForward, hs, ok_bind, r1, r2], c2, z2⟩

theorem wBacktrack_spec {O : FloatOps F} (L : ScoreLaws O) {d : IntDict} {seq : IntSeq} {t : DP F} (inv : Cells L d seq t) :
    ∀ (k fuel : Nat) (acc : List Int), k ≤ fuel → k ≤ seq.length → Filled L t k →
      ∃ ids, StatDict.wBacktrack d t.symbols fuel k acc = .ok (ids ++ acc) ∧ d.backtrack t.symbols fuel k acc = .ok (ids ++ acc) := by
  intro k
  induction k using Nat.strong_induction_on with
  | _ k ih =>
    intro fuel acc hf hk hfill
    cases k with
    | zero => exact ⟨[], by simp [StatDict.wBacktrack], by simp [IntDict.backtrack]⟩
    | succ k =>
      obtain ⟨fuel, rfl⟩ : ∃ f, fuel = f + 1 := ⟨fuel - 1, by omega⟩
      obtain ⟨x, hx, hg⟩ := hfill
      obtain ⟨n, w, y, e1, e2, e3, e4, e5, e6, e7⟩ := inv.back (k + 1) x (by omega) hx hg
      have hwpos : 0 < w.length := List.length_pos_iff.2 e3
      obtain ⟨ids, h1, h2⟩ := ih (k + 1 - w.length) (by omega) fuel ((n : Int) :: acc) (by omega) (by omega) ⟨y, e6, e7⟩
      refine ⟨ids ++ [(n : Int)], ?_, ?_⟩
      · simp only [StatDict.wBacktrack, rd_nat_ok.2 e1, ok_bind, IntDict.get, rd_nat_ok.2 e2, h1]
        simp
      · simp only [IntDict.backtrack, rd_nat_ok.2 e1, ok_bind, IntDict.get, rd_nat_ok.2 e2, e4, if_true, h2]
        simp

/-- The parse used for scoring a word is safe and spells the word. -/
theorem statWeighted_spec {O : FloatOps F} (L : ScoreLaws O) {d : IntDict} (hd : Sorted d) {seq : IntSeq} {ex : List Int}
    {freqs : List Int} {total : Int} (hf : ∀ f ∈ freqs, 0 ≤ f) (ht : 0 ≤ total) (hav : Avail d ex seq) :
    ∃ ids, StatDict.weightedParse O d seq freqs total ex = .ok ids ∧ Spells d.seqs ids seq := by
  obtain ⟨t', r, hc, k, hk, hfill⟩ := wForward_inv L hd hf ht seq 0 (DP.start O seq.length) (by simp)
    (by simp) hav (start_cells L d seq) ⟨0, le_refl _, (start_cells L d seq).zero⟩
  have hkl : k < t'.score.length := by
    obtain ⟨x, hx, _⟩ := hfill
    exact (List.getElem?_eq_some_iff.1 hx).1
  rw [hc.ls] at hkl
  obtain rfl : k = seq.length := by omega
  obtain ⟨ids, hb, hs⟩ := wBacktrack_spec L hc seq.length seq.length [] (le_refl _) (le_refl _) hfill
  obtain ⟨ids', hb', hs'⟩ := backtrack_spec L hc seq.length seq.length [] (le_refl _) (le_refl _) hfill
  rw [List.take_length] at hs'
  rw [List.append_nil] at hb hs hb'
  rw [hs] at hb'
  cases hb'
  exact ⟨ids, by simp only [StatDict.weightedParse, r, ok_bind, hb], hs'⟩

/-! ## scores -/

theorem xlogx_num {E : Env F} (L : EnvLaws E) {n : Int} (h : 1 ≤ n) : L.Mag 74 (StatDict.xlogx E.ops n) :=
  L.mul (j := 64) (k := 10) (by omega) (L.int n) (L.log (L.monoPos (by omega) (L.intPos n h)))

theorem codeLengthSum_num {E : Env F} (L : EnvLaws E) (s : StatDict F) : L.Mag 134 (s.codeLengthSum E.ops) := by
  unfold StatDict.codeLengthSum
  have : ∀ (l : List Nat) (x : F), L.Mag 134 x → L.Mag 134 (l.foldl (fun sum (i : Nat) =>
      let f := s.freq (i : Int)
      if 0 < f then E.ops.sub sum (StatDict.xlogx E.ops f) else sum) x) := by
    intro l
    induction l with
    | nil => intro x h; exact h
    | cons i l ih =>
      intro x h
      apply ih
      dsimp only
      split
      · next hf => exact L.absorbSub (by omega) (by omega) h (xlogx_num L (by omega))
      · exact h
  exact this _ _ (L.mono (by omega) (L.int 0))

/-- The code length of everything that was counted. -/
theorem codeLength_num {E : Env F} (L : EnvLaws E) {s : StatDict F} (h1 : 1 ≤ s.totalChars) (h2 : 1 ≤ s.power) :
    L.Mag 262 (E.ops.mul (s.codeLengthPerChar E.ops) (E.ops.ofInt s.totalChars)) :=
  L.mul (j := 198) (k := 64) (by omega) (L.div (j := 134) (k := 64) (by omega)
    (L.absorbAdd (by omega) (by omega) (codeLengthSum_num L s) (xlogx_num L h2)) (L.intPos _ h1)) (L.int _)

theorem itemScore_num {E : Env F} (L : EnvLaws E) {s : StatDict F} {cl : F} {count : Int} {parse : List Int} (hcl : L.Mag 262 cl)
    (hc : 1 ≤ count) (hp : 1 ≤ s.power) (hpar : parse ≠ []) (hf : ∀ i, 0 ≤ s.freq i) :
    L.Num (s.itemScore E.ops cl count parse) := by
  have hlen : 1 ≤ (parse.length : Int) := by
    have := List.length_pos_iff.2 hpar
    omega
  have hnp : 1 ≤ s.power + ((parse.length : Int) - 1) * count := by
    have : 0 ≤ ((parse.length : Int) - 1) * count := Int.mul_nonneg (by omega) (by omega)
    omega
  unfold StatDict.itemScore
  dsimp only
  refine L.mono (j := 263) (by omega) (L.sub (by omega) ?_ hcl)
  have h0 : L.Mag 262 (E.ops.add (E.ops.sub (E.ops.add cl (StatDict.xlogx E.ops count)) (StatDict.xlogx E.ops s.power))
      (StatDict.xlogx E.ops (s.power + ((parse.length : Int) - 1) * count))) :=
    L.absorbAdd (by omega) (by omega) (L.absorbSub (by omega) (by omega) (L.absorbAdd (by omega) (by omega) hcl (xlogx_num L hc))
      (xlogx_num L hp)) (xlogx_num L hnp)
  revert h0
  generalize E.ops.add (E.ops.sub (E.ops.add cl (StatDict.xlogx E.ops count)) (StatDict.xlogx E.ops s.power))
      (StatDict.xlogx E.ops (s.power + ((parse.length : Int) - 1) * count)) = c
  clear hnp hlen hpar
  induction parse generalizing c with
  | nil => intro h; exact h
  | cons i l ih =>
    intro h
    apply ih
    have := hf i
    refine L.absorbSub (j := 75) (by omega) (by omega) h (L.sub (by omega) (xlogx_num L (by omega)) ?_)
    split
    · next hh => exact xlogx_num L (by omega)
    · exact L.mono (by omega) (L.int 0)

/-! ## facts about a healthy dictionary -/

theorem Healthy.freq_nonneg {s : StatDict F} (h : Healthy s) (i : Int) : 0 ≤ s.freq i := by
  by_cases hi : 0 ≤ i
  · obtain ⟨n, rfl⟩ : ∃ n : Nat, i = (n : Int) := ⟨i.toNat, by omega⟩
    rw [freq_nat]
    by_cases hn : n < s.symbolFreqs.length
    · exact h.inv.nonneg _ (fq_mem hn)
    · rw [fq_of_le (by omega)]
  · obtain ⟨n, rfl⟩ : ∃ n : Nat, i = Int.negSucc n := ⟨(-i - 1).toNat, by omega⟩
    simp [StatDict.freq, rd]

theorem fq_le_sum {l : List Int} (h : ∀ f ∈ l, 0 ≤ f) (n : Nat) : fq l n ≤ sumI l := by
  induction l generalizing n with
  | nil => simp [fq, sumI_eq]
  | cons a l ih =>
    rw [sumI_cons]
    have h0 := h a (by simp)
    have h1 := sumI_nonneg fun f hf => h f (List.mem_cons_of_mem a hf)
    cases n with
    | zero => rw [fq_cons_zero]; omega
    | succ n =>
      rw [fq_cons_succ]
      have := ih (fun f hf => h f (by simp [hf])) n
      omega

theorem Healthy.freq_le_power {s : StatDict F} (h : Healthy s) (n : Nat) : s.freq (n : Int) ≤ s.power := by
  rw [freq_nat, h.sum]
  exact fq_le_sum h.inv.nonneg n

theorem Healthy.power_le_chars {s : StatDict F} (h : Healthy s) : s.power ≤ s.totalChars := by
  rw [h.sum, h.chars, ← sum_fq h.inv.size]
  unfold charSum
  apply Finset.sum_le_sum
  intro i hi
  have hi := Finset.mem_range.1 hi
  have hf := h.freq_nonneg (i : Int)
  rw [freq_nat] at hf
  have hl : 1 ≤ wlen s.dict.seqs i := by
    have hne := h.sorted.nonempty _ (List.getElem_mem hi)
    have := List.length_pos_iff.2 hne
    simp only [wlen, List.getElem?_eq_getElem hi, Option.getD_some]
    omega
  nlinarith

theorem Sorted.parent {d : IntDict} (hd : Sorted d) {n : Nat} (hn : n < d.seqs.length) :
    ∃ p, d.parent (n : Int) = .ok p ∧ IsParent d.seqs n p :=
  ⟨d.parents[n]'(by rw [hd.len]; exact hn), rd_of_lt (by rw [hd.len]; exact hn),
    hd.par n _ (List.getElem?_eq_getElem (by rw [hd.len]; exact hn))⟩

/-- In a sorted dictionary, the root test of the code is "no shorter prefix". -/
theorem isParent_root {d : IntDict} (hd : Sorted d) {n : Nat} {p : Int} {w : IntSeq} (hw : d.seqs[n]? = some w)
    (hp : IsParent d.seqs n p) : p < 0 ↔ ∀ v ∈ d.seqs, v <+: w → v = w := by
  rcases hp w hw with ⟨rfl, h⟩ | ⟨j, hj, rfl, ⟨v, hv, hpre⟩, _⟩
  · refine ⟨fun _ v hv hpre => ?_, fun _ => by omega⟩
    obtain ⟨k, hk, rfl⟩ := List.getElem_of_mem hv
    by_contra hne
    have hkn : k < n := by
      by_contra hcon
      have := sorted_le hd.le (by omega) hw (List.getElem?_eq_getElem hk)
      exact hne (le_antisymm (prefix_le hpre) this)
    exact h k hkn _ (List.getElem?_eq_getElem hk) hpre
  · refine ⟨fun h => by omega, fun h => ?_⟩
    exfalso
    have := h v (List.mem_of_getElem? hv) hpre
    rw [this] at hv
    have := index_unique hd.nodup hv hw
    omega

theorem root_single {words : List IntSeq} (hne : ∀ w ∈ words, w ≠ []) (hc : Closed words) {w : IntSeq} (hw : w ∈ words) :
    (∀ v ∈ words, v <+: w → v = w) ↔ w.length = 1 := by
  constructor
  · intro h
    cases w with
    | nil => exact absurd rfl (hne _ hw)
    | cons x xs =>
      have := h [x] (hc _ hw x (by simp)) ⟨xs, rfl⟩
      rw [← this]
      rfl
  · intro h v hv hpre
    have h1 := List.length_pos_iff.2 (hne v hv)
    have h2 := hpre.length_le
    exact hpre.eq_of_length (by omega)

theorem filter_range {q : IntSeq → Bool} {g : Nat → Bool} (l : List IntSeq) (h : ∀ n w, l[n]? = some w → g n = q w) :
    ((List.range l.length).filter g).length = (l.filter q).length := by
  induction l using List.reverseRecOn with
  | nil => rfl
  | append_singleton l w ih =>
    rw [List.length_append, List.length_singleton, List.range_succ, List.filter_append, List.filter_append,
      List.length_append, List.length_append, ih fun n v hv => h n v (by
        rw [List.getElem?_append_left (List.getElem?_eq_some_iff.1 hv).1]; exact hv)]
    have := h l.length w (by simp)
    simp only [List.filter_cons, this, List.filter_nil]
    split <;> rfl

/-- The root test of the code. -/
def rootAt (s : StatDict F) (n : Nat) : Bool := match s.dict.parents[n]? with | some p => decide (p < 0) | none => false

theorem countRoots_eq {s : StatDict F} (hd : Sorted s.dict) : ∀ (l : List Nat), (∀ i ∈ l, i < s.dict.seqs.length) →
    s.countRoots l = .ok (((l.filter (rootAt s)).length : Nat) : Int) := by
  intro l
  induction l with
  | nil => intro _; rfl
  | cons i l ih =>
    intro h
    have hi : i < s.dict.parents.length := by rw [hd.len]; exact h i (by simp)
    simp only [StatDict.countRoots, IntDict.parent, rd_of_lt hi, ok_bind, ih fun j hj => h j (by simp [hj]), pure_M,
      List.filter_cons]
    have hr : rootAt s i = decide (s.dict.parents[i] < 0) := by simp only [rootAt, List.getElem?_eq_getElem hi]
    by_cases hp : s.dict.parents[i] < 0
    · simp [hr, hp]
    · simp [hr, hp]

theorem unusedIds_spec {s : StatDict F} (hd : Sorted s.dict) : ∀ (l : List Nat), (∀ i ∈ l, i < s.dict.seqs.length) →
    ∃ ex, s.unusedIds l = .ok ex ∧ ∀ i : Int, i ∈ ex ↔ ∃ n ∈ l, i = (n : Int) ∧ s.freq (n : Int) = 0 ∧
      ∃ p, s.dict.parents[n]? = some p ∧ 0 ≤ p := by
  intro l
  induction l with
  | nil => intro _; exact ⟨[], rfl, by simp⟩
  | cons k l ih =>
    intro h
    have hk : k < s.dict.parents.length := by rw [hd.len]; exact h k (by simp)
    obtain ⟨ex, e1, e2⟩ := ih fun j hj => h j (by simp [hj])
    refine ⟨if (0 ≤ s.dict.parents[k] && s.freq (k : Int) == 0) = true then (k : Int) :: ex else ex, ?_, ?_⟩
    · simp only [StatDict.unusedIds, IntDict.parent, rd_of_lt hk, ok_bind, e1, pure_M]
    · intro i
      by_cases hc : 0 ≤ s.dict.parents[k] ∧ s.freq (k : Int) = 0
      · have : (0 ≤ s.dict.parents[k] && s.freq (k : Int) == 0) = true := by simp [hc]
        rw [if_pos this, List.mem_cons, e2]
        constructor
        · rintro (rfl | ⟨n, hn, r⟩)
          · exact ⟨k, by simp, rfl, hc.2, _, List.getElem?_eq_getElem hk, hc.1⟩
          · exact ⟨n, by simp [hn], r⟩
        · rintro ⟨n, hn, r⟩
          rcases List.mem_cons.1 hn with rfl | hn
          · exact Or.inl r.1
          · exact Or.inr ⟨n, hn, r⟩
      · have : ¬ (0 ≤ s.dict.parents[k] && s.freq (k : Int) == 0) = true := by simpa using hc
        rw [if_neg this, e2]
        constructor
        · rintro ⟨n, hn, r⟩
          exact ⟨n, by simp [hn], r⟩
        · rintro ⟨n, hn, r1, r2, p, r3, r4⟩
          rcases List.mem_cons.1 hn with rfl | hn
          · exfalso
            rw [List.getElem?_eq_getElem hk] at r3
            cases r3
            exact hc ⟨r4, r2⟩
          · exact ⟨n, hn, r1, r2, p, r3, r4⟩

/-- An item produced by `stat_items`. -/
structure RItem {E : Env F} (L : EnvLaws E) (s : StatDict F) (it : StatItem F) (n : Nat) (w : IntSeq) : Prop where
  first : it.first = -1
  second : it.second = (n : Int)
  word : s.dict.seqs[n]? = some w
  count : it.count = s.freq (n : Int)
  single : w.length = 1 → it.score = E.ops.maxVal
  multi : w.length ≠ 1 → L.Num it.score ∧ E.ops.lt (E.ops.ofInt 0) it.score = true ∧ 1 ≤ it.count

theorem Healthy.avail {s : StatDict F} (h : Healthy s) {ex : List Int} {n : Nat} {w : IntSeq} (hw : s.dict.seqs[n]? = some w)
    (hl : 1 < w.length) (hex : ∀ (k : Nat) (x : Int), s.dict.seqs[k]? = some [x] → (k : Int) ∉ ex) :
    Avail s.dict ((n : Int) :: ex) w := by
  intro x hx
  obtain ⟨k, hk, hk'⟩ := List.getElem_of_mem (h.closed w (List.mem_of_getElem? hw) x hx)
  have hk1 : s.dict.seqs[k]? = some [x] := by rw [List.getElem?_eq_getElem hk, hk']
  refine ⟨k, hk1, ?_⟩
  intro hmem
  rcases List.mem_cons.1 hmem with e | hmem
  · have : k = n := by omega
    subst this
    rw [hw] at hk1
    cases hk1
    simp at hl
  · exact hex k x hk1 hmem

/-- The loop of `stat_items` on a healthy state. -/
theorem statItemsLoop_spec {E : Env F} (L : EnvLaws E) (SL : ScoreLaws E.ops) {s : StatDict F} (h : Healthy s) {ex : List Int} {cl : F}
    (hcl : 1 ≤ s.totalChars → 1 ≤ s.power → L.Mag 262 cl)
    (hex : ∀ (k : Nat) (x : Int), s.dict.seqs[k]? = some [x] → (k : Int) ∉ ex)
    (hun : ∀ (k : Nat) w, s.dict.seqs[k]? = some w → 1 < w.length → s.freq (k : Int) = 0 → (k : Int) ∈ ex) :
    ∀ (l : List Nat), (∀ i ∈ l, i < s.dict.seqs.length) → l.Nodup →
    ∃ items, StatDict.statItemsLoop E.ops s cl ex l = .ok items ∧
      (∀ it ∈ items, ∃ n w, n ∈ l ∧ (n : Int) ∉ ex ∧ RItem L s it n w) ∧
      (items.map (·.second)).Nodup ∧
      (∀ n ∈ l, ∀ x, s.dict.seqs[n]? = some [x] → ∃ it ∈ items, RItem L s it n [x]) := by
  intro l
  induction l with
  | nil => intro _ _; exact ⟨[], rfl, by simp, by simp, by simp⟩
  | cons i l ih =>
    intro hl hnd
    rw [List.nodup_cons] at hnd
    have hi := hl i (by simp)
    have hw : s.dict.seqs[i]? = some s.dict.seqs[i] := List.getElem?_eq_getElem hi
    obtain ⟨items, e1, e2, e3, e4⟩ := ih (fun j hj => hl j (by simp [hj])) hnd.2
    have hfresh : (i : Int) ∉ items.map (·.second) := by
      intro hmem
      obtain ⟨it, hit, heq⟩ := List.mem_map.1 hmem
      obtain ⟨n, w, hn, _, r⟩ := e2 it hit
      rw [r.second] at heq
      have : n = i := by omega
      exact hnd.1 (this ▸ hn)
    by_cases hx : ex.contains (i : Int) = true
    · refine ⟨items, by simp only [StatDict.statItemsLoop, hx, if_true, e1], ?_, e3, ?_⟩
      · intro it hit
        obtain ⟨n, w, hn, r⟩ := e2 it hit
        exact ⟨n, w, by simp [hn], r⟩
      · intro n hn x hnx
        rcases List.mem_cons.1 hn with rfl | hn
        · exact absurd (by simpa using hx) (hex _ _ hnx)
        · exact e4 n hn x hnx
    · have hx' : (i : Int) ∉ ex := by simpa using hx
      by_cases hlen : 1 < s.dict.seqs[i].length
      · have hcnt : 1 ≤ s.freq (i : Int) := by
          have h0 := h.freq_nonneg (i : Int)
          by_contra hcon
          exact hx' (hun i _ hw hlen (by omega))
        have hpow := h.freq_le_power i
        have hch := h.power_le_chars
        obtain ⟨ids, w1, w2⟩ := statWeighted_spec SL h.sorted (seq := s.dict.seqs[i]) (ex := (i : Int) :: ex)
          (freqs := s.symbolFreqs) (total := s.power) h.inv.nonneg h.inv.power (h.avail hw hlen hex)
        have hids : ids ≠ [] := by
          rintro rfl
          obtain ⟨ws, a, b⟩ := w2
          cases a
          rw [← b] at hlen
          simp at hlen
        have hnum := itemScore_num L (s := s) (cl := cl) (count := s.freq (i : Int)) (parse := ids)
          (hcl (by omega) (by omega)) hcnt (by omega) hids h.freq_nonneg
        by_cases hsc : E.ops.lt (E.ops.ofInt 0) (s.itemScore E.ops cl (s.freq (i : Int)) ids) = true
        · refine ⟨⟨-1, (i : Int), s.itemScore E.ops cl (s.freq (i : Int)) ids, s.freq (i : Int)⟩ :: items, ?_, ?_, ?_, ?_⟩
          · simp only [StatDict.statItemsLoop, hx, if_false, IntDict.get, rd_of_lt hi, ok_bind, hlen, if_true, w1, e1,
              hsc, pure_M, Bool.false_eq_true]
          · intro it hit
            rcases List.mem_cons.1 hit with rfl | hit
            · exact ⟨i, _, by simp, hx', rfl, rfl, hw, rfl, fun hh => by omega, fun _ => ⟨hnum, hsc, hcnt⟩⟩
            · obtain ⟨n, w, hn, r⟩ := e2 it hit
              exact ⟨n, w, by simp [hn], r⟩
          · rw [List.map_cons, List.nodup_cons]
            exact ⟨hfresh, e3⟩
          · intro n hn x hnx
            rcases List.mem_cons.1 hn with rfl | hn
            · rw [hw] at hnx
              rw [Option.some.inj hnx] at hlen
              simp at hlen
            · obtain ⟨it, hit, r⟩ := e4 n hn x hnx
              exact ⟨it, by simp [hit], r⟩
        · refine ⟨items, ?_, ?_, e3, ?_⟩
          · simp only [StatDict.statItemsLoop, hx, if_false, IntDict.get, rd_of_lt hi, ok_bind, hlen, if_true, w1, e1,
              hsc, pure_M, Bool.false_eq_true]
          · intro it hit
            obtain ⟨n, w, hn, r⟩ := e2 it hit
            exact ⟨n, w, by simp [hn], r⟩
          · intro n hn x hnx
            rcases List.mem_cons.1 hn with rfl | hn
            · rw [hw] at hnx
              rw [Option.some.inj hnx] at hlen
              simp at hlen
            · exact e4 n hn x hnx
      · have hone : s.dict.seqs[i].length = 1 := by
          have := List.length_pos_iff.2 (h.sorted.nonempty _ (List.getElem_mem hi))
          omega
        have hr : RItem L s ⟨-1, (i : Int), E.ops.maxVal, s.freq (i : Int)⟩ i s.dict.seqs[i] :=
          ⟨rfl, rfl, hw, rfl, fun _ => rfl, fun hh => absurd hone hh⟩
        refine ⟨⟨-1, (i : Int), E.ops.maxVal, s.freq (i : Int)⟩ :: items, ?_, ?_, ?_, ?_⟩
        · simp only [StatDict.statItemsLoop, hx, if_false, IntDict.get, rd_of_lt hi, ok_bind, hlen, e1, pure_M,
            Bool.false_eq_true]
        · intro it hit
          rcases List.mem_cons.1 hit with rfl | hit
          · exact ⟨i, _, by simp, hx', hr⟩
          · obtain ⟨n, w, hn, r⟩ := e2 it hit
            exact ⟨n, w, by simp [hn], r⟩
        · rw [List.map_cons, List.nodup_cons]
          exact ⟨hfresh, e3⟩
        · intro n hn x hnx
          rcases List.mem_cons.1 hn with rfl | hn
          · rw [hw] at hnx
            have := Option.some.inj hnx
            exact ⟨_, by simp, this ▸ hr⟩
          · obtain ⟨it, hit, r⟩ := e4 n hn x hnx
            exact ⟨it, by simp [hit], r⟩

theorem reduceLoop_eq (O : FloatOps F) {s : StatDict F} (hd : Sorted s.dict) (power : Int) :
    ∀ (items : List (StatItem F)) (mp : F),
    (∀ it ∈ items, 0 ≤ it.second ∧ it.second < (s.dict.seqs.length : Int)) →
    ∃ m, s.reduceLoop O power items mp = .ok (items.map (fun it => wordAt s it.second), items.map (·.count), m) := by
  intro items
  induction items with
  | nil => intro mp _; exact ⟨mp, rfl⟩
  | cons it items ih =>
    intro mp h
    have hit := h it (by simp)
    obtain ⟨n, hn⟩ : ∃ n : Nat, it.second = (n : Int) := ⟨it.second.toNat, by omega⟩
    have hn' : n < s.dict.seqs.length := by omega
    obtain ⟨p, hp, _⟩ := hd.parent hn'
    obtain ⟨m, hm⟩ := ih (if 0 ≤ p then O.min (O.div (O.ofInt (it.count + 1)) (O.ofInt (power + (s.size : Int)))) mp else mp)
      fun i hi => h i (by simp [hi])
    refine ⟨m, ?_⟩
    simp only [StatDict.reduceLoop, hn, hp, ok_bind, hm, pure_M, List.map_cons]
    rw [get_wordAt (by omega) (by omega)]
    rfl

/-- What `reduce` returns on a healthy state. -/
theorem reduce_spec {E : Env F} (L : EnvLaws E) (SL : ScoreLaws E.ops) {s : StatDict F} (h : Healthy s) (slots : Int) :
    ∃ words freqs mp, s.reduce E slots = .ok (words, freqs, mp) ∧ words.Nodup ∧ words.length = freqs.length ∧
      (∀ w ∈ words, w ∈ s.dict.seqs) ∧
      ((singles s.dict.seqs : Int) ≤ slots + prefixFree s.dict.seqs → ∀ x, [x] ∈ s.dict.seqs → [x] ∈ words) ∧
      (slots + prefixFree s.dict.seqs < 0 → ∀ x, [x] ∈ s.dict.seqs → [x] ∈ words) ∧
      (0 ≤ slots + prefixFree s.dict.seqs → (words.length : Int) ≤ slots + prefixFree s.dict.seqs) ∧
      (∀ f ∈ freqs, 0 ≤ f) ∧
      (∀ w ∈ words, w.length = 1 ∨ ∃ n : Nat, s.dict.seqs[n]? = some w ∧ 1 ≤ s.freq (n : Int)) := by
  have hpref : ∀ n w, s.dict.seqs[n]? = some w →
      (rootAt s n =
        s.dict.seqs.all fun v => !(v.isPrefixOf w) || v == w) := by
    intro n w hw
    have hn := (List.getElem?_eq_some_iff.1 hw).1
    have hn' : n < s.dict.parents.length := by rw [h.sorted.len]; exact hn
    unfold rootAt
    rw [List.getElem?_eq_getElem hn']
    have := isParent_root h.sorted hw (h.sorted.par n _ (List.getElem?_eq_getElem hn'))
    rw [Bool.eq_iff_iff]
    simp only [decide_eq_true_eq, List.all_eq_true, Bool.or_eq_true, Bool.not_eq_true', beq_iff_eq]
    rw [this]
    constructor
    · intro hh v hv
      by_cases hp : v <+: w
      · exact Or.inr (hh v hv hp)
      · left
        rw [← Bool.not_eq_true]
        simpa using hp
    · intro hh v hv hp
      rcases hh v hv with h' | h'
      · rw [← Bool.not_eq_true] at h'
        exact absurd (by simpa using hp) h'
      · exact h'
  have hroots : s.countRoots (List.range s.symbolFreqs.length) = .ok ((prefixFree s.dict.seqs : Nat) : Int) := by
    rw [countRoots_eq h.sorted _ (by intro i hi; rw [← h.full]; simpa using hi), h.full]
    rw [filter_range s.dict.seqs hpref]
    rfl
  obtain ⟨ex, u1, u2⟩ := unusedIds_spec h.sorted (List.range s.size) (by intro i hi; simpa [StatDict.size, IntDict.size] using hi)
  have hex : ∀ (k : Nat) (x : Int), s.dict.seqs[k]? = some [x] → (k : Int) ∉ ex := by
    intro k x hk hmem
    obtain ⟨n, _, e, _, p, hp, hp0⟩ := (u2 k).1 hmem
    have : k = n := by omega
    subst this
    have hroot := (isParent_root h.sorted hk (h.sorted.par k p hp)).2
      ((root_single h.sorted.nonempty h.closed (List.mem_of_getElem? hk)).2 rfl)
    omega
  have hun : ∀ (k : Nat) w, s.dict.seqs[k]? = some w → 1 < w.length → s.freq (k : Int) = 0 → (k : Int) ∈ ex := by
    intro k w hk hlen hf
    have hkl := (List.getElem?_eq_some_iff.1 hk).1
    have hkp : k < s.dict.parents.length := by rw [h.sorted.len]; exact hkl
    refine (u2 k).2 ⟨k, by simpa [StatDict.size, IntDict.size] using hkl, rfl, hf, _, List.getElem?_eq_getElem hkp, ?_⟩
    by_contra hcon
    have := (isParent_root h.sorted hk (h.sorted.par k _ (List.getElem?_eq_getElem hkp))).1 (by omega)
    have := (root_single h.sorted.nonempty h.closed (List.mem_of_getElem? hk)).1 this
    omega
  obtain ⟨raw, i1, i2, i3, i4⟩ := statItemsLoop_spec L SL h (ex := ex)
    (cl := E.ops.mul (s.codeLengthPerChar E.ops) (E.ops.ofInt s.totalChars))
    (fun h1 h2 => codeLength_num L h1 h2)
    hex hun (List.range s.symbolFreqs.length) (by intro i hi; rw [← h.full]; simpa using hi) List.nodup_range
  obtain ⟨sp, ss⟩ := L.sort raw (by
    intro a ha
    obtain ⟨n, w, _, _, r⟩ := i2 a ha
    by_cases hw : w.length = 1
    · exact Or.inl (r.single hw)
    · exact Or.inr (r.multi hw).1)
  generalize hsorted : E.sortItems raw = items at sp ss
  have hin : ∀ it ∈ items, ∃ n w, RItem L s it n w := by
    intro it hit
    obtain ⟨n, w, _, _, r⟩ := i2 it (sp.mem_iff.1 hit)
    exact ⟨n, w, r⟩
  have hnd : (items.map (·.second)).Nodup := (sp.map _).nodup_iff.2 i3
  have hwd : ∀ it n w, RItem L s it n w → wordAt s it.second = w := by
    intro it n w r
    simp [wordAt, r.second, r.word]
  have hndw : (items.map fun it => wordAt s it.second).Nodup := by
    rw [List.nodup_map_iff_inj_on (List.Nodup.of_map _ hnd)]
    intro a ha b hb hab
    obtain ⟨n, w, r⟩ := hin a ha
    obtain ⟨m, v, r'⟩ := hin b hb
    rw [hwd a n w r, hwd b m v r'] at hab
    subst hab
    have := index_unique h.sorted.nodup r.word r'.word
    subst this
    exact (List.nodup_map_iff_inj_on (List.Nodup.of_map _ hnd)).1 hnd a ha b hb (by rw [r.second, r'.second])
  generalize hkept : (if slots + (prefixFree s.dict.seqs : Int) < 0 then items
    else items.take (slots + (prefixFree s.dict.seqs : Int)).toNat) = kept
  have hsub : ∃ rest, items = kept ++ rest ∧ (slots + (prefixFree s.dict.seqs : Int) < 0 → rest = []) ∧
      (0 ≤ slots + (prefixFree s.dict.seqs : Int) → (kept.length : Int) ≤ slots + (prefixFree s.dict.seqs : Int) ∧
        (rest = [] ∨ (kept.length : Int) = slots + (prefixFree s.dict.seqs : Int))) := by
    subst hkept
    split
    · exact ⟨[], by simp, fun _ => rfl, fun hh => by omega⟩
    · next hneg =>
      refine ⟨items.drop (slots + (prefixFree s.dict.seqs : Int)).toNat, (List.take_append_drop _ _).symm, fun hh => by omega, fun hh => ⟨?_, ?_⟩⟩
      · rw [List.length_take]; omega
      · by_cases hl : items.length ≤ (slots + (prefixFree s.dict.seqs : Int)).toNat
        · exact Or.inl (List.drop_eq_nil_of_le hl)
        · right; rw [List.length_take]; omega
  obtain ⟨rest, k1, k2, k3⟩ := hsub
  have hkin : ∀ it ∈ kept, ∃ n w, RItem L s it n w := fun it hit => hin it (by rw [k1]; exact List.mem_append_left _ hit)
  obtain ⟨m, hm⟩ := reduceLoop_eq E.ops h.sorted (sumI (kept.map (·.count))) kept
    (E.ops.min (E.ops.div (E.ops.ofInt 1) (E.ops.ofInt (s.size : Int))) s.minProb) (by
      intro it hit
      obtain ⟨n, w, r⟩ := hkin it hit
      have := (List.getElem?_eq_some_iff.1 r.word).1
      rw [r.second]
      omega)
  -- every single symbol is among the items
  have hall : ∀ x, [x] ∈ s.dict.seqs → ∃ it ∈ items, ∃ n, RItem L s it n [x] := by
    intro x hx
    obtain ⟨n, hn, hn'⟩ := List.getElem_of_mem hx
    obtain ⟨it, hit, r⟩ := i4 n (by rw [h.full]; simpa using hn) x (by rw [List.getElem?_eq_getElem hn, hn'])
    exact ⟨it, sp.mem_iff.2 hit, n, r⟩
  refine ⟨kept.map fun it => wordAt s it.second, kept.map (·.count), m, ?_, ?_, by simp, ?_, ?_, ?_, ?_, ?_, ?_⟩
  · simp only [StatDict.reduce, StatDict.filterStatItems, hroots, ok_bind, u1, StatDict.statItems, i1, pure_M, hsorted, hkept]
    exact hm
  · rw [k1, List.map_append] at hndw
    exact (List.nodup_append.1 hndw).1
  · intro w hw
    obtain ⟨it, hit, rfl⟩ := List.mem_map.1 hw
    obtain ⟨n, w, r⟩ := hkin it hit
    rw [hwd it n w r]
    exact List.mem_of_getElem? r.word
  · intro hsl x hx
    obtain ⟨it, hit, n, r⟩ := hall x hx
    refine List.mem_map.2 ⟨it, ?_, hwd it n _ r⟩
    rw [k1] at hit ss
    rcases List.mem_append.1 hit with h' | hrest
    · exact h'
    exfalso
    have hscore := r.single rfl
    have hks := (k3 (by omega)).2
    rcases hks with hks | hks
    · rw [hks] at hrest; simp at hrest
    have hone : ∀ t ∈ kept ++ [it], (wordAt s t.second).length = 1 ∧ wordAt s t.second ∈ s.dict.seqs := by
      intro t ht
      have : ∃ n w, RItem L s t n w ∧ w.length = 1 := by
        rcases List.mem_append.1 ht with ht | ht
        · obtain ⟨n', w', r'⟩ := hkin t ht
          refine ⟨n', w', r', ?_⟩
          by_contra hw
          have h1 := (List.pairwise_append.1 ss).2.2 t ht it hrest
          have h2 := L.below _ (r'.multi hw).1
          rw [hscore, h2] at h1
          cases h1
        · rw [List.mem_singleton] at ht
          exact ⟨n, [x], ht ▸ r, rfl⟩
      obtain ⟨n', w', r', hl⟩ := this
      rw [hwd t n' w' r']
      exact ⟨hl, List.mem_of_getElem? r'.word⟩
    have hndk : ((kept ++ [it]).map fun t => wordAt s t.second).Nodup := by
      rw [k1, List.map_append] at hndw
      rw [List.map_append, List.nodup_append]
      refine ⟨(List.nodup_append.1 hndw).1, by simp, ?_⟩
      rintro a ha b hb rfl
      have hb' : a = wordAt s it.second := by simpa using hb
      exact (List.nodup_append.1 hndw).2.2 a ha a (by rw [hb']; exact List.mem_map.2 ⟨it, hrest, rfl⟩) rfl
    have hle := (hndk.subperm (l₂ := s.dict.seqs.filter fun w => w.length == 1) (by
      intro w hw
      obtain ⟨t, ht, rfl⟩ := List.mem_map.1 hw
      have := hone t ht
      rw [List.mem_filter]
      exact ⟨this.2, by simp [this.1]⟩)).length_le
    rw [List.length_map, List.length_append, List.length_singleton] at hle
    change kept.length + 1 ≤ singles s.dict.seqs at hle
    omega
  · intro hneg x hx
    obtain ⟨it, hit, n, r⟩ := hall x hx
    rw [k1, k2 hneg, List.append_nil] at hit
    exact List.mem_map.2 ⟨it, hit, hwd it n _ r⟩
  · intro hpos
    rw [List.length_map]
    exact (k3 hpos).1
  · intro f hf
    obtain ⟨it, hit, rfl⟩ := List.mem_map.1 hf
    obtain ⟨n, w, r⟩ := hkin it hit
    rw [r.count]
    exact h.freq_nonneg _
  · intro w hw
    obtain ⟨it, hit, rfl⟩ := List.mem_map.1 hw
    obtain ⟨n, w, r⟩ := hkin it hit
    rw [hwd it n w r]
    by_cases hl : w.length = 1
    · exact Or.inl hl
    · right
      have := (r.multi hl).2.2
      rw [r.count] at this
      exact ⟨n, r.word, this⟩

/-- In a healthy dictionary the prefix-free words are the one-symbol words. -/
theorem Healthy.prefixFree {s : StatDict F} (h : Healthy s) : Spec.prefixFree s.dict.seqs = singles s.dict.seqs := by
  unfold Spec.prefixFree singles
  congr 1
  apply List.filter_congr
  intro w hw
  have := root_single h.sorted.nonempty h.closed hw
  rw [Bool.eq_iff_iff]
  simp only [List.all_eq_true, Bool.or_eq_true, Bool.not_eq_true', beq_iff_eq]
  rw [← this]
  constructor
  · intro hh v hv hp
    rcases hh v hv with h' | h'
    · rw [← Bool.not_eq_true] at h'
      exact absurd (by simpa using hp) h'
    · exact h'
  · intro hh v hv
    by_cases hp : v <+: w
    · exact Or.inr (hh v hv hp)
    · left
      rw [← Bool.not_eq_true]
      simpa using hp

end VGram
