import Verif.Proofs.Sort
import Verif.Props.Sign

/-!
# C104: `std::sort`
-/

namespace VGram.Props

open VGram Spec

variable {log sqrt : Double → Double} {pow : Double → Double → Double} {ord : PairMap → PairMap}

/-- The comparison of core/src/main/cpp/algorithm/stat_dict_p.cc:156 on doubles. -/
def scoreLt (a b : StatItem Double) : Bool := Ext.lt (Double.val (Double.opposite a.score)) (Double.val (Double.opposite b.score))

/-- `std::sort` as a function on lists of items. -/
def stdSort (l : List (StatItem Double)) : List (StatItem Double) :=
  (Intro.sort scoreLt l).toOption.getD []

private theorem opp_lt {a b : Double} {x y : ℚ} (ha : Double.val a = .fin x) (hb : Double.val b = .fin y) :
    Ext.lt (Double.val (Double.opposite a)) (Double.val (Double.opposite b)) = decide (y < x) := by
  rw [val_opposite, val_opposite, ha, hb]
  simp [Ext.neg, Ext.lt]

/-- C104: `std::sort` with a comparison that is an order on the elements of the vector stays in the vector, ends, and sorts. -/
theorem C104_sort {α : Type} {lt : α → α → Bool} {S : α → Prop} (W : Weak lt S) (l : List α) (hS : ∀ a ∈ l, S a) :
    ∃ r, Intro.sort lt l = .ok r ∧ r.Perm l ∧ r.Pairwise fun a b => lt b a = false := Intro.sort_spec W l hS

/-- C104: the comparison of an expansion is an order on items with finite scores. -/
theorem C104_order : Weak scoreLt fun a => a.score.isFinite = true where
  asymm a b ha hb h := by
    obtain ⟨x, hx⟩ := fin_of_isFinite ha
    obtain ⟨y, hy⟩ := fin_of_isFinite hb
    unfold scoreLt at h ⊢
    rw [opp_lt hx hy] at h
    rw [opp_lt hy hx]
    simp only [decide_eq_true_eq, decide_eq_false_iff_not, not_lt] at h ⊢
    exact h.le
  trans a b c ha hb hc h1 h2 := by
    obtain ⟨x, hx⟩ := fin_of_isFinite ha
    obtain ⟨y, hy⟩ := fin_of_isFinite hb
    obtain ⟨z, hz⟩ := fin_of_isFinite hc
    unfold scoreLt at h1 h2 ⊢
    rw [opp_lt hx hy] at h1
    rw [opp_lt hy hz] at h2
    rw [opp_lt hx hz]
    simp only [decide_eq_false_iff_not, not_lt] at h1 h2 ⊢
    exact h1.trans h2

/-- C104: so `std::sort` obeys the law that the theorems on expansions ask of it. -/
theorem C104_items (l : List (StatItem Double))
    (hl : ∀ a ∈ l, a.score.isFinite = true) : (stdSort l).Perm l ∧
      (stdSort l).Pairwise fun a b => Ext.lt (Double.val (Double.opposite b.score)) (Double.val (Double.opposite a.score)) = false := by
  obtain ⟨r, e, hp, hs⟩ := C104_sort C104_order l hl
  have : stdSort l = r := by simp [stdSort, e, Except.toOption]
  rw [this]
  exact ⟨hp, hs⟩

/-- C104: all laws asked of libraries, with the text of libstdc++ for `std::sort` and the sampler. -/
theorem C104_library (hl : LogLaws log) (hs : SqrtLaw sqrt) (hord : ∀ p, (ord p).Perm p) (fuel : Nat) :
    LibraryLaws log (stdSort) ord (Gamma.gammas (Double.math log sqrt pow) (fuel + 1)) := C100_library hl hs C104_items hord fuel

/-- C104: a comparison that is no order, like `<=` in place of `<`: any 17 or more equal elements make `std::sort` leave the vector. -/
theorem C104_not_an_order {α : Type} (lt : α → α → Bool) (x : α) (hx : lt x x = true) {n : Nat} (hn : 16 < n) :
    Intro.sort lt (List.replicate n x) = .error .oob := by
  have hup : ∀ k f, Intro.up lt x (List.replicate k x) f = .error .oob := by
    intro k
    induction k with
    | zero => intro f; rfl
    | succ k ih => intro f; rw [List.replicate_succ, Intro.up, if_pos hx, ih]
  have hrd : ∀ i : Nat, i < n → rd (List.replicate n x) (i : Int) = .ok x := fun i hi => Intro.rd_nat (by simp [hi])
  have hset : ∀ i, (List.replicate n x).set i x = List.replicate n x := by
    intro i
    refine List.ext_getElem (by simp) fun k h1 h2 => ?_
    simp
  obtain ⟨limit, hlimit⟩ : ∃ limit, Nat.log 2 n * 2 = limit + 1 := ⟨Nat.log 2 n * 2 - 1, by have := Nat.log_pos (b := 2) (n := n) (by omega) (by omega); omega⟩
  have hs : Intro.swap (List.replicate n x) 0 (0 + (n - 0) / 2) = .ok (List.replicate n x) := by
    simp only [Intro.swap, hrd 0 (by omega), hrd (0 + (n - 0) / 2) (by omega), bind, Except.bind, pure, Except.pure, hset]
  have hm : Intro.median lt (List.replicate n x) 0 (0 + 1) (0 + (n - 0) / 2) (n - 1) = .ok (List.replicate n x) := by
    simp only [Intro.median, hrd (0 + 1) (by omega), hrd (0 + (n - 0) / 2) (by omega), hrd (n - 1) (by omega), bind, Except.bind, hx, if_true, hs]
  have hp : Intro.pivot lt (List.replicate n x) 0 n = .error .oob := by
    simp only [Intro.pivot, hm, hrd 0 (by omega), bind, Except.bind, Intro.partition, List.drop_replicate, hup]
  have hl : (List.replicate n x).isEmpty = false := by cases n with
    | zero => omega
    | succ n => rfl
  have h16 : 16 < n - 0 := by omega
  simp only [Intro.sort, hl, Bool.false_eq_true, if_false, List.length_replicate, hlimit, Intro.introsort, if_pos h16, bind, Except.bind, hp]

/-- C104: the heap sort for a recursion that gets too deep, by itself. -/
theorem C104_heap {α : Type} {lt : α → α → Bool} {S : α → Prop} (W : Weak lt S) (l : List α) (hS : ∀ a ∈ l, S a) :
    ∃ r, Intro.heapSort lt l = .ok r ∧ r.Perm l ∧ r.Pairwise fun a b => lt b a = false := Intro.heapSort_spec W l hS

/-- C104: an expansion with doubles, the sampler and the `std::sort` of libstdc++: it returns, every new word is made up by a pair that is not rare, and a word made up by frequent
pairs only is left out only if all places are used up. -/
theorem C104_learned (hl : LogLaws log) (hs : LogSign log) (hr : SqrtLaw sqrt) (hord : ∀ p, (ord p).Perm p) (fuel : Nat) (s0 : StatDict Double) (h0 : FreshStat s0)
    (seqs : List IntSeq) (slots : Int) (s : StatDict Double) (outs : List (List Int)) (h : parseAll (Double.ops log) s0 seqs = .ok (s, outs)) (hsd : s.dict.seqs.Pairwise (· < ·))
    (hn : (pairsOf outs).length < 2 ^ 31) :
    ∃ words freqs mp, s.expand (Double.env log stdSort ord (Gamma.gammas (Double.math log sqrt pow) (fuel + 1))) slots = .ok (words, freqs, mp) ∧
      (∀ w ∈ words, w ∈ s.dict.seqs ∨ ∃ k, MakesUp s.dict.seqs outs k w ∧ ¬ Rare (contingency outs k.1 k.2)) ∧
      ∀ w, w ∉ words → w ∉ s.dict.seqs → (∃ k, MakesUp s.dict.seqs outs k w) → (∀ k, MakesUp s.dict.seqs outs k w → Frequent (contingency outs k.1 k.2)) →
        words.length = (slots + s.dict.seqs.length).toNat := C103_learned hl hs hr C104_items hord fuel s0 h0 seqs slots s outs h hsd hn

/-- A heap of 7 numbers, and the heap sort of 12. -/
example : (Intro.make (fun a b : Nat => decide (a < b)) 7 3 [3, 1, 4, 1, 5, 9, 2]).toOption = some [9, 5, 4, 1, 1, 3, 2] ∧
    (Intro.heapSort (fun a b : Nat => decide (a < b)) [3, 1, 4, 1, 5, 9, 2, 6, 5, 3, 5, 8]).toOption = some [1, 1, 2, 3, 3, 4, 5, 5, 5, 6, 8, 9] := by decide +kernel

/-- At the limit of the recursion the heap is used. -/
example : (Intro.introsort (fun a b : Nat => decide (a < b)) 0 ((List.range 20).map fun i => i * 7 % 20) 0 20).toOption = some (List.range 20) := by decide +kernel

/-- A run that partitions: 40 numbers, many of them equal. -/
example : (Intro.sort (fun a b : Nat => decide (a < b)) ((List.range 40).map fun i => i * 37 % 23)).toOption =
    some [0, 0, 1, 1, 2, 2, 3, 3, 4, 5, 5, 6, 6, 7, 7, 8, 9, 10, 10, 11, 11, 12, 12, 13, 14, 14, 15, 15, 16, 16, 17, 17, 18, 19, 19, 20, 20, 21, 21, 22] := by decide +kernel

/-- The sort is not stable: of 20 equal numbers the places are exchanged. -/
example : ((Intro.sort (fun a b : Nat × Nat => decide (a.1 < b.1)) ((List.range 20).map fun i => (0, i))).toOption.map fun l => l.map (·.2)) =
    some [10, 19, 18, 17, 16, 15, 14, 13, 12, 11, 0, 9, 8, 7, 6, 5, 4, 3, 2, 1] := by decide +kernel

/-- An expansion with the libraries of libstdc++. -/
example : let E := Double.env roughLog stdSort (fun p => p) (Gamma.gammas (Double.math roughLog plainSqrt (fun d _ => d)) 1)
    (do
      let (s, _) ← parseAll E.ops (StatDict.new (Double.rounded false (1 / 500))) [[0, 1, 0, 1, 0, 1, 0, 0, 1, 0, 1, 0, 1, 0, 1], [2, 2, 2, 2]]
      let (words, _, _) ← s.expand E 10
      pure words : M (List IntSeq)) = .ok [[0], [1], [2], [1, 0], [0, 1], [2, 2]] := by decide +kernel

end VGram.Props
