import Verif.Proofs.Fits
import Verif.Proofs.Optimal
import Verif.Spec.Instances

/-!
# Properties of the dictionary (C01 – C12)

`alphabet()` of a dictionary `d` is `d.seqs`.
-/

namespace VGram.Props

open VGram Spec

variable {F : Type}

/-! ## C01 – C03 construction -/

/-- C01: construction succeeds on every list; the result is the sorted permutation of the input. -/
theorem C01_init_sorted_perm (l : List IntSeq) :
    ∃ d, IntDict.init l = .ok d ∧ d.seqs.Perm l ∧ d.seqs.Pairwise (· ≤ ·) ∧ d.size = l.length := by
  obtain ⟨ps, h1, _, _⟩ := init_spec l
  exact ⟨_, h1, sortSeqs_perm l, sortSeqs_sorted l, sortSeqs_length l⟩

example : IntDict.init [[2], [1, 2], [1], [2]] = .ok ⟨[[1], [1, 2], [2], [2]], [-1, 0, -1, 2]⟩ := by decide

/-- C02: `parent(i)` is the last earlier entry that is a prefix of word `i`, which is also the
longest such; -1 exactly when there is none. -/
theorem C02_parent (l : List IntSeq) (d : IntDict) (h : IntDict.init l = .ok d) (i : Nat) (w : IntSeq)
    (hw : d.seqs[i]? = some w) :
    ∃ p, d.parent (i : Int) = .ok p ∧
      ((p = -1 ∧ ∀ j v, j < i → d.seqs[j]? = some v → ¬ v <+: w) ∨
       (∃ (j : Nat) (u : IntSeq), p = (j : Int) ∧ j < i ∧ d.seqs[j]? = some u ∧ u <+: w ∧
          ∀ (k : Nat) (v : IntSeq), k < i → d.seqs[k]? = some v → v <+: w → k ≤ j ∧ v.length ≤ u.length)) := by
  obtain ⟨ps, h1, h2, h3⟩ := init_spec l
  rw [h1] at h
  cases h
  have hi : i < ps.length := by
    have := (List.getElem?_eq_some_iff.1 hw).1
    rw [sortSeqs_length] at this
    omega
  refine ⟨ps[i], rd_nat_ok.2 (List.getElem?_eq_getElem hi), ?_⟩
  rcases h3 i ps[i] (List.getElem?_eq_getElem hi) w hw with ⟨a, b⟩ | ⟨j, a, b, ⟨u, hu, hup⟩, c⟩
  · exact Or.inl ⟨a, fun j v hj hv => b j hj v hv⟩
  · refine Or.inr ⟨j, u, b, a, hu, hup, ?_⟩
    intro k v hk hv hp
    have hkj : k ≤ j := by
      by_contra hc
      exact c k (by omega) hk v hv hp
    refine ⟨hkj, ?_⟩
    exact (prefix_of_between hp (sorted_le (sortSeqs_sorted l) hkj hv hu) (prefix_le hup)).length_le

/-- C02 for duplicate-free words: the parent is the longest proper prefix among all words. -/
theorem C02_parent_nodup (l : List IntSeq) (hnd : l.Nodup) (d : IntDict) (h : IntDict.init l = .ok d) (i : Nat)
    (w : IntSeq) (hw : d.seqs[i]? = some w) :
    ∃ p, d.parent (i : Int) = .ok p ∧
      ((p = -1 ∧ ∀ v ∈ l, v <+: w → v = w) ∨
       (∃ u ∈ l, IsWord d.seqs p u ∧ u <+: w ∧ u ≠ w ∧ ∀ v ∈ l, v <+: w → v ≠ w → v.length ≤ u.length)) := by
  obtain ⟨ps, h1, _, _⟩ := init_spec l
  obtain ⟨p, hp, hc⟩ := C02_parent l d h i w hw
  rw [h1] at h
  cases h
  have hlt : (sortSeqs l).Pairwise (· < ·) := (sortSeqs_sorted l).imp₂ (fun a b h h' => lt_of_le_of_ne h h')
    ((sortSeqs_perm l).nodup_iff.2 hnd)
  have hidx : ∀ v ∈ l, v <+: w → v ≠ w → ∃ j, j < i ∧ (sortSeqs l)[j]? = some v := by
    intro v hv hpre hne
    obtain ⟨j, hj, hjv⟩ := List.getElem_of_mem ((sortSeqs_perm l).mem_iff.2 hv)
    refine ⟨j, ?_, by rw [List.getElem?_eq_getElem hj, hjv]⟩
    by_contra hc
    have := sorted_le (sortSeqs_sorted l) (Nat.le_of_not_lt hc) hw (by rw [List.getElem?_eq_getElem hj, hjv])
    exact hne (le_antisymm (prefix_le hpre) this)
  refine ⟨p, hp, ?_⟩
  rcases hc with ⟨a, b⟩ | ⟨j, u, a, hj, hu, hup, c⟩
  · refine Or.inl ⟨a, fun v hv hpre => ?_⟩
    by_contra hne
    obtain ⟨j, hj, hjv⟩ := hidx v hv hpre hne
    exact b j v hj hjv hpre
  · refine Or.inr ⟨u, (sortSeqs_perm l).mem_iff.1 (List.mem_of_getElem? hu), a ▸ isWord_nat.2 hu, hup, ?_, ?_⟩
    · rintro rfl
      obtain ⟨h1, e1⟩ := List.getElem?_eq_some_iff.1 hu
      obtain ⟨h2, e2⟩ := List.getElem?_eq_some_iff.1 hw
      have := List.pairwise_iff_getElem.1 hlt j i h1 h2 hj
      rw [e1, e2] at this
      exact lt_irrefl _ this
    · intro v hv hpre hne
      obtain ⟨k, hk, hkv⟩ := hidx v hv hpre hne
      exact (c k v hk hkv hpre).2

example : ∃ d, IntDict.init [[1, 2, 3], [1], [1, 3], [1, 2]] = .ok d ∧ d.seqs[2]? = some [1, 2, 3] ∧
    d.parent 2 = .ok 1 ∧ d.parent 3 = .ok 0 ∧ d.parent 0 = .ok (-1) :=
  ⟨⟨[[1], [1, 2], [1, 2, 3], [1, 3]], [-1, 0, 1, 0]⟩, by decide⟩

/-- C03: construction never faults, in particular never reads past the end of a word. -/
theorem C03_init_safe (l : List IntSeq) (f : Fault) : IntDict.init l ≠ .error f := by
  obtain ⟨ps, h1, _⟩ := init_spec l
  rw [h1]
  simp

/-- The unguarded `std::mismatch` does fault when the second range is a proper prefix of the first. -/
example : mismatchAtEnd [1, 2] [1] = .error .oob := by decide

/-! ## C04, C05 search -/

/-- C04: with excludes, the longest allowed prefix or -1; nothing is added. -/
theorem C04_search_excludes (l : List IntSeq) (hnd : l.Nodup) (hne : [] ∉ l) (d : IntDict) (h : IntDict.init l = .ok d)
    (x : Int) (xs : IntSeq) (ex : List Int) :
    ∃ i, d.search (x :: xs) (some ex) = .ok (d, i) ∧
      (IsLongestPrefix d.seqs (· ∉ ex) (x :: xs) i ∨ (i = -1 ∧ NoPrefix d.seqs (· ∉ ex) (x :: xs))) := by
  obtain ⟨d', h1, _, hs⟩ := init_sorted hnd (fun w hw e => hne (e ▸ hw))
  rw [h] at h1
  cases h1
  have hal : (fun i => allowed (some ex) i = true) = (· ∉ ex) := by
    funext i
    simp [allowed]
  rcases search_longest hs (x := x) (xs := xs) (some ex) (by simp) with ⟨n, w, a, _, _, _, b⟩ | ⟨a, _, b⟩
  · exact ⟨_, a, Or.inl (hal ▸ b)⟩
  · exact ⟨_, a, Or.inr ⟨rfl, hal ▸ b⟩⟩

/-- C04 for the empty query (no word is a prefix of it). -/
theorem C04_search_excludes_empty (l : List IntSeq) (hne : [] ∉ l) (d : IntDict) (h : IntDict.init l = .ok d)
    (ex : List Int) : d.search [] (some ex) = .ok (d, -1) := by
  obtain ⟨d', h1, _, hs⟩ := init_wf (fun w hw e => hne (e ▸ hw))
  rw [h] at h1
  cases h1
  obtain ⟨d', i, e, ho⟩ := search_wf hs [] (some ex) (by simp)
  cases ho with
  | hit n w a b c hp =>
    exact absurd (List.prefix_nil.1 hp) (hs.nonempty w (List.mem_of_getElem? c))
  | miss _ a b => rw [e, a, b]
  | grow _ _ a => cases a

example : ∃ d, IntDict.init [[1], [1, 2], [1, 2, 3]] = .ok d ∧ d.search [1, 2, 3, 4] (some [2, 5]) = .ok (d, 1) ∧
    d.search [1, 2, 3, 4] (some []) = .ok (d, 2) ∧ d.search [2] (some []) = .ok (d, -1) :=
  ⟨⟨[[1], [1, 2], [1, 2, 3]], [-1, 0, 1]⟩, by decide⟩

/-- C05: without excludes, the longest prefix, or exactly one new one-symbol word. -/
theorem C05_search (l : List IntSeq) (hnd : l.Nodup) (hne : [] ∉ l) (d : IntDict) (h : IntDict.init l = .ok d)
    (x : Int) (xs : IntSeq) :
    (∃ i, d.search (x :: xs) none = .ok (d, i) ∧ IsLongestPrefix d.seqs (fun _ => True) (x :: xs) i) ∨
    (NoPrefix d.seqs (fun _ => True) (x :: xs) ∧ ∃ d', d.search (x :: xs) none = .ok (d', (d.seqs.length : Int)) ∧
      d'.seqs = d.seqs ++ [[x]] ∧ d'.parents = d.parents ++ [-1]) := by
  obtain ⟨d', h1, _, hs⟩ := init_sorted hnd (fun w hw e => hne (e ▸ hw))
  rw [h] at h1
  cases h1
  obtain ⟨d', i, e, ho, hmax⟩ := search_raw hs.wf (x :: xs) none (by simp)
  replace hmax := hmax hs
  cases ho with
  | hit n w a b c hp hal =>
    subst a b
    refine Or.inl ⟨_, e, w, isWord_nat.2 c, hp, trivial, ?_⟩
    intro j v hj hv _
    obtain ⟨k, rfl, hk⟩ := hj.exists_nat
    have hkn : k ≤ n := by have := (hmax k v hk hv (by simp [allowed])).1; omega
    exact (prefix_of_between hv (sorted_le hs.le hkn hk c) (prefix_le hp)).length_le
  | miss a => exact absurd rfl a
  | grow y ys _ a b c =>
    cases a
    subst b c
    refine Or.inr ⟨?_, _, e, rfl, rfl⟩
    intro j v hj hv _
    obtain ⟨k, rfl, hk⟩ := hj.exists_nat
    have := congrArg (fun d => d.seqs.length) (hmax k v hk hv (by simp [allowed])).2
    simp [appendSym] at this

example : ∃ d, IntDict.init [[1], [1, 2]] = .ok d ∧ d.search [1, 2, 7] none = .ok (d, 1) ∧
    d.search [7, 1] none = .ok (⟨[[1], [1, 2], [7]], [-1, 0, -1]⟩, 2) := ⟨⟨[[1], [1, 2]], [-1, 0]⟩, by decide⟩

/-! ## C06 any history -/

/-- The dictionaries some history of calls can produce. -/
inductive History (O : FloatOps F) : IntDict → Prop
  | empty : History O IntDict.empty
  | init (l : List IntSeq) (hne : [] ∉ l) (d : IntDict) (h : IntDict.init l = .ok d) : History O d
  | search {d d' : IntDict} (seq : IntSeq) (ex : Option (List Int)) (i : Int) (hd : History O d)
      (h : d.search seq ex = .ok (d', i)) : History O d'
  | greedy {d d' : IntDict} (seq : IntSeq) (ex : Option (List Int)) (out r : List Int) (n : Int) (hd : History O d)
      (h : d.parseLinear seq out ex = .ok (d', r, n)) : History O d'
  | weighted {d d' : IntDict} (seq : IntSeq) (freqs : List Int) (total : Int) (out r : List Int) (n : Int)
      (hd : History O d) (h : d.parse O seq freqs total out = .ok (d', r, n)) : History O d'

theorem History.wf {O : FloatOps F} {d : IntDict} (h : History O d) : WF d := by
  induction h with
  | empty => exact empty_sorted.wf
  | init l hne d h =>
    obtain ⟨d', h1, _, hs⟩ := init_wf (fun w hw e => hne (e ▸ hw))
    rw [h] at h1
    cases h1
    exact hs
  | search seq ex i _ h ih => exact search_ok_wf ih h
  | greedy seq ex out r n _ h ih =>
    obtain ⟨⟨d1, o⟩, h1, h⟩ := bind_ok.1 h
    cases h
    exact linearLoop_ok_wf _ ih h1
  | weighted seq freqs total out r n _ h ih =>
    obtain ⟨⟨d1, o, sc⟩, h1, h⟩ := bind_ok.1 h
    cases h
    obtain ⟨⟨d2, t⟩, h2, h⟩ := bind_ok.1 h1
    obtain ⟨_, _, h⟩ := bind_ok.1 h
    obtain ⟨_, _, h⟩ := bind_ok.1 h
    cases h
    exact forward_ok_wf _ ih h2

/-- C06: on every reachable dictionary search terminates without fault and a non-negative answer
names a (non-excluded) word that is a prefix of the query. -/
theorem C06_search_safe (O : FloatOps F) (d : IntDict) (h : History O d) (x : Int) (xs : IntSeq) (ex : Option (List Int)) :
    ∃ d' i, d.search (x :: xs) ex = .ok (d', i) ∧
      (0 ≤ i → ∃ w, IsWord d'.seqs i w ∧ w <+: x :: xs ∧ ∀ e, ex = some e → i ∉ e) ∧
      (i < 0 → i = -1 ∧ ex ≠ none) := by
  obtain ⟨d', i, e, ho⟩ := search_wf h.wf (x :: xs) ex (by simp)
  refine ⟨d', i, e, ?_⟩
  cases ho with
  | hit n w a b c hp hal =>
    subst a b
    refine ⟨fun _ => ⟨w, isWord_nat.2 c, hp, ?_⟩, by omega⟩
    rintro e rfl
    simpa [allowed] using hal
  | miss a b c => exact ⟨by omega, fun _ => ⟨c, a⟩⟩
  | grow y ys a b c hi =>
    cases b
    subst c
    subst hi
    refine ⟨fun _ => ⟨[x], isWord_nat.2 ?_, ⟨xs, rfl⟩, ?_⟩, by omega⟩
    · simp [appendSym, IntDict.size]
    · rintro e rfl; cases a

/-- A reachable dictionary that is unsorted and contains duplicates. -/
example : History ratOps ⟨[[5], [3], [3]], [-1, -1, -1]⟩ :=
  .greedy [3, 3] none [] [1, 2] 2 (.init [[5]] (by decide) ⟨[[5]], [-1]⟩ (by decide)) (by decide)

/-! ## C07, C08 greedy parse -/

/-- C07: greedy parse is total and lossless on every reachable dictionary. -/
theorem C07_greedy_lossless (O : FloatOps F) (d : IntDict) (h : History O d) (seq : IntSeq) (out : List Int) :
    ∃ d' ids, d.parseLinear seq out none = .ok (d', out ++ ids, ((out ++ ids).length : Int)) ∧
      Spells d'.seqs ids seq := by
  obtain ⟨d', ids, h1, _, _, h4⟩ := linearLoop_wf seq.length d seq out h.wf (le_refl _)
  exact ⟨d', ids, by simp [IntDict.parseLinear, h1], h4⟩

/-- C07: on a built dictionary that knows the symbols the parse is greedy. -/
theorem C07_greedy_longest (l : List IntSeq) (hnd : l.Nodup) (hne : [] ∉ l) (d : IntDict) (h : IntDict.init l = .ok d)
    (seq : IntSeq) (hk : Knows d.seqs seq) (out : List Int) :
    ∃ ids, d.parseLinear seq out none = .ok (d, out ++ ids, ((out ++ ids).length : Int)) ∧
      Spells d.seqs ids seq ∧ GreedyCover d.seqs (fun _ => True) seq ids := by
  obtain ⟨d', h1, _, hs⟩ := init_sorted hnd (fun w hw e => hne (e ▸ hw))
  rw [h] at h1
  cases h1
  obtain ⟨ids, a, b⟩ := linearLoop_sorted hs none seq.length seq out (fun _ => hk) (le_refl _)
  obtain ⟨d', ids', a', _, _, c⟩ := linearLoop_wf seq.length d seq out hs.wf (le_refl _)
  rw [a] at a'
  simp only [Except.ok.injEq, Prod.mk.injEq, List.append_cancel_left_eq] at a'
  obtain ⟨rfl, rfl⟩ := a'
  have hal : (fun i => allowed none i = true) = (fun _ : Int => True) := by funext i; simp [allowed]
  exact ⟨ids, by simp [IntDict.parseLinear, a], c, hal ▸ b⟩

example : ∃ d, IntDict.init [[1], [2], [1, 2]] = .ok d ∧ d.parseLinear [1, 2, 1, 1, 2] [9] none =
    .ok (d, [9, 1, 0, 1], 4) ∧ Knows d.seqs [1, 2, 1, 1, 2] := ⟨⟨[[1], [1, 2], [2]], [-1, 0, -1]⟩, by
      unfold Knows; decide⟩

/-- C08: greedy parse with excludes, on every reachable dictionary. -/
theorem C08_greedy_excludes (O : FloatOps F) (d : IntDict) (h : History O d) (seq : IntSeq) (out ex : List Int) :
    ∃ ids, d.parseLinear seq out (some ex) = .ok (d, out ++ ids, ((out ++ ids).length : Int)) ∧
      SparseCover d.seqs (· ∉ ex) seq ids := by
  obtain ⟨ids, h1, h2⟩ := linearLoop_ex h.wf ex seq.length seq out (le_refl _)
  exact ⟨ids, by simp [IntDict.parseLinear, h1], h2⟩

/-- C08: on a built dictionary a symbol is dropped only where no allowed word matches, and
everywhere else the longest allowed word is taken. -/
theorem C08_greedy_excludes_built (l : List IntSeq) (hnd : l.Nodup) (hne : [] ∉ l) (d : IntDict)
    (h : IntDict.init l = .ok d) (seq : IntSeq) (out ex : List Int) :
    ∃ ids, d.parseLinear seq out (some ex) = .ok (d, out ++ ids, ((out ++ ids).length : Int)) ∧
      GreedyCover d.seqs (· ∉ ex) seq ids := by
  obtain ⟨d', h1, _, hs⟩ := init_sorted hnd (fun w hw e => hne (e ▸ hw))
  rw [h] at h1
  cases h1
  obtain ⟨ids, a, b⟩ := linearLoop_sorted hs (some ex) seq.length seq out (by simp) (le_refl _)
  have hal : (fun i => allowed (some ex) i = true) = (· ∉ ex) := by funext i; simp [allowed]
  exact ⟨ids, by simp [IntDict.parseLinear, a], hal ▸ b⟩

example : ∃ d, IntDict.init [[1], [2], [1, 2]] = .ok d ∧ d.parseLinear [7, 1, 2, 2] [] (some [1]) =
    .ok (d, [0, 2, 2], 3) := ⟨⟨[[1], [1, 2], [2]], [-1, 0, -1]⟩, by decide, by decide⟩

/-! ## C09 – C11 weighted parse -/

/-- C09: the weighted parse is total and lossless on every reachable dictionary. -/
theorem C09_weighted_lossless (O : FloatOps F) (L : ScoreLaws O) (d : IntDict) (h : History O d) (seq : IntSeq)
    (freqs : List Int) (hf : ∀ f ∈ freqs, 0 ≤ f) (total : Int) (ht : 0 ≤ total) (out : List Int) :
    ∃ d' ids, d.parse O seq freqs total out = .ok (d', out ++ ids, ((out ++ ids).length : Int)) ∧
      Spells d'.seqs ids seq := by
  obtain ⟨d', ids, h1, _, _, h4⟩ := parse_spec L h.wf seq out hf ht
  exact ⟨d', ids, h1, h4⟩

/-- The hypotheses of C09 are met by exact arithmetic and a dictionary with an unsorted history. -/
example : ∃ d' ids, IntDict.parse ratOps ⟨[[5], [3], [3]], [-1, -1, -1]⟩ [3, 5, 4] [1, 0] 1 [8] = .ok (d', 8 :: ids, 4) ∧
    Spells d'.seqs ids [3, 5, 4] :=
  ⟨⟨[[5], [3], [3], [5], [4]], [-1, -1, -1, -1, -1]⟩, [2, 3, 4], by decide +kernel,
    [[3], [5], [4]], by repeat' constructor, rfl⟩

/-- C10: the weighted parse has maximal score among all parses. -/
theorem C10_weighted_optimal (O : FloatOps F) (L : ScoreLaws O) (OL : OrderLaws O) (l : List IntSeq) (hnd : l.Nodup)
    (hne : [] ∉ l) (d : IntDict) (h : IntDict.init l = .ok d) (seq : IntSeq) (hk : Knows d.seqs seq)
    (freqs : List Int) (hf : ∀ f ∈ freqs, 0 ≤ f) (total : Int) (ht : 0 ≤ total) (out : List Int) :
    ∃ ids, d.parse O seq freqs total out = .ok (d, out ++ ids, ((out ++ ids).length : Int)) ∧
      Spells d.seqs ids seq ∧ ∀ ids', Spells d.seqs ids' seq →
        O.lt (parseScore O freqs total d.seqs.length ids) (parseScore O freqs total d.seqs.length ids') = false := by
  obtain ⟨d', h1, _, hs⟩ := init_sorted hnd (fun w hw e => hne (e ▸ hw))
  rw [h] at h1
  cases h1
  obtain ⟨ids, a, b, c⟩ := weightedParse_opt L OL hs hk hf ht
  exact ⟨ids, by simp [IntDict.parse, a], b, c⟩

/-- The greedy choice is not taken where the frequencies are against it. -/
example : ∃ d, IntDict.init [[1], [2], [1, 2]] = .ok d ∧ d.parse ratOps [1, 2] [1, 5, 1] 7 [] = .ok (d, [1], 1) ∧
    d.parse ratOps [1, 2, 1] [9, 0, 9] 0 [] = .ok (d, [0, 2, 0], 3) :=
  ⟨⟨[[1], [1, 2], [2]], [-1, 0, -1]⟩, by decide +kernel⟩

/-- C11: parsing only appends unknown symbols of the sequence (words and parents). -/
theorem C11_weighted_frame (O : FloatOps F) (L : ScoreLaws O) (d : IntDict) (h : History O d) (seq : IntSeq)
    (freqs : List Int) (hf : ∀ f ∈ freqs, 0 ≤ f) (total : Int) (ht : 0 ≤ total) (out : List Int) :
    ∃ d' r, d.parse O seq freqs total out = .ok (d', r) ∧ GrowsBy d.seqs d'.seqs seq ∧
      d.parents <+: d'.parents ∧ d'.parents.length = d'.seqs.length := by
  obtain ⟨d', ids, h1, h2, ⟨syms, h3, h4, h5⟩, _⟩ := parse_spec L h.wf seq out hf ht
  exact ⟨d', _, h1, ⟨syms, h3, h5⟩, ⟨_, h4.symm⟩, h2.len⟩

/-- C11 for the greedy parse. -/
theorem C11_greedy_frame (O : FloatOps F) (d : IntDict) (h : History O d) (seq : IntSeq) (out : List Int) :
    ∃ d' r, d.parseLinear seq out none = .ok (d', r) ∧ GrowsBy d.seqs d'.seqs seq ∧
      d.parents <+: d'.parents ∧ d'.parents.length = d'.seqs.length := by
  obtain ⟨d', ids, h1, h2, ⟨syms, h3, h4, h5⟩, _⟩ := linearLoop_wf seq.length d seq out h.wf (le_refl _)
  exact ⟨d', (out ++ ids, ((out ++ ids).length : Int)), by simp [IntDict.parseLinear, h1], ⟨syms, h3, h5⟩, ⟨_, h4.symm⟩, h2.len⟩

/-- C11: with all symbols known nothing changes. -/
theorem C11_known_unchanged (O : FloatOps F) (L : ScoreLaws O) (OL : OrderLaws O) (l : List IntSeq) (hnd : l.Nodup)
    (hne : [] ∉ l) (d : IntDict) (h : IntDict.init l = .ok d) (seq : IntSeq) (hk : Knows d.seqs seq)
    (freqs : List Int) (hf : ∀ f ∈ freqs, 0 ≤ f) (total : Int) (ht : 0 ≤ total) (out : List Int) :
    (∃ r, d.parse O seq freqs total out = .ok (d, r)) ∧ ∃ r, d.parseLinear seq out none = .ok (d, r) := by
  obtain ⟨ids, a, _⟩ := C10_weighted_optimal O L OL l hnd hne d h seq hk freqs hf total ht out
  obtain ⟨ids', b, _⟩ := C07_greedy_longest l hnd hne d h seq hk out
  exact ⟨⟨_, a⟩, ⟨_, b⟩⟩

example : IntDict.parse ratOps ⟨[[1], [1, 2], [2]], [-1, 0, -1]⟩ [4, 1, 2] [] 0 [] =
    .ok (⟨[[1], [1, 2], [2], [4]], [-1, 0, -1, -1]⟩, [3, 1], 2) := by decide +kernel

/-! ## C12 duplicates -/

/-- C12 is false: a duplicate-free dictionary gets the word `[3]` twice from one parse. -/
theorem C12_duplicates_false :
    ¬ ∀ (l : List IntSeq) (d d' : IntDict) (seq : IntSeq) (r : List Int × Int), l.Nodup → [] ∉ l →
      IntDict.init l = .ok d → d.parseLinear seq [] none = .ok (d', r) → d'.seqs.Nodup := by
  intro h
  have := h [[5]] ⟨[[5]], [-1]⟩ ⟨[[5], [3], [3]], [-1, -1, -1]⟩ [3, 3] ([1, 2], 2) (by decide) (by decide) (by decide)
    (by decide)
  exact absurd this (by decide)

/-- C12, the part that holds: if symbols new to the dictionary arrive above all its leading symbols (as with
the stream models, whose coder numbers symbols in order of arrival), both kinds of parse keep it strictly
sorted, hence free of duplicates.  Missing: arbitrary arrival order, where the claim is false
(`C12_duplicates_false`). -/
theorem C12_no_duplicates_partial (O : FloatOps F) (l : List IntSeq) (hnd : l.Nodup) (hne : [] ∉ l) (hc : Closed l)
    (d : IntDict) (h : IntDict.init l = .ok d) (seq : IntSeq) (words : List IntSeq) (hfit : Fits d.seqs seq words)
    (d' : IntDict) :
    (∀ out r, d.parseLinear seq out none = .ok (d', r) → d'.seqs = words ∧ words.Pairwise (· < ·) ∧ words.Nodup) ∧
    (∀ freqs total out r, d.parse O seq freqs total out = .ok (d', r) →
      d'.seqs = words ∧ words.Pairwise (· < ·) ∧ words.Nodup) := by
  obtain ⟨d0, h1, hsq, hs⟩ := init_sorted hnd (fun w hw e => hne (e ▸ hw))
  rw [h] at h1
  cases h1
  have hc' : Closed d.seqs := by
    intro w hw y hy
    have hm := fun v => (sortSeqs_perm l).mem_iff (a := v)
    rw [hsq] at hw ⊢
    exact (hm _).2 (hc w ((hm w).1 hw) y hy)
  have fin : ∀ d' : IntDict, Sorted d' ∧ d'.seqs = words → d'.seqs = words ∧ words.Pairwise (· < ·) ∧ words.Nodup := by
    rintro d' ⟨a, rfl⟩
    exact ⟨rfl, a.sorted, a.sorted.imp ne_of_lt⟩
  constructor
  · intro out r hr
    obtain ⟨⟨d1, o⟩, h1, hr⟩ := bind_ok.1 hr
    cases hr
    exact fin _ (linearLoop_fits _ hfit hs hc' rfl h1)
  · intro freqs total out r hr
    obtain ⟨⟨d1, o, sc⟩, h1, hr⟩ := bind_ok.1 hr
    cases hr
    obtain ⟨⟨d2, t⟩, h2, hr⟩ := bind_ok.1 h1
    obtain ⟨_, _, hr⟩ := bind_ok.1 hr
    obtain ⟨_, _, hr⟩ := bind_ok.1 hr
    cases hr
    exact fin _ (forward_fits hfit hs rfl h2)

example : Fits [[1], [1, 2], [2]] [2, 4, 1, 4, 6] [[1], [1, 2], [2], [4], [6]] :=
  .known (by decide) (.fresh (by decide) (.known (by decide) (.known (by decide) (.fresh (by decide) .nil))))

end VGram.Props
