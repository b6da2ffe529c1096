import Verif.Props.Gain
import Verif.Props.Stream
import Verif.Proofs.Repro
import Verif.Spec.Repro

/-!
# Does training depend on the order of the hash table and of equal scores? (C89)
-/

namespace VGram.Props

open VGram Spec

variable {F : Type}

/-- The alphabet after a sequence of calls. -/
def learned (E : Env F) (size : Int) (calls : List Call) : M (List IntSeq) := do
  let m ← run E (Stream.new E.ops size) calls
  m.alphabet

/-- C89 is false, first half: two hash tables that differ only in the iteration order give different alphabets for the same
calls. -/
theorem C89_hash_order_false : ¬ ∀ (E E' : Env (Ext Rat)), EnvLaws E → EnvLaws E' → SameNumbers E E' → E'.sortItems = E.sortItems →
    ∀ (size : Int) (calls : List Call) (a a' : List IntSeq), learned E size calls = .ok a → learned E' size calls = .ok a' → a = a' := by
  intro h
  have := h (meanVariates quickEnv) (backwardHash (meanVariates quickEnv)) (meanVariates_laws (Ext.envLaws _))
    (backwardHash_laws (meanVariates_laws (Ext.envLaws _))) ⟨rfl, rfl⟩ rfl 4 [.accept [5, 6, 7, 6, 5, 7], .accept [5, 6], .update]
    [[5], [5, 6], [6], [7]] [[5], [6], [7]] (by decide +kernel) (by decide +kernel)
  revert this
  decide

/-- C89 is false, second half: two sorts that differ only in the order of items with equal scores give different alphabets
for the same calls. -/
theorem C89_equal_scores_false : ¬ ∀ (E E' : Env (Ext Rat)), EnvLaws E → EnvLaws E' → SameNumbers E E' → E'.pairOrder = E.pairOrder →
    ∀ (size : Int) (calls : List Call) (a a' : List IntSeq), learned E size calls = .ok a → learned E' size calls = .ok a' → a = a' := by
  intro h
  have := h (meanVariates quickEnv) (backwardTies (meanVariates quickEnv)) (meanVariates_laws (Ext.envLaws _))
    (backwardTies_laws (meanVariates_laws (Ext.envLaws _))) ⟨rfl, rfl⟩ rfl 5 [.accept [1, 2, 3, 4], .accept [1, 2, 3, 4], .update]
    [[1], [1, 2], [2], [3], [4]] [[1], [2], [3], [3, 4], [4]] (by decide +kernel) (by decide +kernel)
  revert this
  decide

/-- The alphabets in question. -/
example : learned (meanVariates quickEnv) 5 [.accept [1, 2, 3, 4], .accept [1, 2, 3, 4], .update] = .ok [[1], [1, 2], [2], [3], [4]] ∧
    learned (backwardTies (meanVariates quickEnv)) 5 [.accept [1, 2, 3, 4], .accept [1, 2, 3, 4], .update] =
      .ok [[1], [2], [3], [3, 4], [4]] := by decide +kernel

theorem zip_map_pair {K : List (IntSeq × Int)} : (K.map (·.1)).zip (K.map (·.2)) = K := by
  induction K with
  | nil => rfl
  | cons x K ih => simp [ih]

theorem sameSelection_of {a b : M (List IntSeq × List Int × F)} {K K' P : List (IntSeq × Int)} {mp : F}
    (h1 : a = .ok ((K ++ P).map (·.1), (K ++ P).map (·.2), mp)) (h2 : b = .ok ((K' ++ P).map (·.1), (K' ++ P).map (·.2), mp))
    (h : K.Perm K') : SameSelection a b :=
  ⟨_, _, _, _, _, h1, h2, by simp, by simp, by rw [zip_map_pair, zip_map_pair]; exact h.append_right P⟩

/-- The pairs of a statistics dictionary, in terms of the emitted ids. -/
theorem pair_of_emitted {O : FloatOps F} (SL : ScoreLaws O) {s0 s : StatDict F} (h0 : FreshStat s0) {seqs : List IntSeq}
    {outs : List (List Int)} (h : parseAll O s0 seqs = .ok (s, outs)) (hx : ExpOk s) {e : (Int × Int) × Int} (he : e ∈ s.pairs) :
    MakesUp s.dict.seqs outs e.1 (pairText s e.1) ∧ e.2 = followed outs e.1.1 e.1.2 := by
  have hpc := pairs_count SL h0 h
  have hcount : e.2 = (followed outs e.1.1 e.1.2 : Int) := by
    have : pairGet s.pairs e.1 = e.2 := pairGet_of_mem hx.pnodup he
    rw [← this, hpc]
    rfl
  have hpos := hx.ppos _ he
  obtain ⟨⟨a1, a2⟩, b1, b2⟩ := hx.pkey e he
  have hlen := hx.inv.size
  refine ⟨⟨?_, _, _, isWord_wordAt a1 (by omega), isWord_wordAt b1 (by omega), rfl⟩, hcount⟩
  rw [hcount] at hpos
  exact List.count_pos_iff.1 (by exact_mod_cast hpos)

theorem pairScoreOf_emitted {E : Env F} (SL : ScoreLaws E.ops) {s0 s : StatDict F} (h0 : FreshStat s0) {seqs : List IntSeq}
    {outs : List (List Int)} (h : parseAll E.ops s0 seqs = .ok (s, outs)) (hx : ExpOk s) {e : (Int × Int) × Int} (he : e ∈ s.pairs) :
    pairScoreOf E s e = scoreOfPair E outs e.1 := by
  have hsum : ∀ c, pairSum c s.pairs = (pairsOf outs).countP c := fun c => pairSum_count hx.pnodup c _ (pairs_count SL h0 h)
  rw [pairScoreOf, scoreOfPair, (pair_of_emitted SL h0 h hx he).2]
  simp only [hsum, leading, trailing, List.countP_true]
  congr 1
  ring

/-- C89, expansion: if no new word is spelled by two different pairs and no two new words have equal scores, then the words
an expansion selects, their counts and the minimal probability do not depend on the order of the hash table or on how the
sort treats equal scores (all old words have equal scores).  Missing: candidates with equal scores or two splits, see
`C89_hash_order_false` and `C89_equal_scores_false`; the order of the old words, on which the weights of the next round
depend (C65). -/
theorem C89_expand_partial (E E' : Env F) (L : EnvLaws E) (L' : EnvLaws E') (SL : ScoreLaws E.ops) (hE : SameNumbers E E')
    (s0 : StatDict F) (h0 : FreshStat s0) (seqs : List IntSeq) (s : StatDict F) (outs : List (List Int))
    (h : parseAll E.ops s0 seqs = .ok (s, outs)) (hs : s.dict.seqs.Pairwise (· < ·)) (slots : Int) (hslots : 0 ≤ slots)
    (hone : ∀ k k' w, MakesUp s.dict.seqs outs k w → MakesUp s.dict.seqs outs k' w → w ∉ s.dict.seqs → k = k')
    (hties : ∀ k k' w w', MakesUp s.dict.seqs outs k w → MakesUp s.dict.seqs outs k' w' → w ∉ s.dict.seqs → w' ∉ s.dict.seqs →
      k ≠ k' → ∀ x x', scoreOfPair E outs k = .ok x → scoreOfPair E outs k' = .ok x' → Apart E.ops x x') :
    SameSelection (s.expand E slots) (s.expand E' slots) := by
  have hx := reached_exp SL h0 h hs
  have hkey : ∀ e ∈ s.pairs, ∀ e' ∈ s.pairs, e.1 = e'.1 → e = e' := by
    intro e he e' he' hk
    exact List.inj_on_of_nodup_map hx.pnodup he he' hk
  obtain ⟨K, K', P, mp, a, b, c⟩ := expand_determined L L' hE.1 hE.2 hx hslots
    (by
      intro e he e' he' ht hn
      refine hkey e he e' he' (hone _ _ _ (pair_of_emitted SL h0 h hx he).1 ?_ hn)
      rw [ht]
      exact (pair_of_emitted SL h0 h hx he').1)
    (by
      intro e he e' he' hne hn hn' x x' hx1 hx2
      rw [pairScoreOf_emitted SL h0 h hx he] at hx1
      rw [pairScoreOf_emitted SL h0 h hx he'] at hx2
      exact hties _ _ _ _ (pair_of_emitted SL h0 h hx he).1 (pair_of_emitted SL h0 h hx he').1 hn hn'
        (fun e1 => hne (hkey e he e' he' e1)) x x' hx1 hx2)
  exact sameSelection_of a b c

theorem scoreOfPair_real {srt : List (StatItem (Ext ℝ)) → List (StatItem (Ext ℝ))} {ord : PairMap → PairMap} {gam : List (Ext ℝ) → Nat → ℝ}
    (L : RealLaws srt ord gam) (outs : List (List Int)) (k : Int × Int) :
    scoreOfPair (exactEnv srt ord gam) outs k = .ok (.fin (pairWorth gam outs k)) := by
  rw [scoreOfPair, pairScore_real L, pairWorth, contingency]
  simp only [List.map_cons, List.map_nil, Int.cast_natCast]

/-- C89, expansion in exact arithmetic: the hypothesis of `C89_expand_partial` on the scores says that no two pairs that make
up new words are worth the same.  Missing: as there. -/
theorem C89_expand_real_partial {srt srt' : List (StatItem (Ext ℝ)) → List (StatItem (Ext ℝ))} {ord ord' : PairMap → PairMap}
    {gam : List (Ext ℝ) → Nat → ℝ} (L : RealLaws srt ord gam) (L' : RealLaws srt' ord' gam) (s0 : StatDict (Ext ℝ)) (h0 : FreshStat s0)
    (seqs : List IntSeq) (s : StatDict (Ext ℝ)) (outs : List (List Int)) (h : parseAll realOps s0 seqs = .ok (s, outs))
    (hs : s.dict.seqs.Pairwise (· < ·)) (slots : Int) (hslots : 0 ≤ slots)
    (hone : ∀ k k' w, MakesUp s.dict.seqs outs k w → MakesUp s.dict.seqs outs k' w → w ∉ s.dict.seqs → k = k')
    (hties : ∀ k k' w w', MakesUp s.dict.seqs outs k w → MakesUp s.dict.seqs outs k' w' → w ∉ s.dict.seqs → w' ∉ s.dict.seqs →
      pairWorth gam outs k = pairWorth gam outs k' → k = k') :
    SameSelection (s.expand (exactEnv srt ord gam) slots) (s.expand (exactEnv srt' ord' gam) slots) := by
  refine C89_expand_partial (exactEnv srt ord gam) (exactEnv srt' ord' gam) L.env L'.env (Ext.scoreLaws Real.log) ⟨rfl, rfl⟩ s0 h0 seqs s outs h
    hs slots hslots hone ?_
  intro k k' w w' a b hw hw' hne x x' hx hx'
  rw [scoreOfPair_real L] at hx hx'
  cases hx
  cases hx'
  have : pairWorth gam outs k ≠ pairWorth gam outs k' := fun e => hne (hties k k' w w' a b hw hw' e)
  rcases lt_or_gt_of_ne this with hlt | hlt
  · right
    simpa [exactEnv, Ext.ops, Ext.neg, Ext.lt] using hlt
  · left
    simpa [exactEnv, Ext.ops, Ext.neg, Ext.lt] using hlt

theorem makesUp_text {words : List IntSeq} {outs : List (List Int)} {k : Int × Int} {w : IntSeq} (h : MakesUp words outs k w) :
    k ∈ pairsOf outs ∧ w = (words[k.1.toNat]?).getD [] ++ (words[k.2.toNat]?).getD [] := by
  obtain ⟨h1, u, v, ⟨_, h2⟩, ⟨_, h3⟩, rfl⟩ := h
  exact ⟨h1, by rw [h2, h3]; rfl⟩

/-- A text with three candidates of different scores; the selections list the old words in different orders. -/
example : ∃ s : StatDict (Ext Rat), parseAll (meanVariates quickEnv).ops (StatDict.new (.fin (1 / 2))) [[0, 1, 0, 1, 1]] =
      .ok (s, [[0, 1, 0, 1, 1]]) ∧
    s.expand (meanVariates quickEnv) 1 = .ok ([[0], [1], [0, 1]], [2, 3, 2], .fin (1 / 2)) ∧
    s.expand (backwardTies (backwardHash (meanVariates quickEnv))) 1 = .ok ([[1], [0], [0, 1]], [3, 2, 2], .fin (1 / 2)) ∧
    ∀ slots : Int, 0 ≤ slots →
      SameSelection (s.expand (meanVariates quickEnv) slots) (s.expand (backwardTies (backwardHash (meanVariates quickEnv))) slots) := by
  have h : parseAll (meanVariates quickEnv).ops (StatDict.new (.fin (1 / 2))) [[0, 1, 0, 1, 1]] =
      .ok (⟨⟨[[0], [1]], [-1, -1]⟩, [2, 3], [2, 3], 5, 0, [((0, 1), 2), ((1, 0), 1), ((1, 1), 1)], .fin (1 / 2), 5⟩,
        [[0, 1, 0, 1, 1]]) := by decide +kernel
  refine ⟨_, h, by decide +kernel, by decide +kernel, fun slots h0 => ?_⟩
  refine C89_expand_partial (meanVariates quickEnv) (backwardTies (backwardHash (meanVariates quickEnv))) (meanVariates_laws (Ext.envLaws _)) (backwardTies_laws (backwardHash_laws (meanVariates_laws (Ext.envLaws _))))
    (Ext.scoreLaws _) ⟨rfl, rfl⟩ _ (Or.inl ⟨_, rfl⟩) _ _ _ h (by decide) slots h0 ?_ ?_
  · intro k k' w a b _
    obtain ⟨a1, a2⟩ := makesUp_text a
    obtain ⟨b1, b2⟩ := makesUp_text b
    rw [a2] at b2
    have key : ∀ k ∈ pairsOf [[0, 1, 0, 1, 1]], ∀ k' ∈ pairsOf [[0, 1, 0, 1, 1]],
        ([[0], [1]] : List IntSeq)[k.1.toNat]?.getD [] ++ ([[0], [1]] : List IntSeq)[k.2.toNat]?.getD [] =
          ([[0], [1]] : List IntSeq)[k'.1.toNat]?.getD [] ++ ([[0], [1]] : List IntSeq)[k'.2.toNat]?.getD [] → k = k' := by decide
    exact key k a1 k' b1 b2
  · intro k k' w w' a b _ _ hne x x' hx hx'
    obtain ⟨a1, a2⟩ := makesUp_text a
    obtain ⟨b1, b2⟩ := makesUp_text b
    have key : ∀ k ∈ pairsOf [[0, 1, 0, 1, 1]], ∀ k' ∈ pairsOf [[0, 1, 0, 1, 1]], k ≠ k' →
        (match scoreOfPair (meanVariates quickEnv) [[0, 1, 0, 1, 1]] k, scoreOfPair (meanVariates quickEnv) [[0, 1, 0, 1, 1]] k' with
        | .ok x, .ok x' => quickEnv.ops.lt (quickEnv.ops.neg x) (quickEnv.ops.neg x') || quickEnv.ops.lt (quickEnv.ops.neg x') (quickEnv.ops.neg x)
        | _, _ => true) = true := by decide +kernel
    have := key k a1 k' b1 hne
    rw [hx, hx'] at this
    exact Bool.or_eq_true_iff.1 this

theorem statItemsLoop_score {O : FloatOps F} {s : StatDict F} {cl : F} {ex : List Int} : ∀ (l : List Nat) (items : List (StatItem F)),
    s.statItemsLoop O cl ex l = .ok items → ∀ it ∈ items, ∃ n : Nat, it.second = (n : Int) ∧ it.first = -1 ∧ it.count = s.freq (n : Int) ∧
      ∀ w, s.dict.get (n : Int) = .ok w →
        if 1 < w.length then ∃ alt, StatDict.weightedParse O s.dict w s.symbolFreqs s.power ((n : Int) :: ex) = .ok alt ∧
          it.score = s.itemScore O cl (s.freq (n : Int)) alt
        else it.score = O.maxVal := by
  intro l
  induction l with
  | nil => intro items h; cases h; simp
  | cons i l ih =>
    intro items h
    simp only [StatDict.statItemsLoop] at h
    split at h
    · exact ih _ h
    · obtain ⟨seq, hg, h⟩ := bind_ok.1 h
      split at h
      · next hl =>
        obtain ⟨parse, hp, h⟩ := bind_ok.1 h
        obtain ⟨items', h2, h⟩ := bind_ok.1 h
        split at h
        · cases h
          intro it hit
          rcases List.mem_cons.1 hit with rfl | hit
          · refine ⟨i, rfl, rfl, rfl, fun w hw => ?_⟩
            rw [hg] at hw
            cases hw
            rw [if_pos hl]
            exact ⟨parse, hp, rfl⟩
          · exact ih _ h2 it hit
        · cases h
          exact ih _ h2
      · next hl =>
        obtain ⟨items', h2, h⟩ := bind_ok.1 h
        cases h
        intro it hit
        rcases List.mem_cons.1 hit with rfl | hit
        · refine ⟨i, rfl, rfl, rfl, fun w hw => ?_⟩
          rw [hg] at hw
          cases hw
          rw [if_neg hl]
        · exact ih _ h2 it hit

/-- C89, reduction: if no two words of several symbols have equal scores, then the words a reduction keeps, their counts and
the minimal probability do not depend on how the sort treats equal scores (all one-symbol words have equal scores).  Missing:
longer words with equal scores; the order of the one-symbol words. -/
theorem C89_reduce_partial (E E' : Env F) (L : EnvLaws E) (L' : EnvLaws E') (SL : ScoreLaws E.ops) (hE : SameNumbers E E')
    (s0 : StatDict F) (h0 : FreshClosed s0) (seqs : List IntSeq) (cur : List IntSeq) (hfit : FitsAll s0.dict.seqs seqs cur)
    (s : StatDict F) (outs : List (List Int)) (h : parseAll E.ops s0 seqs = .ok (s, outs)) (slots : Int) (hslots : 0 ≤ slots)
    (hties : ∀ n m v w, cur[n]? = some v → cur[m]? = some w → 1 < v.length → 1 < w.length → n ≠ m →
      ∀ x x', scoreOfWord E.ops s n = .ok x → scoreOfWord E.ops s m = .ok x' → Apart E.ops x x') :
    SameSelection (s.reduce E slots) (s.reduce E' slots) := by
  obtain ⟨hh, hp⟩ := h0.spec
  obtain ⟨s', outs', p1, p2, p3, _, _⟩ := healthy_parseAll SL seqs s0 cur hh hfit
  rw [h] at p1
  cases p1
  subst p3
  obtain ⟨K, K', P, mp, a, b, c⟩ := reduce_determined L L' SL hE.1 p2 hslots (by
    intro ex items u1 i1 a ha b hb hne hla hlb
    obtain ⟨n, a1, a2, a3, a4⟩ := statItemsLoop_score _ _ i1 a ha
    obtain ⟨m, b1, b2, b3, b4⟩ := statItemsLoop_score _ _ i1 b hb
    have hlen : ∀ k : Nat, 1 < (wordAt s (k : Int)).length → s.dict.get (k : Int) = .ok (wordAt s (k : Int)) ∧
        s.dict.seqs[k]? = some (wordAt s (k : Int)) := by
      intro k hk
      cases e : s.dict.seqs[k]? with
      | none => simp [wordAt, e] at hk
      | some v =>
        have hlt := (List.getElem?_eq_some_iff.1 e).1
        exact ⟨get_wordAt (by omega) (by omega), by simp [wordAt, e]⟩
    rw [a1] at hla
    rw [b1] at hlb
    obtain ⟨ga, sa⟩ := hlen n hla
    obtain ⟨gb, sb⟩ := hlen m hlb
    have a5 := a4 _ ga
    have b5 := b4 _ gb
    rw [if_pos hla] at a5
    rw [if_pos hlb] at b5
    obtain ⟨alta, wa, ea⟩ := a5
    obtain ⟨altb, wb, eb⟩ := b5
    refine hties n m _ _ sa sb hla hlb ?_ _ _ ?_ ?_
    · rintro rfl
      rw [wa] at wb
      cases wb
      refine hne ?_
      obtain ⟨c1, c2, c3, c4⟩ := a
      obtain ⟨d1, d2, d3, d4⟩ := b
      dsimp only at *
      simp_all
    · simp only [scoreOfWord, u1, ok_bind, ga, wa, pure_M, ea]
    · simp only [scoreOfWord, u1, ok_bind, gb, wb, pure_M, eb])
  exact sameSelection_of a b c

/-- Two longer words with different scores; the selections list the one-symbol words in different orders. -/
example : ∃ s0 s : StatDict (Ext Rat), StatDict.ofSeqs [[0], [0, 1], [1], [1, 1]] (Ext.fin (1 / 2)) none = .ok s0 ∧
    parseAll quickEnv.ops s0 [[0, 1, 0, 1, 1, 1, 0, 1, 1, 1]] = .ok (s, [[1, 1, 3, 1, 3]]) ∧
    s.reduce quickEnv 1 = .ok ([[0], [1], [0, 1]], [0, 0, 3], .fin (1 / 4)) ∧
    s.reduce (backwardTies quickEnv) 1 = .ok ([[1], [0], [0, 1]], [0, 0, 3], .fin (1 / 4)) ∧
    ∀ slots : Int, 0 ≤ slots → SameSelection (s.reduce quickEnv slots) (s.reduce (backwardTies quickEnv) slots) := by
  have h0 : StatDict.ofSeqs [[0], [0, 1], [1], [1, 1]] (Ext.fin (1 / 2 : Rat)) none =
      .ok ⟨⟨[[0], [0, 1], [1], [1, 1]], [-1, 0, -1, 2]⟩, [0, 0, 0, 0], [0, 0, 0, 0], 0, 0, [], .fin (1 / 2), 0⟩ := by decide +kernel
  have h : parseAll quickEnv.ops ⟨⟨[[0], [0, 1], [1], [1, 1]], [-1, 0, -1, 2]⟩, [0, 0, 0, 0], [0, 0, 0, 0], 0, 0, [], .fin (1 / 2), 0⟩
      [[0, 1, 0, 1, 1, 1, 0, 1, 1, 1]] =
      .ok (⟨⟨[[0], [0, 1], [1], [1, 1]], [-1, 0, -1, 2]⟩, [0, 3, 0, 2], [0, 3, 0, 2], 5, 0, [((1, 1), 1), ((1, 3), 2), ((3, 1), 1)],
        .fin (1 / 2), 10⟩, [[1, 1, 3, 1, 3]]) := by decide +kernel
  refine ⟨_, _, h0, h, by decide +kernel, by decide +kernel, fun slots hs => ?_⟩
  refine C89_reduce_partial quickEnv (backwardTies quickEnv) (Ext.envLaws _) (backwardTies_laws (Ext.envLaws _)) (Ext.scoreLaws _) ⟨rfl, rfl⟩ _
    (Or.inr ⟨[[0], [0, 1], [1], [1, 1]], _, none, by decide, by simp, by unfold Closed Knows; decide, by simp, h0⟩) _ [[0], [0, 1], [1], [1, 1]]
    (.cons (.known (by decide) (.known (by decide) (.known (by decide) (.known (by decide) (.known (by decide) (.known (by decide)
      (.known (by decide) (.known (by decide) (.known (by decide) (.known (by decide) .nil)))))))))) .nil) _ _ h slots hs ?_
  intro n m v w hn hm hv hw hne x x' hx hx'
  have key : ∀ n < 4, ∀ m < 4, n ≠ m → ∀ v ∈ ([[0], [0, 1], [1], [1, 1]] : List IntSeq)[n]?, ∀ w ∈ ([[0], [0, 1], [1], [1, 1]] : List IntSeq)[m]?,
      1 < v.length → 1 < w.length →
      (match scoreOfWord quickEnv.ops ⟨⟨[[0], [0, 1], [1], [1, 1]], [-1, 0, -1, 2]⟩, [0, 3, 0, 2], [0, 3, 0, 2], 5, 0,
          [((1, 1), 1), ((1, 3), 2), ((3, 1), 1)], .fin (1 / 2), 10⟩ n,
        scoreOfWord quickEnv.ops ⟨⟨[[0], [0, 1], [1], [1, 1]], [-1, 0, -1, 2]⟩, [0, 3, 0, 2], [0, 3, 0, 2], 5, 0,
          [((1, 1), 1), ((1, 3), 2), ((3, 1), 1)], .fin (1 / 2), 10⟩ m with
      | .ok x, .ok x' => quickEnv.ops.lt (quickEnv.ops.neg x) (quickEnv.ops.neg x') || quickEnv.ops.lt (quickEnv.ops.neg x') (quickEnv.ops.neg x)
      | _, _ => true) = true := by decide +kernel
  have hn' : n < 4 := (List.getElem?_eq_some_iff.1 hn).1
  have hm' : m < 4 := (List.getElem?_eq_some_iff.1 hm).1
  have := key n hn' m hm' hne v hn w hm hv hw
  rw [hx, hx'] at this
  exact Bool.or_eq_true_iff.1 this

/-- C89: two rebuilds with the same selection give the same next dictionary: the same words with the same ids, the same
minimal probability and the same initial power. -/
theorem C89_next_dictionary {a b : M (List IntSeq × List Int × F)} (h : SameSelection a b) :
    ∃ words freqs mp words' freqs' mp' s s', a = .ok (words, freqs, mp) ∧ b = .ok (words', freqs', mp') ∧
      StatDict.ofSeqs words mp (some freqs) = .ok s ∧ StatDict.ofSeqs words' mp' (some freqs') = .ok s' ∧
      s' = { s with parseFreqs := s'.parseFreqs } := by
  obtain ⟨words, freqs, words', freqs', mp, rfl, rfl, h1, h2, h3⟩ := h
  have hw : words.Perm words' := by
    have := h3.map Prod.fst
    rwa [List.map_fst_zip (by omega), List.map_fst_zip (by omega)] at this
  have hf : freqs.Perm freqs' := by
    have := h3.map Prod.snd
    rwa [List.map_snd_zip (by omega), List.map_snd_zip (by omega)] at this
  have hd : IntDict.init words = IntDict.init words' := by
    obtain ⟨d, e, p, q, _⟩ := C01_init_sorted_perm words
    obtain ⟨d', e', p', q', _⟩ := C01_init_sorted_perm words'
    rw [IntDict.init, IntDict.init, show sortSeqs words = sortSeqs words' from
      List.Perm.eq_of_pairwise (fun a b _ _ h1 h2 => le_antisymm h1 h2) (sortSeqs_sorted _) (sortSeqs_sorted _)
        ((sortSeqs_perm _).trans (hw.trans (sortSeqs_perm _).symm))]
  obtain ⟨d, e, _⟩ := C01_init_sorted_perm words
  refine ⟨words, freqs, mp, words', freqs', mp,
    ⟨d, List.replicate words.length 0, StatDict.padTo freqs d.size, 0, sumI freqs, [], mp, 0⟩,
    ⟨d, List.replicate words'.length 0, StatDict.padTo freqs' d.size, 0, sumI freqs', [], mp, 0⟩, rfl, rfl, ?_, ?_, ?_⟩
  · simp [StatDict.ofSeqs, e]
  · simp [StatDict.ofSeqs, ← hd, e]
  · simp [hw.length_eq, sumI_perm hf]

end VGram.Props
