import Verif.Props.Stat
import Verif.Proofs.Reduce

/-!
# Properties of `expand` and `reduce` (C16, C17)

The states are those reached by parsing any sequences, starting from an empty dictionary or from one whose words
contain each of their symbols as a word, where unknown symbols arrive above the known ones (as the coder of the stream
interface numbers them).  The two `_false` theorems show that these conditions are needed.
-/

namespace VGram.Props

open VGram Spec

variable {F : Type}

/-- A freshly constructed statistics dictionary without duplicates that contains each of its symbols as a word. -/
def FreshClosed (s : StatDict F) : Prop :=
  (∃ mp, s = StatDict.new mp) ∨
  ∃ (words : List IntSeq) (mp : F) (fr : Option (List Int)), words.Nodup ∧ [] ∉ words ∧ Closed words ∧
    (∀ l, fr = some l → ∀ f ∈ l, 0 ≤ f) ∧ StatDict.ofSeqs words mp fr = .ok s

theorem FreshClosed.spec {s : StatDict F} (h : FreshClosed s) : Healthy s ∧ s.pairs = [] := by
  rcases h with ⟨mp, rfl⟩ | ⟨words, mp, fr, h1, h2, h3, h4, h5⟩
  · exact ⟨Healthy.new mp, rfl⟩
  · obtain ⟨s', e, hh, _, _, _, hp⟩ := Healthy.ofSeqs h1 (fun w hw e => h2 (e ▸ hw)) h3 mp fr h4
    rw [h5] at e
    cases e
    exact ⟨hh, hp⟩

theorem healthy_parseAll {O : FloatOps F} (L : ScoreLaws O) : ∀ (seqs : List IntSeq) (s : StatDict F) (words : List IntSeq),
    Healthy s → FitsAll s.dict.seqs seqs words →
    ∃ s' outs, parseAll O s seqs = .ok (s', outs) ∧ Healthy s' ∧ s'.dict.seqs = words ∧ s'.minProb = s.minProb ∧
      (∀ k ∈ s'.pairs.map (·.1), k ∈ s.pairs.map (·.1) ∨ ∃ ids ∈ outs, k ∈ adj ids) := by
  intro seqs
  induction seqs with
  | nil =>
    intro s words h hf
    cases hf
    exact ⟨s, [], rfl, h, rfl, rfl, fun k hk => Or.inl hk⟩
  | cons seq seqs ih =>
    intro s words h hf
    cases hf with
    | cons h1 h2 =>
      obtain ⟨s1, ids, p1, hs1, hd1, _, hm1, _, hk1, _⟩ := h.parse L h1
      obtain ⟨s2, outs, p2, hs2, hd2, hm2, hk2⟩ := ih s1 words hs1 (hd1 ▸ h2)
      refine ⟨s2, ids :: outs, by simp [parseAll, p1, p2], hs2, hd2, hm2.trans hm1, ?_⟩
      intro k hk
      rcases hk2 k hk with hk | ⟨i, hi, hk⟩
      · rcases hk1 k hk with hk | hk
        · exact Or.inl hk
        · exact Or.inr ⟨ids, by simp, hk⟩
      · exact Or.inr ⟨i, by simp [hi], hk⟩

theorem adj_infix {ids : List Int} {a b : Int} (h : (a, b) ∈ adj ids) : [a, b] <:+: ids := by
  induction ids with
  | nil => simp [adj] at h
  | cons x l ih =>
    cases l with
    | nil => simp [adj] at h
    | cons y l =>
      have : (a, b) = (x, y) ∨ (a, b) ∈ adj (y :: l) := by simpa [adj] using h
      rcases this with e | h
      · cases e
        exact ⟨[], l, by simp⟩
      · exact (ih h).trans ⟨[x], [], by simp⟩

theorem isWord_wordAt {s : StatDict F} {i : Int} (h0 : 0 ≤ i) (h1 : i < (s.dict.seqs.length : Int)) :
    IsWord s.dict.seqs i (wordAt s i) := by
  obtain ⟨n, rfl⟩ : ∃ n : Nat, i = (n : Int) := ⟨i.toNat, by omega⟩
  refine isWord_nat.2 ?_
  rw [List.getElem?_eq_getElem (by omega)]
  simp [wordAt, List.getElem?_eq_getElem (show n < s.dict.seqs.length by omega)]

/-- Facts about every reachable statistics state. -/
structure Reached (s : StatDict F) : Prop where
  inv : SInv s
  sorted : s.dict.seqs.Pairwise (· < ·) → Sorted s.dict
  pkey : ∀ e ∈ s.pairs, (0 ≤ e.1.1 ∧ e.1.1 < (s.symbolFreqs.length : Int)) ∧ (0 ≤ e.1.2 ∧ e.1.2 < (s.symbolFreqs.length : Int))
  ppos : ∀ e ∈ s.pairs, 0 < e.2
  pnodup : (s.pairs.map (·.1)).Nodup

theorem FreshStat.reached {s : StatDict F} (h : FreshStat s) : Reached s := by
  obtain ⟨hs, _, _, hp, _⟩ := h.spec
  refine ⟨hs, ?_, by simp [hp], by simp [hp], by simp [hp]⟩
  rcases h with ⟨mp, rfl⟩ | ⟨words, mp, fr, hne, hf, h⟩
  · exact fun _ => empty_sorted
  · obtain ⟨s', h1, _, h3, h4, _⟩ := ofSeqs_spec (fun w hw e => hne (e ▸ hw)) mp fr hf
    rw [h] at h1
    cases h1
    intro hsort
    have hnd : words.Nodup := by
      rw [h4] at hsort
      exact (sortSeqs_perm words).nodup_iff.1 (hsort.imp ne_of_lt)
    obtain ⟨d, k1, _, k3⟩ := init_sorted hnd (fun w hw e => hne (e ▸ hw))
    rw [h3] at k1
    cases k1
    exact k3

theorem reached_parseAll {O : FloatOps F} (L : ScoreLaws O) : ∀ (seqs : List IntSeq) (s : StatDict F), Reached s →
    ∃ s' outs, parseAll O s seqs = .ok (s', outs) ∧ Reached s' ∧
      (∀ k ∈ s'.pairs.map (·.1), k ∈ s.pairs.map (·.1) ∨ ∃ ids ∈ outs, k ∈ adj ids) := by
  intro seqs
  induction seqs with
  | nil =>
    intro s h
    exact ⟨s, [], rfl, h, fun k hk => Or.inl hk⟩
  | cons seq seqs ih =>
    intro s h
    obtain ⟨s1, ids, p, i1, g, sp, _, _, _, _, _, _, _, _, _, c10, c11, c12, c13, c14⟩ := statParse_spec L h.inv seq [] (by simp)
    rw [List.nil_append] at p c12 c14
    have hr : Reached s1 := by
      refine ⟨i1, ?_, ?_, c11 h.ppos, c10 h.pnodup⟩
      · intro hs
        refine Grow.sorted g (h.sorted ?_) hs
        obtain ⟨a, e, _⟩ := g
        rw [e] at hs
        exact (List.pairwise_append.1 hs).1
      · intro e he
        rcases c12 e.1 (List.mem_map_of_mem he) with hk | hk
        · obtain ⟨e', he', heq⟩ := List.mem_map.1 hk
          have := h.pkey e' he'
          rw [heq] at this
          omega
        · have h1 := List.of_mem_zip (show (e.1.1, e.1.2) ∈ ids.zip ids.tail from hk)
          exact ⟨⟨(sp.range _ h1.1).1, c14 _ h1.1⟩, (sp.range _ (List.mem_of_mem_tail h1.2)).1, c14 _ (List.mem_of_mem_tail h1.2)⟩
    obtain ⟨s2, outs, p2, hs2, hk2⟩ := ih s1 hr
    refine ⟨s2, ids :: outs, by simp [parseAll, p, p2], hs2, ?_⟩
    intro k hk
    rcases hk2 k hk with hk | ⟨i, hi, hk⟩
    · rcases c12 k hk with hk | hk
      · exact Or.inl hk
      · exact Or.inr ⟨ids, by simp, hk⟩
    · exact Or.inr ⟨i, by simp [hi], hk⟩

/-- C16: in every reachable state whose words are strictly sorted an expansion succeeds; its words are duplicate-free,
at most `size + slots` many, contain all old words when `slots` is not negative, and are otherwise concatenations of
two words emitted next to each other. -/
theorem C16_expand (E : Env F) (L : EnvLaws E) (SL : ScoreLaws E.ops) (s0 : StatDict F) (h0 : FreshStat s0)
    (seqs : List IntSeq) (slots : Int) :
    ∃ s outs, parseAll E.ops s0 seqs = .ok (s, outs) ∧ (s.dict.seqs.Pairwise (· < ·) →
      ∃ words freqs mp, s.expand E slots = .ok (words, freqs, mp) ∧ words.Nodup ∧
      (0 ≤ slots → ∀ w ∈ s.dict.seqs, w ∈ words) ∧
      (∀ w ∈ words, w ∈ s.dict.seqs ∨
        ∃ ids ∈ outs, ∃ a b u v, [a, b] <:+: ids ∧ IsWord s.dict.seqs a u ∧ IsWord s.dict.seqs b v ∧ w = u ++ v) ∧
      (words.length ≤ ((s.dict.seqs.length : Int) + slots).toNat) ∧
      words.length = freqs.length ∧ (∀ f ∈ freqs, 0 ≤ f)) := by
  obtain ⟨s, outs, p1, p2, p4⟩ := reached_parseAll SL seqs s0 h0.reached
  refine ⟨s, outs, p1, fun hs => ?_⟩
  obtain ⟨words, freqs, mp, e1, e2, e3, e4, e5, e6, e7⟩ :=
    expand_spec L (s := s) ⟨p2.inv, p2.sorted hs, p2.pkey, p2.ppos, p2.pnodup⟩ slots
  refine ⟨words, freqs, mp, e1, e2, e4, ?_, e6, e3, e7⟩
  intro w hw
  rcases e5 w hw with h | ⟨a, b, hk, rfl⟩
  · exact Or.inl h
  · right
    rcases p4 _ hk with h | ⟨ids, hi, hadj⟩
    · rw [h0.spec.2.2.2.1] at h; simp at h
    · obtain ⟨e, he, hek⟩ := List.mem_map.1 hk
      have := p2.pkey e he
      rw [hek] at this
      have hsz := p2.inv.size
      exact ⟨ids, hi, a, b, _, _, adj_infix hadj, isWord_wordAt this.1.1 (by omega), isWord_wordAt this.2.1 (by omega), rfl⟩

/-- C17: a reduction succeeds; its words are old words without duplicates; every one-symbol word survives when the
slots are at least their number minus the number of prefix-free words (also when the total of slots is negative, because
then nothing is removed); and there are at most `slots` plus the number of prefix-free words when that is not negative.
Multi-symbol words survive only if they were emitted. -/
theorem C17_reduce (E : Env F) (L : EnvLaws E) (SL : ScoreLaws E.ops) (s0 : StatDict F) (h0 : FreshClosed s0)
    (seqs : List IntSeq) (cur : List IntSeq) (hfit : FitsAll s0.dict.seqs seqs cur) (slots : Int) :
    ∃ s outs words freqs mp, parseAll E.ops s0 seqs = .ok (s, outs) ∧ s.dict.seqs = cur ∧
      s.reduce E slots = .ok (words, freqs, mp) ∧ words.Nodup ∧ (∀ w ∈ words, w ∈ cur) ∧
      ((singles cur : Int) - prefixFree cur ≤ slots → ∀ x, [x] ∈ cur → [x] ∈ words) ∧
      (slots + prefixFree cur < 0 → ∀ x, [x] ∈ cur → [x] ∈ words) ∧
      (0 ≤ slots + prefixFree cur → (words.length : Int) ≤ slots + prefixFree cur) ∧
      words.length = freqs.length ∧ (∀ f ∈ freqs, 0 ≤ f) ∧
      (∀ w ∈ words, w.length = 1 ∨ ∃ n : Nat, cur[n]? = some w ∧ 1 ≤ s.freq (n : Int)) := by
  obtain ⟨hh, hp⟩ := h0.spec
  obtain ⟨s, outs, p1, p2, p3, _, _⟩ := healthy_parseAll SL seqs s0 cur hh hfit
  obtain ⟨words, freqs, mp, e1, e2, e3, e4, e5, e6, e7, e8, e9⟩ := reduce_spec L SL p2 slots
  subst p3
  exact ⟨s, outs, words, freqs, mp, p1, rfl, e1, e2, e4, fun h => e5 (by omega), e6, e7, e3, e8, e9⟩

/-- In these states the prefix-free words are the one-symbol words, so any `slots ≥ 0` keeps every symbol. -/
theorem C17_roots_are_singles (E : Env F) (SL : ScoreLaws E.ops) (s0 : StatDict F) (h0 : FreshClosed s0)
    (seqs : List IntSeq) (cur : List IntSeq) (hfit : FitsAll s0.dict.seqs seqs cur) : prefixFree cur = singles cur := by
  obtain ⟨hh, hp⟩ := h0.spec
  obtain ⟨s, outs, p1, p2, p3, _, _⟩ := healthy_parseAll SL seqs s0 cur hh hfit
  subst p3
  exact p2.prefixFree

/-! ## Examples -/

/-- An expansion that adds a concatenation. -/
example : (do
    let (s, outs) ← parseAll ratOps (StatDict.new (Ext.fin (1 / 500 : Rat))) [[0, 1, 0, 1], [1, 2]]
    let (words, freqs, _) ← s.expand ratEnv 1
    pure (s.dict.seqs, outs, words, freqs) : M (List IntSeq × List (List Int) × List IntSeq × List Int)) =
    .ok ([[0], [1], [2]], [[0, 1, 0, 1], [1, 2]], [[0], [1], [2], [0, 1]], [2, 3, 1, 2]) := by decide +kernel

/-- A reduction that drops an unused word and keeps a used one. -/
example : (do
    let s0 ← StatDict.ofSeqs [[0], [0, 1], [1], [0, 0]] (Ext.fin (1 / 500 : Rat)) none
    let (s, _) ← parseAll ratOps s0 [[0, 1, 0, 1], [1, 2]]
    let (words, freqs, _) ← s.reduce ratEnv 1
    let (words0, _, _) ← s.reduce ratEnv 0
    pure (s.dict.seqs, words, freqs, words0) : M (List IntSeq × List IntSeq × List Int × List IntSeq)) =
    .ok ([[0], [0, 0], [0, 1], [1], [2]], [[0], [1], [2], [0, 1]], [0, 1, 1, 2], [[0], [1], [2]]) := by decide +kernel

/-- The hypotheses of `C17_reduce` are satisfiable with a multi-symbol word and a new symbol. -/
example : FitsAll [[0], [0, 0], [0, 1], [1]] [[0, 1, 0, 1], [1, 2]] [[0], [0, 0], [0, 1], [1], [2]] :=
  .cons (.known (by decide) (.known (by decide) (.known (by decide) (.known (by decide) .nil))))
    (.cons (.known (by decide) (.fresh (by decide) .nil)) .nil)

example : singles [[0], [0, 0], [0, 1], [1], [2]] = 3 ∧ prefixFree [[0], [0, 0], [0, 1], [1], [2]] = 3 := by decide

/-! ## The conditions are needed -/

/-- Without sortedness (symbols arriving in another order) an expansion can invalidate its own iteration: after parsing
`3 1 3` the vector that the loop runs over is appended to. -/
theorem C16_unsorted_false : ¬ ∀ (s0 : StatDict (Ext Rat)) (seqs : List IntSeq) (s : StatDict (Ext Rat)) (outs : List (List Int))
    (slots : Int), FreshStat s0 → parseAll ratOps s0 seqs = .ok (s, outs) → s.expand ratEnv slots ≠ .error .iterInvalid := by
  intro h
  have hp : parseAll ratOps (StatDict.new (Ext.fin (1 / 500 : Rat))) [[3, 1, 3]] = .ok
      ({ dict := ⟨[[3], [1], [3]], [-1, -1, -1]⟩, symbolFreqs := [1, 1, 1], parseFreqs := [1, 1, 1], power := 3, initPower := 0,
         pairs := [((0, 1), 1), ((1, 2), 1)], minProb := Ext.fin (1 / 500), totalChars := 3 }, [[0, 1, 2]]) := by
    decide +kernel
  exact h _ [[3, 1, 3]] _ _ 10 (Or.inl ⟨_, rfl⟩) hp (by decide +kernel)

/-- Without closure under symbols a reduction can lose a one-symbol word although slots are left. -/
theorem C17_unclosed_false : ¬ ∀ (s0 : StatDict (Ext Rat)) (seqs : List IntSeq) (s : StatDict (Ext Rat)) (outs : List (List Int))
    (slots : Int) (words : List IntSeq) (r : List Int × Ext Rat), FreshStat s0 → parseAll ratOps s0 seqs = .ok (s, outs) →
    s.reduce ratEnv slots = .ok (words, r) → (singles s.dict.seqs : Int) - prefixFree s.dict.seqs ≤ slots →
    ∀ x, [x] ∈ s.dict.seqs → [x] ∈ words := by
  intro h
  have := h ⟨⟨[[0], [0, 1]], [-1, 0]⟩, [0, 0], [0, 0], 0, 0, [], Ext.fin (1 / 500), 0⟩ [[0, 1]]
    ⟨⟨[[0], [0, 1], [1]], [-1, 0, -1]⟩, [0, 1], [0, 1], 1, 0, [], Ext.fin (1 / 500), 2⟩ [[1]] 5 [[0], [0, 1]]
    ([0, 1], Ext.fin (1 / 500))
    (Or.inr ⟨[[0], [0, 1]], Ext.fin (1 / 500), none, by decide, by simp, by decide +kernel⟩)
    (by decide +kernel) (by decide +kernel) (by decide) 1 (by decide)
  exact absurd this (by decide)

/-- Without closure under symbols a reduction can even read out of bounds: the word `0 1` alone has no replacement parse. -/
theorem C17_unclosed_oob : ∃ s0 s : StatDict (Ext Rat), FreshStat s0 ∧ parseAll ratOps s0 [[0, 1]] = .ok (s, [[0]]) ∧
    s.reduce ratEnv 5 = .error .oob :=
  ⟨⟨⟨[[0, 1]], [-1]⟩, [0], [0], 0, 0, [], Ext.fin (1 / 500), 0⟩, ⟨⟨[[0, 1], [1]], [-1, -1]⟩, [1], [1], 1, 0, [], Ext.fin (1 / 500), 2⟩,
    Or.inr ⟨[[0, 1]], Ext.fin (1 / 500), none, by decide, by simp, by decide +kernel⟩, by decide +kernel, by decide +kernel⟩

end VGram.Props
