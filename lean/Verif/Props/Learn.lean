import Verif.Props.Expand
import Verif.Props.Train
import Verif.Props.DictReal
import Verif.Proofs.ExpandShape
import Verif.Spec.Learn

/-!
# What training computes: the parses (C65), the reported frequencies (C66) and the minimal probability (C69)
-/

namespace VGram.Props

open VGram Spec

variable {F : Type}

/-- A freshly constructed statistics dictionary whose parse weights start at `prior`. -/
def FreshPrior (prior : List Int) (s : StatDict F) : Prop :=
  (∃ mp, s = StatDict.new mp ∧ prior = []) ∨
  ∃ (words : List IntSeq) (mp : F) (fr : Option (List Int)), [] ∉ words ∧ (∀ f ∈ prior, 0 ≤ f) ∧ prior = fr.getD [] ∧
    StatDict.ofSeqs words mp fr = .ok s

theorem FreshPrior.stat {prior : List Int} {s : StatDict F} (h : FreshPrior prior s) : FreshStat s := by
  rcases h with ⟨mp, rfl, _⟩ | ⟨words, mp, fr, h1, h2, h3, h4⟩
  · exact Or.inl ⟨mp, rfl⟩
  · refine Or.inr ⟨words, mp, fr, h1, ?_, h4⟩
    rintro l rfl
    rw [h3] at h2
    exact h2

theorem FreshPrior.weights {prior : List Int} {s : StatDict F} (h : FreshPrior prior s) :
    (∀ i : Nat, fq s.parseFreqs i = prior.getD i 0) ∧ s.initPower = sumI prior := by
  rcases h with ⟨mp, rfl, rfl⟩ | ⟨words, mp, fr, h1, h2, h3, h4⟩
  · exact ⟨fun i => by simp [StatDict.new, fq], rfl⟩
  · obtain ⟨d, e1, e2⟩ := bind_ok.1 h4
    cases fr with
    | none =>
      cases e2
      subst h3
      refine ⟨fun i => ?_, rfl⟩
      show fq (List.replicate d.size 0) i = _
      rw [fq, List.getElem?_replicate]
      split <;> simp
    | some l =>
      cases e2
      have h3 : prior = l := h3
      subst h3
      rename' prior => l
      refine ⟨fun i => ?_, rfl⟩
      show fq (StatDict.padTo l d.size) i = l.getD i 0
      unfold fq StatDict.padTo
      rw [List.getD_eq_getElem?_getD]
      by_cases hi : i < l.length
      · rw [List.getElem?_append_left hi]
      · rw [List.getElem?_append_right (by omega), List.getElem?_replicate, List.getElem?_eq_none (by omega : l.length ≤ i)]
        split <;> rfl

/-- The parse weights after any number of parses. -/
theorem parseAll_weights {O : FloatOps F} (L : ScoreLaws O) : ∀ (seqs : List IntSeq) (s s' : StatDict F) (outs : List (List Int)),
    SInv s → parseAll O s seqs = .ok (s', outs) → SInv s' ∧
      (∀ i : Nat, fq s'.parseFreqs i = fq s.parseFreqs i + outs.flatten.count (i : Int)) ∧ s'.initPower = s.initPower := by
  intro seqs
  induction seqs with
  | nil => intro s s' outs h e; cases e; exact ⟨h, by simp, rfl⟩
  | cons seq seqs ih =>
    intro s s' outs h e
    obtain ⟨s1, ids, p, i1, _, _, _, c2, _, _, _, _, _, c9, _⟩ := statParse_spec L h seq [] (by simp)
    rw [List.nil_append] at p c2
    simp only [parseAll, p, ok_bind] at e
    obtain ⟨⟨s2, outs'⟩, e1, e2⟩ := bind_ok.1 e
    cases e2
    obtain ⟨j1, j2, j3⟩ := ih s1 s2 outs' i1 e1
    refine ⟨j1, fun i => ?_, j3.trans c9⟩
    rw [j2, c2, List.flatten_cons, List.count_append]
    push_cast
    omega

/-! ## C65 -/

/-- C65: every parse during training maximises the score for the weights "prior plus number of emissions so far" and
their total; afterwards these weights have grown by the emitted ids. -/
theorem C65_training_parse (O : FloatOps F) (L : ScoreLaws O) (OL : OrderLaws O) (prior : List Int) (s0 : StatDict F)
    (h0 : FreshPrior prior s0) (seqs : List IntSeq) (s : StatDict F) (outs : List (List Int))
    (h : parseAll O s0 seqs = .ok (s, outs)) (hs : s.dict.seqs.Pairwise (· < ·)) (seq : IntSeq) (hk : Knows s.dict.seqs seq) :
    ∃ s' ids weights, s.parse O seq [] = .ok (s', ids, (ids.length : Int)) ∧ s'.dict = s.dict ∧ Spells s.dict.seqs ids seq ∧
      (∀ i : Nat, weights.getD i 0 = prior.getD i 0 + outs.flatten.count (i : Int)) ∧ (∀ f ∈ weights, 0 ≤ f) ∧
      ∀ ids', Spells s.dict.seqs ids' seq →
        O.lt (parseScore O weights (prior.sum + outs.flatten.length) s.dict.seqs.length ids)
          (parseScore O weights (prior.sum + outs.flatten.length) s.dict.seqs.length ids') = false := by
  obtain ⟨hi, hp0, _⟩ := h0.stat.spec
  obtain ⟨s1, outs1, e1, hr, _⟩ := reached_parseAll L seqs s0 h0.stat.reached
  rw [h] at e1
  cases e1
  obtain ⟨_, w2, w3⟩ := parseAll_weights L seqs s0 s outs hi h
  obtain ⟨_, _, e2, _, _, _, _, _, hpow, _⟩ := parseAll_spec L seqs s0 hi
  rw [h] at e2
  cases e2
  obtain ⟨v1, v2⟩ := h0.weights
  have ht : s.power + s.initPower = prior.sum + outs.flatten.length := by
    rw [hpow, hp0, w3, v2, sumI_eq]
    omega
  obtain ⟨ids, a1, a2, a3⟩ := weightedParse_opt L OL (hr.sorted hs) hk hr.inv.pnonneg
    (total := s.power + s.initPower) (by have := hr.inv.power; have := hr.inv.ipower; omega)
  obtain ⟨s', ids', p, _, g, _⟩ := statParse_spec L hr.inv seq [] (by simp)
  rw [List.nil_append] at p
  have hp' := p
  simp only [StatDict.parse, IntDict.parse, a1, ok_bind, pure_M, List.nil_append] at hp'
  obtain ⟨s2, t1, t2⟩ := bind_ok.1 hp'
  have hdict := tally_dict ids (-1) t1
  cases t2
  refine ⟨s', ids, s.parseFreqs, p, hdict, a2, fun i => ?_, hr.inv.pnonneg, fun ids' h' => ?_⟩
  · rw [← v1, ← w2]
    simp [fq]
  · rw [← ht]
    exact a3 ids' h'

/-- C65 over the reals: the greatest product of smoothed probabilities `(weight + 1) / (total + size)`. -/
theorem C65_training_parse_real (prior : List Int) (s0 : StatDict (Ext ℝ)) (h0 : FreshPrior prior s0) (seqs : List IntSeq)
    (s : StatDict (Ext ℝ)) (outs : List (List Int)) (h : parseAll realOps s0 seqs = .ok (s, outs))
    (hs : s.dict.seqs.Pairwise (· < ·)) (seq : IntSeq) (hk : Knows s.dict.seqs seq) (weights : List Int)
    (hw : ∀ i : Nat, weights.getD i 0 = prior.getD i 0 + outs.flatten.count (i : Int)) :
    ∃ s' ids, s.parse realOps seq [] = .ok (s', ids, (ids.length : Int)) ∧ s'.dict = s.dict ∧ Spells s.dict.seqs ids seq ∧
      ∀ ids', Spells s.dict.seqs ids' seq →
        parseProb weights (prior.sum + outs.flatten.length) s.dict.seqs.length ids' ≤
          parseProb weights (prior.sum + outs.flatten.length) s.dict.seqs.length ids := by
  obtain ⟨s', ids, ws, h1, h2, h3, h4, h5, h6⟩ := C65_training_parse realOps (Ext.scoreLaws Real.log) (Ext.orderLaws Real.log) prior s0
    h0 seqs s outs h hs seq hk
  refine ⟨s', ids, h1, h2, h3, fun ids' h' => ?_⟩
  have hprob : ∀ is, parseProb weights (prior.sum + outs.flatten.length) s.dict.seqs.length is =
      parseProb ws (prior.sum + outs.flatten.length) s.dict.seqs.length is := by
    intro is
    unfold parseProb
    congr 1
    refine List.map_congr_left fun i _ => ?_
    unfold idProb
    have e1 := hw i.toNat
    rw [← h4, List.getD_eq_getElem?_getD, List.getD_eq_getElem?_getD] at e1
    rw [e1]
  rw [hprob, hprob]
  have ht : 0 ≤ prior.sum + outs.flatten.length := by
    have : 0 ≤ prior.sum := by
      rcases h0 with ⟨_, _, rfl⟩ | ⟨_, _, _, _, h, _⟩
      · simp
      · exact List.sum_nonneg h
    omega
  by_cases hz : 0 < s.dict.seqs.length
  · have := h6 ids' h'
    obtain ⟨p1, e1⟩ := parseScore_real h5 ht hz ids
    obtain ⟨p2, e2⟩ := parseScore_real h5 ht hz ids'
    rw [e1, e2] at this
    have hl : ¬ Real.log (parseProb ws (prior.sum + outs.flatten.length) s.dict.seqs.length ids) <
        Real.log (parseProb ws (prior.sum + outs.flatten.length) s.dict.seqs.length ids') := by
      simpa [realOps, Ext.ops, Ext.lt] using this
    exact (Real.log_le_log_iff p2 p1).1 (not_lt.1 hl)
  · have hnil : s.dict.seqs = [] := List.length_eq_zero_iff.1 (by omega)
    have : ∀ is, Spells s.dict.seqs is seq → is = [] := by
      rintro is ⟨ws, a, _⟩
      cases a with
      | nil => rfl
      | cons a => have := a.2; simp [hnil] at this
    rw [this ids h3, this ids' h']

/-- Frequent symbols are not merged into a rare word, a frequent word wins. -/
example : (do
    let s0 ← StatDict.ofSeqs [[0], [0, 1], [1]] (Ext.fin (0 : Rat)) (some [9, 0, 9])
    let (s, outs) ← parseAll (Ext.ops Rat fun x => -1 / x) s0 [[0, 1]]
    let s1 ← StatDict.ofSeqs [[0], [0, 1], [1]] (Ext.fin (0 : Rat)) (some [0, 40, 0])
    let (_, outs1) ← parseAll (Ext.ops Rat fun x => -1 / x) s1 [[0, 1]]
    pure (outs, s.parseFreqs, outs1) : M (List (List Int) × List Int × List (List Int))) =
    .ok ([[0, 2]], [10, 0, 10], [[1]]) := by decide +kernel

/-- C65, weights of the words: when the words are handed over in sorted order, the weight of each word starts at its own
frequency.  Missing: any other order, see the next theorem; `expand` and `reduce` hand them over by decreasing score. -/
theorem C65_own_prior_partial (words : List IntSeq) (freqs : List Int) (mp : Ext ℝ) (hne : [] ∉ words) (hs : words.Pairwise (· < ·))
    (hf : ∀ f ∈ freqs, 0 ≤ f) (seq : IntSeq) (hk : Knows words seq) :
    ∃ s0 s' ids, StatDict.ofSeqs words mp (some freqs) = .ok s0 ∧ s0.parse realOps seq [] = .ok (s', ids, (ids.length : Int)) ∧
      Spells words ids seq ∧ ∀ ids', Spells words ids' seq →
        parseProb freqs freqs.sum words.length ids' ≤ parseProb freqs freqs.sum words.length ids := by
  obtain ⟨s0, e1, _, e3, e4, _⟩ := ofSeqs_spec (fun w hw e => hne (e ▸ hw)) mp (some freqs) (by simpa using hf)
  have hw : s0.dict.seqs = words := by
    rw [e4]
    have h1 : (sortSeqs words).Pairwise (· < ·) := by
      obtain ⟨d, k1, k2, k3⟩ := init_sorted (hs.imp ne_of_lt) (fun w hw e => hne (e ▸ hw))
      rw [e3] at k1
      cases k1
      rw [← e4]
      exact k3.sorted
    exact List.Perm.eq_of_pairwise (le := (· < ·)) (fun a b _ _ h1 h2 => absurd h2 (lt_asymm h1)) h1 hs (sortSeqs_perm words)
  obtain ⟨s', ids, h1, _, h3, h4⟩ := C65_training_parse_real freqs s0
    (Or.inr ⟨words, mp, some freqs, hne, hf, rfl, e1⟩) [] s0 [] rfl (by rw [hw]; exact hs) seq (by rw [hw]; exact hk) freqs (by simp)
  rw [hw] at h3
  refine ⟨s0, s', ids, e1, h1, h3, fun ids' h' => ?_⟩
  have := h4 ids' (by rw [hw]; exact h')
  simpa [hw] using this

theorem spells_zero_one {ids : List Int} (h : Spells [[0], [0, 1], [1]] ids [0, 1]) : ids = [1] ∨ ids = [0, 2] := by
  obtain ⟨ws, a, b⟩ := h
  have hw : ∀ i w, IsWord [[0], [0, 1], [1]] i w → (i = 0 ∧ w = [0]) ∨ (i = 1 ∧ w = [0, 1]) ∨ (i = 2 ∧ w = [1]) := by
    rintro i w ⟨h0, h1⟩
    obtain ⟨n, rfl⟩ : ∃ n : Nat, i = (n : Int) := ⟨i.toNat, by omega⟩
    rw [Int.toNat_natCast] at h1
    match n with
    | 0 => left; simpa [eq_comm] using h1
    | 1 => right; left; simpa [eq_comm] using h1
    | 2 => right; right; simpa [eq_comm] using h1
    | n + 3 => simp at h1
  cases a with
  | nil => simp at b
  | cons h1 h2 =>
    rcases hw _ _ h1 with ⟨rfl, rfl⟩ | ⟨rfl, rfl⟩ | ⟨rfl, rfl⟩
    · cases h2 with
      | nil => simp at b
      | cons h3 h4 =>
        rcases hw _ _ h3 with ⟨rfl, rfl⟩ | ⟨rfl, rfl⟩ | ⟨rfl, rfl⟩
        · simp at b
        · simp at b
        · cases h4 with
          | nil => exact Or.inr rfl
          | cons h5 h6 => rcases hw _ _ h5 with ⟨rfl, rfl⟩ | ⟨rfl, rfl⟩ | ⟨rfl, rfl⟩ <;> simp at b
    · cases h2 with
      | nil => exact Or.inl rfl
      | cons h3 h4 => rcases hw _ _ h3 with ⟨rfl, rfl⟩ | ⟨rfl, rfl⟩ | ⟨rfl, rfl⟩ <;> simp at b
    · simp at b

/-- The initial frequencies are assigned to the sorted words by position in the unsorted list, so the parse need not be the
most probable one for the frequencies of the words: `0`, `1`, `0 1` with frequencies 9, 9, 0. -/
theorem C65_own_prior_false : ¬ ∀ (words : List IntSeq) (freqs : List Int) (mp : Ext ℝ) (s0 s' : StatDict (Ext ℝ)) (seq : IntSeq)
    (ids : List Int) (weights : List Int), words.Nodup → [] ∉ words → words.length = freqs.length → (∀ f ∈ freqs, 0 ≤ f) →
    StatDict.ofSeqs words mp (some freqs) = .ok s0 → s0.parse realOps seq [] = .ok (s', ids, (ids.length : Int)) →
    Knows words seq → weights.length = words.length →
    (∀ (i k : Nat) w, s0.dict.seqs[i]? = some w → words[k]? = some w → weights[i]? = freqs[k]?) →
    ∀ ids', Spells s0.dict.seqs ids' seq →
      parseProb weights freqs.sum words.length ids' ≤ parseProb weights freqs.sum words.length ids := by
  intro hall
  have e : StatDict.ofSeqs [[0], [1], [0, 1]] (Ext.fin (0 : ℝ)) (some [9, 9, 0]) =
      .ok ⟨⟨[[0], [0, 1], [1]], [-1, 0, -1]⟩, [0, 0, 0], [9, 9, 0], 0, 18, [], .fin 0, 0⟩ := by
    have : IntDict.init [[0], [1], [0, 1]] = .ok ⟨[[0], [0, 1], [1]], [-1, 0, -1]⟩ := by decide +kernel
    simp [StatDict.ofSeqs, this, StatDict.padTo, IntDict.size, sumI]
  obtain ⟨s', ids, h1, _, h3, h4⟩ := C65_training_parse_real [9, 9, 0] _
    (Or.inr ⟨[[0], [1], [0, 1]], _, some [9, 9, 0], by simp, by simp, rfl, e⟩) [] _ [] rfl (by decide) [0, 1] (by unfold Knows; decide) [9, 9, 0] (by simp)
  have hwin := h4 [1] ⟨[[0, 1]], by repeat' constructor, rfl⟩
  have halign : ∀ i < 3, ∀ k < 3, ([[0], [0, 1], [1]] : List IntSeq)[i]? = ([[0], [1], [0, 1]] : List IntSeq)[k]? →
      ([9, 0, 9] : List Int)[i]? = ([9, 9, 0] : List Int)[k]? := by decide
  rcases spells_zero_one h3 with rfl | rfl
  · have := hall [[0], [1], [0, 1]] [9, 9, 0] _ _ s' [0, 1] [1] [9, 0, 9] (by decide) (by simp) rfl (by simp) e h1 (by unfold Knows; decide) rfl
      (by
        intro i k w hi hk
        have hi' := (List.getElem?_eq_some_iff.1 hi).1
        have hk' := (List.getElem?_eq_some_iff.1 hk).1
        exact halign i hi' k hk' (hi.trans hk.symm))
      [0, 2] ⟨[[0], [1]], by repeat' constructor, rfl⟩
    simp only [parseProb, idProb, show Int.toNat 0 = 0 from rfl, show Int.toNat 1 = 1 from rfl, show Int.toNat 2 = 2 from rfl, List.map] at this
    norm_num at this
  · simp only [parseProb, idProb, show Int.toNat 0 = 0 from rfl, show Int.toNat 1 = 1 from rfl, show Int.toNat 2 = 2 from rfl, List.map] at hwin
    norm_num at hwin

/-! ## C66 -/

/-- The pair table of a reachable state counts the adjacent ids. -/
theorem pairs_count {O : FloatOps F} (L : ScoreLaws O) {s0 s : StatDict F} (h0 : FreshStat s0) {seqs : List IntSeq}
    {outs : List (List Int)} (h : parseAll O s0 seqs = .ok (s, outs)) (k : Int × Int) : pairGet s.pairs k = (pairsOf outs).count k := by
  obtain ⟨hi, _, _, hp, _⟩ := h0.spec
  obtain ⟨_, _, e2, _, _, _, _, _, _, _, _, _, hk⟩ := parseAll_spec L seqs s0 hi
  rw [h] at e2
  cases e2
  rw [hk, hp, pairsOf, List.count_flatMap]
  simp only [pairGet, List.lookup, Option.getD_none, zero_add]
  have : ∀ l : List (List Int), (l.map fun o => ((adj o).count k : Int)).sum =
      (((l.map (List.count k ∘ fun ids => ids.zip ids.tail)).sum : Nat) : Int) := by
    intro l
    induction l with
    | nil => rfl
    | cons o l ih => rw [List.map_cons, List.sum_cons, ih, List.map_cons, List.sum_cons, Nat.cast_add]; rfl
  exact this outs

/-- The state after any parses, as an input for `expand`. -/
theorem reached_exp {O : FloatOps F} (L : ScoreLaws O) {s0 s : StatDict F} (h0 : FreshStat s0) {seqs : List IntSeq}
    {outs : List (List Int)} (h : parseAll O s0 seqs = .ok (s, outs)) (hs : s.dict.seqs.Pairwise (· < ·)) : ExpOk s := by
  obtain ⟨_, _, e1, hr, _⟩ := reached_parseAll L seqs s0 h0.reached
  rw [h] at e1
  cases e1
  exact ⟨hr.inv, hr.sorted hs, hr.pkey, hr.ppos, hr.pnodup⟩

theorem freq_count {O : FloatOps F} (L : ScoreLaws O) {s0 s : StatDict F} (h0 : FreshStat s0) {seqs : List IntSeq}
    {outs : List (List Int)} (h : parseAll O s0 seqs = .ok (s, outs)) (n : Nat) : s.freq (n : Int) = outs.flatten.count (n : Int) := by
  obtain ⟨_, _, e, _, hf, _⟩ := C13_freq_accounting O L s0 h0 seqs
  rw [h] at e
  cases e
  exact hf n

/-- C66 for an expansion: the frequency reported for an old word is the number of times it was emitted, the one reported for
a new word is the number of times two words spelling it were emitted next to each other. -/
theorem C66_expand_freqs (E : Env F) (L : EnvLaws E) (SL : ScoreLaws E.ops) (s0 : StatDict F) (h0 : FreshStat s0)
    (seqs : List IntSeq) (slots : Int) (s : StatDict F) (outs : List (List Int)) (h : parseAll E.ops s0 seqs = .ok (s, outs))
    (hs : s.dict.seqs.Pairwise (· < ·)) :
    ∃ words freqs mp, s.expand E slots = .ok (words, freqs, mp) ∧ words.length = freqs.length ∧
      ∀ (k : Nat) (w : IntSeq) (f : Int), words[k]? = some w → freqs[k]? = some f →
        (∃ n : Nat, s.dict.seqs[n]? = some w ∧ f = outs.flatten.count (n : Int)) ∨
        (w ∉ s.dict.seqs ∧ ∃ a b u v, IsWord s.dict.seqs a u ∧ IsWord s.dict.seqs b v ∧ w = u ++ v ∧ 0 < f ∧ f = followed outs a b) := by
  have hx := reached_exp SL h0 h hs
  obtain ⟨taken, rest, e1, _, _, _, _, _, e7, _⟩ := expand_shape L hx slots
  refine ⟨_, _, _, e1, by simp, ?_⟩
  intro k w f hw hf
  rw [List.getElem?_map] at hw hf
  obtain ⟨it, hit, rfl⟩ := Option.map_eq_some_iff.1 hw
  rw [hit] at hf
  simp only [Option.map_some, Option.some.injEq] at hf
  obtain ⟨hin, hcase⟩ := e7 it (List.mem_append_left _ (List.mem_of_getElem? hit))
  rcases hcase with ⟨n, hn, rfl⟩ | ⟨g1, _, g3, g4, _⟩
  · left
    refine ⟨n, ?_, ?_⟩
    · simp [txt, knownItem, wordAt, List.getElem?_eq_getElem hn]
    · rw [← hf]
      exact freq_count SL h0 h n
  · right
    have htxt : txt s it = wordAt s it.first ++ wordAt s it.second := by simp [txt, g1]
    have hpk := hx.pkey _ g3
    have hsz := hx.inv.size
    refine ⟨by rw [htxt]; exact g4, it.first, it.second, _, _, isWord_wordAt g1 (hin.1 g1), isWord_wordAt hin.2.1 hin.2.2, htxt,
      by rw [← hf]; exact hx.ppos _ g3, ?_⟩
    have h1 := pairGet_of_mem hx.pnodup g3
    dsimp only at h1
    rw [pairs_count SL h0 h] at h1
    rw [← hf, ← h1]
    rfl

theorem FreshClosed.stat {s : StatDict F} (h : FreshClosed s) : FreshStat s := by
  rcases h with ⟨mp, rfl⟩ | ⟨words, mp, fr, _, h2, _, h4, h5⟩
  · exact Or.inl ⟨mp, rfl⟩
  · exact Or.inr ⟨words, mp, fr, h2, h4, h5⟩

/-- C66 for a reduction: the reported frequency of each word is the number of times it was emitted. -/
theorem C66_reduce_freqs (E : Env F) (L : EnvLaws E) (SL : ScoreLaws E.ops) (s0 : StatDict F) (h0 : FreshClosed s0)
    (seqs : List IntSeq) (cur : List IntSeq) (hfit : FitsAll s0.dict.seqs seqs cur) (slots : Int) :
    ∃ s outs words freqs mp, parseAll E.ops s0 seqs = .ok (s, outs) ∧ s.dict.seqs = cur ∧
      s.reduce E slots = .ok (words, freqs, mp) ∧ words.length = freqs.length ∧
      ∀ (k : Nat) (w : IntSeq) (f : Int), words[k]? = some w → freqs[k]? = some f →
        ∃ n : Nat, cur[n]? = some w ∧ f = outs.flatten.count (n : Int) := by
  obtain ⟨hh, hp⟩ := h0.spec
  obtain ⟨s, outs, p1, p2, p3, _, _⟩ := healthy_parseAll SL seqs s0 cur hh hfit
  obtain ⟨alt, kept, rest, m, r1, _, _, _, r5, _⟩ := reduce_shape L SL p2 slots
  refine ⟨s, outs, _, _, _, p1, p3, r1, by simp, ?_⟩
  intro k w f hw hf
  rw [List.getElem?_map] at hw hf
  obtain ⟨it, hit, rfl⟩ := Option.map_eq_some_iff.1 hw
  rw [hit] at hf
  simp only [Option.map_some, Option.some.injEq] at hf
  obtain ⟨n, w, hw, _, h2, h3, _⟩ := (r5 it).1 (List.mem_append_left _ (List.mem_of_getElem? hit))
  refine ⟨n, ?_, ?_⟩
  · rw [← p3, h2, hw]
    simp [wordAt, hw]
  · rw [← hf, h3]
    exact freq_count SL h0.stat p1 n

set_option synthInstance.maxSize 2000 in
/-- The frequencies of one expansion and of the reduction that follows. -/
example : (do
    let (s, outs) ← parseAll ratOps (StatDict.new (Ext.fin (1 / 500 : Rat))) [[0, 1, 0, 1], [1, 2]]
    let (words, freqs, mp) ← s.expand ratEnv 1
    let s1 ← StatDict.ofSeqs words mp (some freqs)
    let (s2, outs2) ← parseAll ratOps s1 [[0, 1, 0, 1, 2]]
    let (words2, freqs2, _) ← s2.reduce ratEnv 1
    pure (outs, words, freqs, outs2, words2, freqs2) : M (List (List Int) × List IntSeq × List Int × List (List Int) × List IntSeq × List Int)) =
    .ok ([[0, 1, 0, 1], [1, 2]], [[0], [1], [2], [0, 1]], [2, 3, 1, 2], [[1, 1, 3]], [[0], [1], [2], [0, 1]], [0, 0, 1, 2]) := by decide +kernel

/-! ## C69 -/

theorem min_cases (O : FloatOps F) (x y : F) : O.min x y = x ∨ O.min x y = y := by
  unfold FloatOps.min
  split
  · exact Or.inr rfl
  · exact Or.inl rfl

theorem parseAll_minProb {O : FloatOps F} (L : ScoreLaws O) : ∀ (seqs : List IntSeq) (s s' : StatDict F) (outs : List (List Int)),
    SInv s → parseAll O s seqs = .ok (s', outs) → s'.minProb = s.minProb := by
  intro seqs
  induction seqs with
  | nil => intro s s' outs _ e; cases e; rfl
  | cons seq seqs ih =>
    intro s s' outs h e
    obtain ⟨s1, ids, p, i1, _, _, _, _, _, _, _, _, c8, _⟩ := statParse_spec L h seq [] (by simp)
    rw [List.nil_append] at p
    simp only [parseAll, p, ok_bind] at e
    obtain ⟨⟨s2, outs'⟩, e1, e2⟩ := bind_ok.1 e
    cases e2
    exact (ih s1 s2 outs' i1 e1).trans c8

/-- C69 for an expansion: the new minimal probability is the least of the old one and the relative frequencies, among all
adjacent pairs, of the added words. -/
theorem C69_expand_min (E : Env F) (L : EnvLaws E) (SL : ScoreLaws E.ops) (P : ProbLaws E.ops) (s0 : StatDict F) (h0 : FreshStat s0)
    (seqs : List IntSeq) (slots : Int) (s : StatDict F) (outs : List (List Int)) (h : parseAll E.ops s0 seqs = .ok (s, outs))
    (hs : s.dict.seqs.Pairwise (· < ·)) (hmp : P.Ok s0.minProb) :
    ∃ words freqs mp, s.expand E slots = .ok (words, freqs, mp) ∧
      LeastOf E.ops.lt mp (s0.minProb :: ((words.zip freqs).filter fun e => !s.dict.seqs.contains e.1).map
        fun e => E.ops.div (E.ops.ofInt e.2) (E.ops.ofInt (pairsOf outs).length)) := by
  have hx := reached_exp SL h0 h hs
  obtain ⟨taken, rest, e1, _, _, _, _, _, e7, _⟩ := expand_shape L hx slots
  have hmin := parseAll_minProb SL seqs s0 s outs h0.spec.1 h
  have hacc : pairSum (fun _ => true) s.pairs = (pairsOf outs).length := by
    rw [pairSum_count hx.pnodup _ (pairsOf outs) (pairs_count SL h0 h)]
    simp
  have hnew : ∀ it ∈ taken, txt s it ∉ s.dict.seqs ↔ 0 ≤ it.first := by
    intro it hit
    rcases (e7 it (List.mem_append_left _ hit)).2 with ⟨n, hn, rfl⟩ | ⟨g1, _, _, g4, _⟩
    · have : txt s (knownItem E.ops s n) = s.dict.seqs[n] := by simp [txt, knownItem, wordAt, List.getElem?_eq_getElem hn]
      rw [this]
      simp [knownItem]
    · simp [txt, g1, g4]
  refine ⟨_, _, _, e1, ?_⟩
  rw [hacc, hmin, List.zip_map']
  have hmem : ∀ x, x ∈ (((taken.map fun it => (txt s it, it.count)).filter fun e => !s.dict.seqs.contains e.1).map
      fun e => E.ops.div (E.ops.ofInt e.2) (E.ops.ofInt (pairsOf outs).length)) ↔
      ∃ it ∈ taken, 0 ≤ it.first ∧ x = E.ops.div (E.ops.ofInt it.count) (E.ops.ofInt (pairsOf outs).length) := by
    intro x
    simp only [List.mem_map, List.mem_filter]
    constructor
    · rintro ⟨_, ⟨⟨it, hit, rfl⟩, hc⟩, rfl⟩
      exact ⟨it, hit, (hnew it hit).1 (by simpa using hc), rfl⟩
    · rintro ⟨it, hit, hf, rfl⟩
      exact ⟨_, ⟨⟨it, hit, rfl⟩, by simpa using (hnew it hit).2 hf⟩, rfl⟩
  by_cases hlen : 1 ≤ ((pairsOf outs).length : Int)
  · obtain ⟨b1, b2, b3, b4⟩ := expMin_spec P hlen taken s0.minProb hmp (by
      intro it hit hf
      rcases (e7 it (List.mem_append_left _ hit)).2 with ⟨n, hn, rfl⟩ | ⟨_, _, g3, _⟩
      · exact absurd hf (by simp [knownItem])
      · exact (hx.ppos _ g3).le)
    refine ⟨?_, ?_⟩
    · rcases b4 with e | ⟨it, hit, hf, e⟩
      · rw [e]; simp
      · exact List.mem_cons_of_mem _ ((hmem _).2 ⟨it, hit, hf, e⟩)
    · intro x hx
      rcases List.mem_cons.1 hx with rfl | hx
      · exact b2
      · obtain ⟨it, hit, hf, rfl⟩ := (hmem x).1 hx
        exact b3 it hit hf
  · have hno : ∀ it ∈ taken, ¬ 0 ≤ it.first := by
      intro it hit hf
      rcases (e7 it (List.mem_append_left _ hit)).2 with ⟨n, hn, rfl⟩ | ⟨_, _, g3, _⟩
      · exact absurd hf (by simp [knownItem])
      · have h1 := pairSum_le (fun _ => true) hx.ppos g3 rfl
        have h2 := hx.ppos _ g3
        dsimp only at h2
        omega
    have hexp : ∀ (l : List (StatItem F)) (mp : F), (∀ it ∈ l, ¬ 0 ≤ it.first) → expMin E.ops ((pairsOf outs).length : Int) l mp = mp := by
      intro l
      induction l with
      | nil => intro mp _; rfl
      | cons a l ih =>
        intro mp hl
        have : expMin E.ops ((pairsOf outs).length : Int) (a :: l) mp = expMin E.ops ((pairsOf outs).length : Int) l
          (if 0 ≤ a.first then E.ops.min mp (E.ops.div (E.ops.ofInt a.count) (E.ops.ofInt ((pairsOf outs).length : Int))) else mp) := rfl
        rw [this, if_neg (hl a (by simp))]
        exact ih mp fun i hi => hl i (by simp [hi])
    rw [hexp taken _ hno]
    refine ⟨by simp, ?_⟩
    intro x hx
    rcases List.mem_cons.1 hx with rfl | hx
    · exact ProbLaws.refl P hmp
    · obtain ⟨it, hit, hf, rfl⟩ := (hmem x).1 hx
      exact absurd hf (hno it hit)

/-- C69 for a reduction: the new minimal probability is the least of the old one, of one over the number of words, and of the
smoothed relative frequencies `(f + 1) / (total + number of words)` of the surviving longer words, where `total` is the sum of
the surviving frequencies. -/
theorem C69_reduce_min (E : Env F) (L : EnvLaws E) (SL : ScoreLaws E.ops) (P : ProbLaws E.ops) (s0 : StatDict F) (h0 : FreshClosed s0)
    (seqs : List IntSeq) (cur : List IntSeq) (hfit : FitsAll s0.dict.seqs seqs cur) (slots : Int) (hmp : P.Ok s0.minProb) :
    ∃ s outs words freqs mp, parseAll E.ops s0 seqs = .ok (s, outs) ∧ s.reduce E slots = .ok (words, freqs, mp) ∧
      LeastOf E.ops.lt mp (s0.minProb :: E.ops.div (E.ops.ofInt 1) (E.ops.ofInt cur.length) ::
        ((words.zip freqs).filter fun e => e.1.length ≠ 1).map
          fun e => E.ops.div (E.ops.ofInt (e.2 + 1)) (E.ops.ofInt (freqs.sum + cur.length))) := by
  obtain ⟨hh, hp⟩ := h0.spec
  obtain ⟨s, outs, p1, p2, p3, _, _⟩ := healthy_parseAll SL seqs s0 cur hh hfit
  obtain ⟨alt, kept, rest, m, r1, r2, _, _, r5, _⟩ := reduce_shape L SL p2 slots
  have hmin := parseAll_minProb SL seqs s0 s outs h0.stat.spec.1 p1
  have hsize : (s.size : Int) = (cur.length : Int) := by rw [← p3]; rfl
  have hword : ∀ it ∈ kept, ∃ n : Nat, it.second = (n : Int) ∧ s.dict.seqs[n]? = some (wordAt s it.second) ∧ 0 ≤ it.count := by
    intro it hit
    obtain ⟨n, w, hw, _, h2, h3, _⟩ := (r5 it).1 (List.mem_append_left _ hit)
    refine ⟨n, h2, by rw [h2]; simp [wordAt, hw], ?_⟩
    rw [h3, freq_count SL h0.stat p1]
    omega
  have hpar : ∀ it ∈ kept, ∃ p, s.dict.parent it.second = .ok p ∧ (0 ≤ p ↔ (wordAt s it.second).length ≠ 1) := by
    intro it hit
    obtain ⟨n, h2, hw, _⟩ := hword it hit
    obtain ⟨p, hp1, hp2⟩ := p2.sorted.parent (List.getElem?_eq_some_iff.1 hw).1
    have hroot := (isParent_root p2.sorted hw hp2).trans (root_single p2.sorted.nonempty p2.closed (List.mem_of_getElem? hw))
    refine ⟨p, by rw [h2]; exact hp1, ?_⟩
    constructor
    · intro h0 hc
      have := hroot.2 hc
      omega
    · intro hc
      by_contra h0
      exact hc (hroot.1 (by omega))
  refine ⟨s, outs, _, _, _, p1, r1, ?_⟩
  have hinv := P.inv (cur.length : Int) (by omega)
  obtain ⟨a1, a2, a3⟩ := min_spec P hinv hmp
  rw [hsize, hmin, sumI_eq] at r2
  have hmem : ∀ x, x ∈ ((((kept.map fun it => wordAt s it.second).zip (kept.map (·.count))).filter fun e => e.1.length ≠ 1).map
      fun e => E.ops.div (E.ops.ofInt (e.2 + 1)) (E.ops.ofInt ((kept.map (·.count)).sum + cur.length))) ↔
      ∃ it ∈ kept, (wordAt s it.second).length ≠ 1 ∧
        x = E.ops.div (E.ops.ofInt (it.count + 1)) (E.ops.ofInt ((kept.map (·.count)).sum + cur.length)) := by
    intro x
    rw [List.zip_map']
    simp only [List.mem_map, List.mem_filter]
    constructor
    · rintro ⟨_, ⟨⟨it, hit, rfl⟩, hc⟩, rfl⟩
      exact ⟨it, hit, by simpa using hc, rfl⟩
    · rintro ⟨it, hit, hc, rfl⟩
      exact ⟨_, ⟨⟨it, hit, rfl⟩, by simpa using hc⟩, rfl⟩
  have hcases : E.ops.min (E.ops.div (E.ops.ofInt 1) (E.ops.ofInt (cur.length : Int))) s0.minProb ∈
      [s0.minProb, E.ops.div (E.ops.ofInt 1) (E.ops.ofInt (cur.length : Int))] := by
    rcases min_cases E.ops (E.ops.div (E.ops.ofInt 1) (E.ops.ofInt (cur.length : Int))) s0.minProb with e | e <;> rw [e] <;> simp
  by_cases hk : kept = []
  · subst hk
    cases r2
    refine ⟨by simpa using hcases, ?_⟩
    intro x hx
    rcases List.mem_cons.1 hx with rfl | hx
    · exact a3
    · rcases List.mem_cons.1 hx with rfl | hx
      · exact a2
      · simp at hx
  · have hlen : 1 ≤ (kept.map (·.count)).sum + (s.size : Int) := by
      obtain ⟨it, hit⟩ := List.exists_mem_of_ne_nil _ hk
      obtain ⟨n, _, hw, _⟩ := hword it hit
      have h1 := (List.getElem?_eq_some_iff.1 hw).1
      have h2 : 0 ≤ (kept.map (·.count)).sum := List.sum_nonneg (by
        intro c hc
        obtain ⟨i, hi, rfl⟩ := List.mem_map.1 hc
        obtain ⟨_, _, _, h⟩ := hword i hi
        exact h)
      rw [hsize, ← p3]
      omega
    obtain ⟨b1, b2, b3, b4⟩ := reduceLoop_min_exact P hlen kept _ _ a1 (fun it hit => (hword it hit).elim fun _ h => h.2.2) r2
    dsimp only at b1 b2 b3 b4
    rw [hsize] at b3 b4
    refine ⟨?_, ?_⟩
    · rcases b4 with e | ⟨it, hit, ⟨p, hp1, hp0⟩, e⟩
      · rw [e]
        rcases List.mem_cons.1 hcases with h | h
        · rw [h]; simp
        · rw [List.mem_singleton.1 h]; simp
      · obtain ⟨q, hq1, hq2⟩ := hpar it hit
        rw [hp1] at hq1
        cases hq1
        exact List.mem_cons_of_mem _ (List.mem_cons_of_mem _ ((hmem _).2 ⟨it, hit, hq2.1 hp0, e⟩))
    · intro x hx
      rcases List.mem_cons.1 hx with rfl | hx
      · exact P.leTrans _ _ _ b1 a1 hmp b2 a3
      · rcases List.mem_cons.1 hx with rfl | hx
        · exact P.leTrans _ _ _ b1 a1 hinv b2 a2
        · obtain ⟨it, hit, hne, rfl⟩ := (hmem x).1 hx
          obtain ⟨q, hq1, hq2⟩ := hpar it hit
          exact b3 it hit q hq1 (hq2.2 hne)

/-- The minimal probabilities of an expansion (two of the four pairs spell the new word) and of the reduction
that follows. -/
example : (do
    let (s, outs) ← parseAll ratOps (StatDict.new (Ext.fin (1 : Rat))) [[0, 1, 0, 1], [1, 2]]
    let (words, freqs, mp) ← s.expand ratEnv 1
    let s1 ← StatDict.ofSeqs words mp (some freqs)
    let (s2, _) ← parseAll ratOps s1 [[0, 1, 0, 1, 2]]
    let (_, freqs2, mp2) ← s2.reduce ratEnv 1
    pure ((pairsOf outs).length, mp, freqs2, mp2) : M (Nat × Ext Rat × List Int × Ext Rat)) =
    .ok (4, .fin (1 / 2), [0, 0, 1, 2], .fin (1 / 4)) := by decide +kernel

end VGram.Props
