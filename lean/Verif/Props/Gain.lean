import Verif.Props.Learn
import Verif.Props.CodeLength

/-!
# What a reduction keeps (C67) and what an expansion adds (C68), in exact real arithmetic
-/

namespace VGram.Props

open VGram Spec

/-- Occurrences of each id in the emitted lists. -/
def counts (outs : List (List Int)) : Nat → Int := fun i => (outs.flatten.count (i : Int) : Int)

variable {srt : List (StatItem (Ext ℝ)) → List (StatItem (Ext ℝ))} {ord : PairMap → PairMap} {gam : List (Ext ℝ) → Nat → ℝ}

/-- The reduction in terms of scores: `score n` bounds the gain from above and is the gain when the replacement has no
repeated ids. -/
theorem reduce_real (L : RealLaws srt ord gam) (s0 : StatDict (Ext ℝ)) (h0 : FreshClosed s0)
    (seqs : List IntSeq) (cur : List IntSeq) (hfit : FitsAll s0.dict.seqs seqs cur) (slots : Int) :
    ∃ (s : StatDict (Ext ℝ)) (outs : List (List Int)) (words : List IntSeq) (freqs : List Int) (mp : Ext ℝ) (alt : Nat → List Int) (score : Nat → ℝ),
      parseAll realOps s0 seqs = .ok (s, outs) ∧ s.dict.seqs = cur ∧ s.reduce (exactEnv srt ord gam) slots = .ok (words, freqs, mp) ∧
      (∀ (n : Nat) (w : IntSeq), cur[n]? = some w → 1 < w.length → 0 < counts outs n →
        (Spells cur (alt n) w ∧ (n : Int) ∉ alt n ∧
          ∀ ids, Spells cur ids w → (n : Int) ∉ ids →
            (∀ (k : Nat) (v : IntSeq), (k : Int) ∈ ids → cur[k]? = some v → v.length = 1 ∨ 0 < counts outs k) →
            parseProb ((List.range cur.length).map (counts outs)) outs.flatten.length cur.length ids ≤
              parseProb ((List.range cur.length).map (counts outs)) outs.flatten.length cur.length (alt n)) ∧
        (gain cur.length (counts outs) n (alt n) ≤ score n ∧ ((alt n).Nodup → gain cur.length (counts outs) n (alt n) = score n)) ∧
        score n = xlog (counts outs n) - xlog (tokens cur.length (counts outs)) +
          xlog ((tokens cur.length (counts outs) + (((alt n).length : Int) - 1) * counts outs n : Int) : ℝ) -
          altSum (counts outs) (counts outs n) (alt n) ∧
        (w ∈ words → 0 < score n) ∧
        (w ∉ words → score n ≤ 0 ∨ ((words.length : Int) = slots + singles cur ∧
          ∀ (m : Nat) (v : IntSeq), cur[m]? = some v → 1 < v.length → v ∈ words → score n ≤ score m))) ∧
      (∀ (n : Nat) (w : IntSeq), cur[n]? = some w → 1 < w.length → counts outs n = 0 → w ∉ words) := by
  obtain ⟨hh, hp⟩ := h0.spec
  have SL : ScoreLaws realOps := Ext.scoreLaws Real.log
  obtain ⟨s, outs, p1, p2, p3, _, _⟩ := healthy_parseAll SL seqs s0 cur hh hfit
  obtain ⟨alt, kept, rest, m, r1, _, r3, r4, r5, r6⟩ := reduce_shape L.env SL p2 slots
  subst p3
  have hcnt : ∀ n : Nat, s.freq (n : Int) = counts outs n := fun n => freq_count SL h0.stat p1 n
  have hnn : ∀ i : Int, 0 ≤ s.freq i := p2.freq_nonneg
  have hcn : ∀ n : Nat, 0 ≤ counts outs n := fun n => by unfold counts; omega
  obtain ⟨_, _, e2, _, _, hpow, hpsum, _⟩ := C13_freq_accounting realOps SL s0 h0.stat seqs
  rw [p1] at e2
  cases e2
  have htok : s.power = tokens s.dict.seqs.length (counts outs) := by
    rw [hpsum]
    exact Finset.sum_congr rfl fun i _ => hcnt i
  have hnd : s.dict.seqs.Nodup := p2.sorted.nodup
  let score : Nat → ℝ := fun n => xlog (counts outs n) - xlog (tokens s.dict.seqs.length (counts outs)) +
    xlog ((tokens s.dict.seqs.length (counts outs) + (((alt n).length : Int) - 1) * counts outs n : Int) : ℝ) -
    altSum (counts outs) (counts outs n) (alt n)
  -- the score of the code
  have hscore : ∀ (n : Nat) (w : IntSeq), s.dict.seqs[n]? = some w → 1 < w.length → 0 < counts outs n →
      s.itemScore (Ext.ops ℝ Real.log) ((Ext.ops ℝ Real.log).mul (s.codeLengthPerChar (Ext.ops ℝ Real.log))
        ((Ext.ops ℝ Real.log).ofInt s.totalChars)) (s.freq (n : Int)) (alt n) = .fin (score n) := by
    intro n w hw hl hc
    have hc' : 1 ≤ s.freq (n : Int) := by rw [hcnt]; omega
    obtain ⟨hsp, _, _⟩ := r6 n w hw hl hc'
    have hpw := p2.freq_le_power n
    have hpc := p2.power_le_chars
    have hne : alt n ≠ [] := by
      intro he
      rw [he] at hsp
      obtain ⟨ws, a, b⟩ := hsp
      cases a
      rw [← b] at hl
      simp at hl
    obtain ⟨cl, hcl⟩ : ∃ cl : ℝ, (Ext.ops ℝ Real.log).mul (s.codeLengthPerChar (Ext.ops ℝ Real.log))
        ((Ext.ops ℝ Real.log).ofInt s.totalChars) = .fin cl := by
      exact codeLength_num L.env (s := s) (by omega) (by omega)
    rw [hcl, itemScore_real hc' hnn (by omega) hne (fun i hi => (hsp.range i hi).1)]
    congr 1
    show _ = score n
    simp only [score, ← htok, hcnt]
  have hkey : ∀ (n : Nat) (w : IntSeq), s.dict.seqs[n]? = some w → 1 < w.length → ∀ it ∈ kept ++ rest, wordAt s it.second = w →
      0 < counts outs n ∧ it.score = .fin (score n) ∧ 0 < score n := by
    intro n w hw hl it hit htxt
    obtain ⟨k, v, hv, _, h2, h3, h4⟩ := (r5 it).1 hit
    have hkw : wordAt s it.second = v := by rw [h2]; simp [wordAt, hv]
    have : v = w := hkw.symm.trans htxt
    subst this
    obtain rfl := index_unique hnd hv hw
    rcases h4 with ⟨h5, _⟩ | ⟨_, h6, h7, h8⟩
    · omega
    · rw [hcnt] at h6
      have hs := hscore k v hw hl (by omega)
      have h7' : it.score = .fin (score k) := h7.trans hs
      refine ⟨by omega, h7', ?_⟩
      rw [h7'] at h8
      have h9 : Ext.lt (Ext.fin ((0 : Int) : ℝ)) (Ext.fin (score k)) = true := h8
      simpa [Ext.lt] using h9
  have hmemw : ∀ w, w ∈ (kept.map fun it => wordAt s it.second) ↔ ∃ it ∈ kept, wordAt s it.second = w := by
    intro w
    exact List.mem_map
  refine ⟨s, outs, _, _, _, alt, score, p1, rfl, r1, ?_, ?_⟩
  · intro n w hw hl hc
    have hc' : 1 ≤ s.freq (n : Int) := by rw [hcnt]; omega
    obtain ⟨hsp, hna, hopt⟩ := r6 n w hw hl hc'
    have hn := (List.getElem?_eq_some_iff.1 hw).1
    refine ⟨⟨hsp, hna, ?_⟩, gain_le_score hn (fun i => hcn i) hna hsp.range, rfl, ?_, ?_⟩
    · intro ids hids hni hu
      have h1 := hopt (Ext.orderLaws Real.log) ids hids hni (by
        intro k v hk hv
        rcases hu k v hk hv with h | h
        · exact Or.inl h
        · right; rw [hcnt]; omega)
      have hsz : 0 < s.dict.seqs.length := by omega
      obtain ⟨q1, q2⟩ := parseScore_real p2.inv.nonneg p2.inv.power hsz ids
      obtain ⟨q3, q4⟩ := parseScore_real p2.inv.nonneg p2.inv.power hsz (alt n)
      have h2 : realOps.lt (parseScore realOps s.symbolFreqs s.power s.dict.seqs.length (alt n))
        (parseScore realOps s.symbolFreqs s.power s.dict.seqs.length ids) = false := h1
      rw [q2, q4] at h2
      have h3 : ¬ Real.log (parseProb s.symbolFreqs s.power s.dict.seqs.length (alt n)) <
          Real.log (parseProb s.symbolFreqs s.power s.dict.seqs.length ids) := by
        simpa [realOps, Ext.ops, Ext.lt] using h2
      have h4 := (Real.log_le_log_iff q1 q3).1 (not_lt.1 h3)
      have hprob : ∀ is, Spells s.dict.seqs is w → parseProb ((List.range s.dict.seqs.length).map (counts outs)) outs.flatten.length s.dict.seqs.length is =
          parseProb s.symbolFreqs s.power s.dict.seqs.length is := by
        intro is his
        unfold parseProb
        congr 1
        refine List.map_congr_left fun i hi => ?_
        have hr := his.range i hi
        obtain ⟨k, rfl⟩ : ∃ k : Nat, i = (k : Int) := ⟨i.toNat, by omega⟩
        have hk : k < s.dict.seqs.length := by omega
        unfold idProb
        rw [hpow, Int.toNat_natCast]
        have e1 : ((s.symbolFreqs[k]?).getD 0) = counts outs k := by rw [← hcnt, freq_nat]; rfl
        rw [e1, List.getElem?_map, List.getElem?_range hk]
        simp
      rw [hprob ids hids, hprob (alt n) hsp]
      exact h4
    · intro hmem
      obtain ⟨it, hit, htxt⟩ := (hmemw w).1 hmem
      exact (hkey n w hw hl it (List.mem_append_left _ hit) htxt).2.2
    · intro hmem
      by_cases hpos : score n ≤ 0
      · exact Or.inl hpos
      · right
        have hin : (⟨-1, (n : Int), .fin (score n), s.freq (n : Int)⟩ : StatItem (Ext ℝ)) ∈ kept ++ rest := by
          refine (r5 _).2 ⟨n, w, hw, rfl, rfl, rfl, Or.inr ⟨hl, hc', (hscore n w hw hl hc).symm, ?_⟩⟩
          show Ext.lt (Ext.fin ((0 : Int) : ℝ)) (Ext.fin (score n)) = true
          simpa [Ext.lt] using hpos
        have hinr : (⟨-1, (n : Int), .fin (score n), s.freq (n : Int)⟩ : StatItem (Ext ℝ)) ∈ rest := by
          rcases List.mem_append.1 hin with h | h
          · exact absurd ((hmemw w).2 ⟨_, h, by simp [wordAt, hw]⟩) hmem
          · exact h
        refine ⟨?_, ?_⟩
        · rw [List.length_map, r4 (List.ne_nil_of_mem hinr), p2.prefixFree]
        · intro k v hv hlv hmv
          obtain ⟨it, hit, htxt⟩ := (hmemw v).1 hmv
          obtain ⟨_, hs, _⟩ := hkey k v hv hlv it (List.mem_append_left _ hit) htxt
          have h1 := (List.pairwise_append.1 r3).2.2 it hit _ hinr
          have h2 : Ext.lt (Ext.neg (Ext.fin (score n))) (Ext.neg it.score) = false := h1
          rw [hs] at h2
          simpa [Ext.lt, Ext.neg] using h2
  · intro n w hw hl hc hmem
    obtain ⟨it, hit, htxt⟩ := (hmemw w).1 hmem
    have := (hkey n w hw hl it (List.mem_append_left _ hit) htxt).1
    omega

/-! ## C67 -/

/-- C67: for every emitted longer word the code considers the most probable other split into emitted or one-symbol words.
A word is dropped only if replacing its occurrences by that split does not lengthen the ideal code of the training text, or
all slots are taken by words that are worth at least as much.  A word whose split has no repeated ids is kept only if
replacing it lengthens the code.  Words never emitted are dropped.  Missing: kept words whose split repeats an id, see
`C67_kept_gain_false`. -/
theorem C67_reduce_gain_partial (L : RealLaws srt ord gam) (s0 : StatDict (Ext ℝ)) (h0 : FreshClosed s0)
    (seqs : List IntSeq) (cur : List IntSeq) (hfit : FitsAll s0.dict.seqs seqs cur) (slots : Int) :
    ∃ (s : StatDict (Ext ℝ)) (outs : List (List Int)) (words : List IntSeq) (freqs : List Int) (mp : Ext ℝ) (alt : Nat → List Int),
      parseAll realOps s0 seqs = .ok (s, outs) ∧ s.dict.seqs = cur ∧ s.reduce (exactEnv srt ord gam) slots = .ok (words, freqs, mp) ∧
      (∀ (n : Nat) (w : IntSeq), cur[n]? = some w → 1 < w.length → counts outs n = 0 → w ∉ words) ∧
      ∀ (n : Nat) (w : IntSeq), cur[n]? = some w → 1 < w.length → 0 < counts outs n →
        (Spells cur (alt n) w ∧ (n : Int) ∉ alt n ∧
          ∀ ids, Spells cur ids w → (n : Int) ∉ ids →
            (∀ (k : Nat) (v : IntSeq), (k : Int) ∈ ids → cur[k]? = some v → v.length = 1 ∨ 0 < counts outs k) →
            parseProb ((List.range cur.length).map (counts outs)) outs.flatten.length cur.length ids ≤
              parseProb ((List.range cur.length).map (counts outs)) outs.flatten.length cur.length (alt n)) ∧
        (w ∈ words → (alt n).Nodup → 0 < gain cur.length (counts outs) n (alt n)) ∧
        (w ∉ words → gain cur.length (counts outs) n (alt n) ≤ 0 ∨ ((words.length : Int) = slots + singles cur ∧
          ∀ (m : Nat) (v : IntSeq), cur[m]? = some v → 1 < v.length → v ∈ words → (alt m).Nodup →
            gain cur.length (counts outs) n (alt n) ≤ gain cur.length (counts outs) m (alt m))) := by
  obtain ⟨s, outs, words, freqs, mp, alt, score, h1, h2, h3, h4, h5⟩ := reduce_real L s0 h0 seqs cur hfit slots
  refine ⟨s, outs, words, freqs, mp, alt, h1, h2, h3, h5, ?_⟩
  intro n w hw hl hc
  obtain ⟨a1, ⟨a2, a3⟩, _, a5, a6⟩ := h4 n w hw hl hc
  refine ⟨a1, fun hm hnd => ?_, fun hm => ?_⟩
  · rw [a3 hnd]
    exact a5 hm
  · rcases a6 hm with h | ⟨h, h'⟩
    · exact Or.inl (a2.trans h)
    · refine Or.inr ⟨h, fun m v hv hlv hmv hnd => ?_⟩
      have hcm : 0 < counts outs m := by
        by_contra hc
        have h0 : 0 ≤ counts outs m := by unfold counts; omega
        exact h5 m v hv hlv (by omega) hmv
      obtain ⟨_, ⟨_, b3⟩, _⟩ := h4 m v hv hlv hcm
      rw [b3 hnd]
      exact a2.trans (h' m v hv hlv hmv)

theorem spells_zeros {alt : List Int} (h : Spells [[0], [0, 0]] alt [0, 0]) (hn : (1 : Int) ∉ alt) : alt = [0, 0] := by
  obtain ⟨ws, a, b⟩ := h
  have hw : ∀ i w, IsWord [[0], [0, 0]] i w → i = 1 ∨ (i = 0 ∧ w = [0]) := by
    rintro i w ⟨h0, h1⟩
    obtain ⟨n, rfl⟩ : ∃ n : Nat, i = (n : Int) := ⟨i.toNat, by omega⟩
    rw [Int.toNat_natCast] at h1
    match n with
    | 0 => right; simpa [eq_comm] using h1
    | 1 => left; rfl
    | n + 2 => simp at h1
  have key : ∀ (alt : List Int) (ws : List IntSeq), List.Forall₂ (IsWord [[0], [0, 0]]) alt ws → (1 : Int) ∉ alt →
      alt = List.replicate alt.length 0 ∧ ws.flatten.length = alt.length := by
    intro alt ws h
    induction h with
    | nil => intro _; simp
    | cons h1 h2 ih =>
      intro hn
      rw [List.mem_cons, not_or] at hn
      rcases hw _ _ h1 with e | ⟨rfl, rfl⟩
      · exact absurd e.symm hn.1
      · obtain ⟨i1, i2⟩ := ih hn.2
        refine ⟨by rw [List.length_cons, List.replicate_succ, ← i1], by simp [i2]⟩
  obtain ⟨k1, k2⟩ := key alt ws a hn
  rw [b] at k2
  rw [k1, ← k2]
  rfl

/-- A kept word can make the code longer: `0 0` emitted three times and `0` once.  The score compares both halves of the
replacement with the old count of `0`. -/
theorem C67_kept_gain_false : ¬ ∀ (srt : List (StatItem (Ext ℝ)) → List (StatItem (Ext ℝ))) (ord : PairMap → PairMap)
    (gam : List (Ext ℝ) → Nat → ℝ), RealLaws srt ord gam → ∀ (s0 s : StatDict (Ext ℝ)) (seqs cur : List IntSeq) (slots : Int)
    (outs : List (List Int)) (words : List IntSeq) (freqs : List Int) (mp : Ext ℝ), FreshClosed s0 → FitsAll s0.dict.seqs seqs cur →
    parseAll realOps s0 seqs = .ok (s, outs) → s.reduce (exactEnv srt ord gam) slots = .ok (words, freqs, mp) →
    ∀ (n : Nat) (w : IntSeq), cur[n]? = some w → 1 < w.length → w ∈ words →
      ∃ alt, Spells cur alt w ∧ (n : Int) ∉ alt ∧ 0 ≤ gain cur.length (counts outs) n alt := by
  intro hall
  have e : StatDict.ofSeqs [[0], [0, 0]] (Ext.fin (0 : ℝ)) none =
      .ok ⟨⟨[[0], [0, 0]], [-1, 0]⟩, [0, 0], [0, 0], 0, 0, [], .fin 0, 0⟩ := by
    have : IntDict.init [[0], [0, 0]] = .ok ⟨[[0], [0, 0]], [-1, 0]⟩ := by decide +kernel
    simp [StatDict.ofSeqs, this, IntDict.size]
  have hfresh : FreshClosed (⟨⟨[[0], [0, 0]], [-1, 0]⟩, [0, 0], [0, 0], 0, 0, [], .fin 0, 0⟩ : StatDict (Ext ℝ)) :=
    Or.inr ⟨[[0], [0, 0]], _, none, by decide, by simp, by unfold Closed Knows; decide, by simp, e⟩
  have hfit : FitsAll [[0], [0, 0]] [[0, 0, 0, 0, 0, 0, 0]] [[0], [0, 0]] :=
    .cons (.known (by decide) (.known (by decide) (.known (by decide) (.known (by decide) (.known (by decide) (.known (by decide)
      (.known (by decide) .nil))))))) .nil
  obtain ⟨s, outs, words, freqs, mp, alt, score, h1, h2, h3, h4, _⟩ := reduce_real realLaws_example _ hfresh
    [[0, 0, 0, 0, 0, 0, 0]] [[0], [0, 0]] hfit 5
  -- the text is split into four words
  obtain ⟨s', ids, g1, _, g3, g4⟩ := C65_training_parse_real [] _
    (Or.inr ⟨[[0], [0, 0]], _, none, by simp, by simp, rfl, e⟩) [] _ [] rfl (by decide) [0, 0, 0, 0, 0, 0, 0] (by unfold Knows; decide) [] (by simp)
  have houts : outs = [ids] ∧ s = s' := by
    simp only [parseAll, g1, ok_bind, pure_M] at h1
    cases h1
    exact ⟨rfl, rfl⟩
  obtain ⟨rfl, rfl⟩ := houts
  have hlen : ids.length ≤ 4 := by
    have := g4 [1, 1, 1, 0] ⟨[[0, 0], [0, 0], [0, 0], [0]], by repeat' constructor, rfl⟩
    have hp : ∀ is : List Int, parseProb [] (([] : List Int).sum + ([] : List (List Int)).flatten.length) 2 is = (1 / 2) ^ is.length := by
      intro is
      unfold parseProb
      have : idProb [] (([] : List Int).sum + ([] : List (List Int)).flatten.length) 2 = fun _ => (1 / 2 : ℝ) := by
        funext i
        simp [idProb]
      rw [this, List.map_const', List.prod_replicate]
    have hs2 : ∀ is : List Int, parseProb [] (([] : List Int).sum + ([] : List (List Int)).flatten.length)
        (⟨⟨[[0], [0, 0]], [-1, 0]⟩, [0, 0], [0, 0], 0, 0, [], .fin 0, 0⟩ : StatDict (Ext ℝ)).dict.seqs.length is = (1 / 2) ^ is.length := hp
    rw [hs2, hs2] at this
    by_contra hc
    have hlt : ((1 : ℝ) / 2) ^ ids.length < (1 / 2) ^ 4 := pow_lt_pow_right_of_lt_one₀ (by norm_num) (by norm_num) (by omega)
    simp only [List.length_cons, List.length_nil] at this
    linarith
  obtain ⟨_, _, e2, _, hcnt, hpow, hpsum, htc, hchars⟩ := C13_freq_accounting realOps (Ext.scoreLaws Real.log) _ hfresh.stat [[0, 0, 0, 0, 0, 0, 0]]
  rw [h1] at e2
  cases e2
  have hsz : s.size = 2 := by show s.dict.seqs.length = 2; rw [h2]; rfl
  rw [hsz] at hpsum hchars
  simp only [Finset.sum_range_succ, Finset.sum_range_zero, h2] at hpsum hchars
  have hc0 := hcnt 0
  have hc1 := hcnt 1
  simp only [List.getElem?_cons_zero, List.getElem?_cons_succ, Option.getD_some, List.length_cons, List.length_nil] at hchars
  have htc' : s.totalChars = 7 := htc
  have hflat : ([ids] : List (List Int)).flatten.length = ids.length := by simp
  have f1 : counts [ids] 1 = 3 := by unfold counts; omega
  have f0 : counts [ids] 0 = 1 := by unfold counts; omega
  obtain ⟨⟨b1, b2, _⟩, _, b3, _, b5⟩ := h4 1 [0, 0] rfl (by decide) (by omega)
  have halt := spells_zeros b1 b2
  have htok : tokens 2 (counts [ids]) = 4 := by simp [tokens, Finset.sum_range_succ, f0, f1]
  have hlog4 : Real.log 4 = 2 * Real.log 2 := by
    rw [show (4 : ℝ) = 2 ^ 2 by norm_num, Real.log_pow]; norm_num
  have hscore : 0 < score 1 := by
    rw [b3, halt]
    have ha : altSum (counts [ids]) (counts [ids] 1) [0, 0] = 2 * (xlog 4 - xlog 1) := by
      simp only [altSum, List.map_cons, List.map_nil, List.sum_cons, List.sum_nil, show Int.toNat 0 = 0 from rfl, f0, f1]
      norm_num
      ring
    have hl : ([[0], [0, 0]] : List IntSeq).length = 2 := rfl
    rw [ha, hl, htok, f1]
    have hkey : 0 < Real.log (3 ^ 3 * 7 ^ 7 / 4 ^ 12) := Real.log_pos (by norm_num)
    rw [Real.log_div (by norm_num) (by norm_num), Real.log_mul (by norm_num) (by norm_num), Real.log_pow, Real.log_pow, Real.log_pow] at hkey
    simp only [xlog, List.length_cons, List.length_nil]
    norm_num at hkey ⊢
    linarith
  have hkept : [0, 0] ∈ words := by
    by_contra hm
    rcases b5 hm with h | ⟨h, _⟩
    · linarith
    · obtain ⟨_, _, words', _, _, q1, _, q3, q4, q5, _⟩ := C17_reduce _ realLaws_example.env (Ext.scoreLaws Real.log) _ hfresh
        [[0, 0, 0, 0, 0, 0, 0]] [[0], [0, 0]] hfit 5
      have q1' : parseAll realOps _ _ = _ := q1
      rw [h1] at q1'
      cases q1'
      rw [h3] at q3
      cases q3
      have hle := (List.subperm_of_subset q4 q5).length_le
      have : singles [[0], [0, 0]] = 1 := rfl
      simp only [List.length_cons, List.length_nil] at hle
      omega
  obtain ⟨alt', c1, c2, c3⟩ := hall _ _ _ realLaws_example _ s [[0, 0, 0, 0, 0, 0, 0]] [[0], [0, 0]] 5 [ids] words freqs mp hfresh hfit h1 h3 1 [0, 0] rfl (by decide) hkept
  have := spells_zeros c1 c2
  subst this
  have hg : gain 2 (counts [ids]) 1 [0, 0] = 3 * Real.log 3 - 4 * Real.log 4 := by
    have hr0 : replaced (counts [ids]) 1 [0, 0] 0 = 7 := by simp [replaced, f0, f1]
    have hr1 : replaced (counts [ids]) 1 [0, 0] 1 = 0 := by simp [replaced]
    have ht : tokens 2 (replaced (counts [ids]) 1 [0, 0]) = 7 := by simp [tokens, Finset.sum_range_succ, hr0, hr1]
    unfold gain codeLen
    rw [ht, htok]
    simp only [Finset.sum_range_succ, Finset.sum_range_zero, hr0, hr1, f0, f1, xlog]
    norm_num
  have hneg : Real.log (3 ^ 3 / 4 ^ 4) < 0 := Real.log_neg (by norm_num) (by norm_num)
  rw [Real.log_div (by norm_num) (by norm_num), Real.log_pow, Real.log_pow] at hneg
  have c3' : 0 ≤ gain 2 (counts [ids]) 1 [0, 0] := c3
  rw [hg] at c3'
  norm_num at hneg
  linarith

/-- The hypotheses of `C67_reduce_gain_partial` are met by the same text. -/
example : FitsAll [[0], [0, 0]] [[0, 0, 1, 0, 0]] [[0], [0, 0], [1]] :=
  .cons (.known (by decide) (.known (by decide) (.fresh (by decide) (.known (by decide) (.known (by decide) .nil))))) .nil

/-! ## C68 -/

theorem pairScore_real (L : RealLaws srt ord gam) (f ab ay xb xy : Int) :
    StatDict.pairScore (exactEnv srt ord gam) f ab ay xb xy =
      .ok (.fin (pairValue f (gam [.fin ((ab + 1 : Int) : ℝ), .fin ((ay + 1 : Int) : ℝ), .fin ((xb + 1 : Int) : ℝ), .fin ((xy + 1 : Int) : ℝ)]))) := by
  unfold StatDict.pairScore
  simp only [exactEnv, Ext.ops, StatDict.nextDirichlet]
  have hg := L.gamma [.fin ((ab + 1 : Int) : ℝ), .fin ((ay + 1 : Int) : ℝ), .fin ((xb + 1 : Int) : ℝ), .fin ((xy + 1 : Int) : ℝ)]
  generalize gam [.fin ((ab + 1 : Int) : ℝ), .fin ((ay + 1 : Int) : ℝ), .fin ((xb + 1 : Int) : ℝ), .fin ((xy + 1 : Int) : ℝ)] = g at hg ⊢
  have h0 := hg 0
  have h1 := hg 1
  have h2 := hg 2
  have h3 := hg 3
  have ht : 0 < g 0 + g 1 + g 2 + g 3 := by positivity
  have hr : List.range 4 = [0, 1, 2, 3] := rfl
  have hr' : List.range 10 = [0, 1, 2, 3, 4, 5, 6, 7, 8, 9] := rfl
  have hi : ∀ x : ℝ, x * (1 / (g 0 + g 1 + g 2 + g 3)) = x / (g 0 + g 1 + g 2 + g 3) := fun x => by ring
  simp only [List.length_cons, List.length_nil, Nat.reduceAdd, hr, hr', List.map_cons, List.map_nil, List.foldl_cons, List.foldl_nil,
    Ext.add, Ext.div, Ext.mul, rd, Int.cast_zero, Int.cast_one, zero_add, if_neg ht.ne', hi]
  have e0 : 0 < g 0 / (g 0 + g 1 + g 2 + g 3) := by positivity
  have e1 : 0 < g 1 / (g 0 + g 1 + g 2 + g 3) := by positivity
  have e2 : 0 < g 2 / (g 0 + g 1 + g 2 + g 3) := by positivity
  generalize hp0 : g 0 / (g 0 + g 1 + g 2 + g 3) = p0 at e0
  generalize hp1 : g 1 / (g 0 + g 1 + g 2 + g 3) = p1 at e1
  generalize hp2 : g 2 / (g 0 + g 1 + g 2 + g 3) = p2 at e2
  have e3 : 0 < p0 / (p1 + p0) / (p2 + p0) := by positivity
  simp only [pairValue, hp0, hp1, hp2]
  simp [ok_bind, pure_M, Ext.log, (by positivity : p1 + p0 ≠ 0), (by positivity : p2 + p0 ≠ 0), e3]
  ring

/-- C68: the candidates of an expansion are the texts of adjacent pairs that are not words yet; each is judged by one pair
that makes it up.  A candidate is taken only if its worth is not negative, and left out only if its worth is negative or all
places are used up by words that are worth at least as much. -/
theorem C68_expand_selection (L : RealLaws srt ord gam) (s0 : StatDict (Ext ℝ)) (h0 : FreshStat s0) (seqs : List IntSeq) (slots : Int)
    (s : StatDict (Ext ℝ)) (outs : List (List Int)) (h : parseAll realOps s0 seqs = .ok (s, outs)) (hs : s.dict.seqs.Pairwise (· < ·)) :
    ∃ (words : List IntSeq) (freqs : List Int) (mp : Ext ℝ) (rep : IntSeq → Int × Int),
      s.expand (exactEnv srt ord gam) slots = .ok (words, freqs, mp) ∧
      (∀ w ∈ words, w ∈ s.dict.seqs ∨ ∃ k, MakesUp s.dict.seqs outs k w) ∧
      ∀ w, w ∉ s.dict.seqs → (∃ k, MakesUp s.dict.seqs outs k w) →
        MakesUp s.dict.seqs outs (rep w) w ∧
        (w ∈ words → 0 ≤ pairWorth gam outs (rep w)) ∧
        (w ∉ words → pairWorth gam outs (rep w) < 0 ∨ (words.length = (slots + s.dict.seqs.length).toNat ∧
          ∀ v ∈ words, v ∉ s.dict.seqs → pairWorth gam outs (rep w) ≤ pairWorth gam outs (rep v))) := by
  have hx := reached_exp (Ext.scoreLaws Real.log) h0 h hs
  obtain ⟨taken, rest, e1, e2, e3, e4, e5, e6, e7, _, e9⟩ := expand_shape L.env hx slots
  have hpc := pairs_count (Ext.scoreLaws Real.log) h0 h
  have hsum : ∀ c, pairSum c s.pairs = (pairsOf outs).countP c := fun c => pairSum_count hx.pnodup c _ hpc
  -- a new item
  have hitem : ∀ it ∈ taken ++ rest, txt s it ∉ s.dict.seqs →
      MakesUp s.dict.seqs outs (it.first, it.second) (txt s it) ∧ it.score = .fin (pairWorth gam outs (it.first, it.second)) := by
    intro it hit hn
    obtain ⟨⟨i1, i2, i3⟩, i4⟩ := e7 it hit
    rcases i4 with ⟨n, hlt, rfl⟩ | ⟨g1, _, g3, _, g5⟩
    · refine absurd ?_ hn
      have : txt s (knownItem (exactEnv srt ord gam).ops s n) = s.dict.seqs[n] := by simp [txt, knownItem, wordAt, List.getElem?_eq_getElem hlt]
      rw [this]
      simp
    · have hcount : it.count = (followed outs it.first it.second : Int) := by
        have : pairGet s.pairs (it.first, it.second) = it.count := pairGet_of_mem hx.pnodup g3
        rw [← this, hpc]
        rfl
      have hpos := hx.ppos _ g3
      dsimp only at hpos
      refine ⟨⟨?_, _, _, isWord_wordAt g1 (i1 g1), isWord_wordAt i2 i3, by simp [txt, g1]⟩, ?_⟩
      · rw [hcount] at hpos
        exact List.count_pos_iff.1 (by exact_mod_cast hpos)
      · rw [pairScore_real L] at g5
        have g5' := (Except.ok.inj g5).symm
        rw [g5', pairWorth, contingency]
        have hxy : ((pairsOf outs).countP (fun _ => true) : Int) - ((pairsOf outs).countP (fun k => k.1 == it.first) - followed outs it.first it.second) -
            ((pairsOf outs).countP (fun k => k.2 == it.second) - followed outs it.first it.second) - followed outs it.first it.second =
            (pairsOf outs).length - (pairsOf outs).countP (fun k => k.1 == it.first) - (pairsOf outs).countP (fun k => k.2 == it.second) +
              followed outs it.first it.second := by
          rw [List.countP_true]
          ring
        simp only [List.map_cons, List.map_nil, hsum, hcount, leading, trailing, hxy, Int.cast_natCast]
  -- the pair a text is judged by
  let rep : IntSeq → Int × Int := fun w => match (taken ++ rest).find? (fun it => txt s it == w) with
    | some it => (it.first, it.second)
    | none => (0, 0)
  have hrep : ∀ it ∈ taken ++ rest, rep (txt s it) = (it.first, it.second) := by
    intro it hit
    have : (taken ++ rest).find? (fun it' => txt s it' == txt s it) = some it := by
      clear_value rep
      clear e2 e4 e5 e6 e7 e9 hitem rep e1
      generalize taken ++ rest = l at hit e3
      induction l with
      | nil => simp at hit
      | cons x l ih =>
        rw [List.map_cons, List.nodup_cons] at e3
        rcases List.mem_cons.1 hit with rfl | hit
        · simp
        · have hne : txt s x ≠ txt s it := fun e => e3.1 (e ▸ List.mem_map_of_mem hit)
          rw [List.find?_cons_of_neg (by simpa using hne)]
          exact ih hit e3.2
    show (match (taken ++ rest).find? (fun it' => txt s it' == txt s it) with
      | some it => (it.first, it.second)
      | none => (0, 0)) = _
    rw [this]
  have hword : ∀ i u, IsWord s.dict.seqs i u → u = wordAt s i := by
    rintro i u ⟨_, h2⟩
    simp [wordAt, h2]
  refine ⟨_, _, _, rep, e1, ?_, ?_⟩
  · intro w hw
    obtain ⟨it, hit, rfl⟩ := List.mem_map.1 hw
    by_cases hm : txt s it ∈ s.dict.seqs
    · exact Or.inl hm
    · exact Or.inr ⟨_, (hitem it (List.mem_append_left _ hit) hm).1⟩
  · rintro w hw ⟨k, hk, u, v, hu, hv, rfl⟩
    have hmem : u ++ v ∈ (taken ++ rest).map (txt s) := by
      rw [hword _ _ hu, hword _ _ hv]
      have hkp : pairGet s.pairs k ≠ 0 := by
        rw [hpc]
        have := List.count_pos_iff.2 hk
        omega
      exact e9 _ (pairGet_pos_mem hkp)
    obtain ⟨it, hit, he⟩ := List.mem_map.1 hmem
    rw [← he] at hw ⊢
    obtain ⟨i1, i2⟩ := hitem it hit hw
    rw [hrep it hit]
    have hle : ∀ a b : StatItem (Ext ℝ), ∀ x y : ℝ, a.score = .fin x → b.score = .fin y →
        (exactEnv srt ord gam).ops.lt ((exactEnv srt ord gam).ops.neg b.score) ((exactEnv srt ord gam).ops.neg a.score) = false → y ≤ x := by
      intro a b x y ha hb hab
      rw [ha, hb] at hab
      simpa [exactEnv, Ext.ops, Ext.neg, Ext.lt] using hab
    refine ⟨i1, fun hin => ?_, fun hout => ?_⟩
    · obtain ⟨it', hit', he'⟩ := List.mem_map.1 hin
      have : it' = it := List.inj_on_of_nodup_map e3 (List.mem_append_left _ hit') hit he'
      subst this
      have := e5 it' hit'
      rw [i2] at this
      simpa [exactEnv, Ext.ops, Ext.lt] using this
    · have hrest : it ∈ rest := by
        rcases List.mem_append.1 hit with h' | h'
        · exact absurd (List.mem_map_of_mem h') hout
        · exact h'
      rcases e6 with h' | h' | ⟨hd, tl, h', hneg⟩
      · simp [h'] at hrest
      · refine Or.inr ⟨by rw [List.length_map]; omega, fun v hv hvn => ?_⟩
        obtain ⟨jt, hjt, rfl⟩ := List.mem_map.1 hv
        have hj' := List.mem_append_left rest hjt
        rw [hrep jt hj']
        exact hle jt it _ _ (hitem jt hj' hvn).2 i2 ((List.pairwise_append.1 e2).2.2 jt hjt it hrest)
      · left
        obtain ⟨x, hx'⟩ : ∃ x : ℝ, hd.score = .fin x := by
          rcases (e7 hd (List.mem_append_right _ (by simp [h']))).2 with ⟨n, _, rfl⟩ | ⟨_, g2, _⟩
          · simp [knownItem, exactEnv, Ext.ops, Ext.lt] at hneg
          · exact g2
        have hx0 : x < 0 := by
          rw [hx'] at hneg
          simpa [exactEnv, Ext.ops, Ext.lt] using hneg
        rw [h'] at hrest
        rcases List.mem_cons.1 hrest with rfl | htl
        · rw [i2] at hx'
          rw [Ext.fin.inj hx']
          exact hx0
        · have := (List.pairwise_append.1 e2).2.1
          rw [h', List.pairwise_cons] at this
          exact lt_of_le_of_lt (hle hd it _ _ hx' i2 (this.1 it htl)) hx0

/-- The ids 0, 1 and 0, 1 again: the pair 0 1 has the table 2, 0, 0, 1, and its text is not a word. -/
example : contingency [[0, 1, 0, 1]] 0 1 = [2, 0, 0, 1] ∧ MakesUp [[0], [1]] [[0, 1, 0, 1]] (0, 1) [0, 1] :=
  ⟨by decide, by decide, [0], [1], by unfold IsWord; decide, by unfold IsWord; decide, rfl⟩

end VGram.Props
