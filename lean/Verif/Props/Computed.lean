import Verif.Spec.Schedule
import Verif.Props.Reproduce
import Verif.Props.Ieee

/-!
# Code lengths, kept words and the marker of an unknown probability, as they are computed (C19, C67, C26)

Counterparts of the theorems about real numbers for any arithmetic and for IEEE doubles.
-/

namespace VGram.Props

open VGram Spec

variable {F : Type}

/-! ## C19 -/

/-- C19, in any arithmetic: the code length per character is the one computed from how often each id was emitted, the number of ids and the number of symbols read; words
that were not emitted are left out. -/
theorem C19_as_computed (O : FloatOps F) (SL : ScoreLaws O) (s0 : StatDict F) (h0 : FreshStat s0) (seqs : List IntSeq) (s : StatDict F) (outs : List (List Int))
    (h : parseAll O s0 seqs = .ok (s, outs)) : s.codeLengthPerChar O = lengthIn O s.dict.seqs.length outs.flatten seqs.flatten := by
  obtain ⟨s', outs', h1, hsp, hfreq, hpow, hpsum, htc, hchars⟩ := C13_freq_accounting O SL s0 h0 seqs
  rw [h] at h1
  cases h1
  have key : ∀ (l : List Nat) (x : F), l.foldl (fun sum (i : Nat) => let f := s.freq (i : Int); if 0 < f then O.sub sum (StatDict.xlogx O f) else sum) x =
      ((l.map fun (i : Nat) => outs.flatten.count (i : Int)).filter fun n => decide (0 < n)).foldl (fun sum n => O.sub sum (natsOf O n)) x := by
    intro l
    induction l with
    | nil => intro x; rfl
    | cons i l ih =>
      intro x
      rw [List.foldl_cons, ih, List.map_cons, List.filter_cons]
      dsimp only
      rw [hfreq]
      by_cases hc : 0 < outs.flatten.count (i : Int)
      · have : (0 : Int) < (outs.flatten.count (i : Int) : Int) := by omega
        simp only [hc, decide_true, if_true, List.foldl_cons, this]
        rfl
      · have : ¬ (0 : Int) < (outs.flatten.count (i : Int) : Int) := by omega
        simp only [hc, decide_false, Bool.false_eq_true, if_false, this]
  unfold StatDict.codeLengthPerChar StatDict.codeLengthSum lengthIn
  rw [key, hpow, htc]
  rfl

/-- Three words, one of them not emitted; the logarithm of the example arithmetic is `(x - 1) / 10000`. -/
example : ∃ s : StatDict (Ext Rat), parseAll quickEnv.ops (StatDict.new (.fin (1 / 2))) [[0, 1, 0], [0]] = .ok (s, [[0, 1, 0], [0]]) ∧
    s.codeLengthPerChar quickEnv.ops = .fin (3 / 20000) ∧ lengthIn quickEnv.ops 2 [0, 1, 0, 0] [0, 1, 0, 0] = .fin (3 / 20000) := by
  refine ⟨_, rfl, ?_, ?_⟩ <;> decide +kernel

/-! ## C67 -/

theorem reduceLoop_words {O : FloatOps F} {s : StatDict F} {power : Int} : ∀ (items : List (StatItem F)) (mp : F) (ws : List IntSeq) (fs : List Int) (m : F),
    s.reduceLoop O power items mp = .ok (ws, fs, m) → ∀ w ∈ ws, ∃ it ∈ items, s.dict.get it.second = .ok w := by
  intro items
  induction items with
  | nil => intro mp ws fs m h; cases h; simp
  | cons it items ih =>
    intro mp ws fs m h w hw
    simp only [StatDict.reduceLoop] at h
    obtain ⟨par, _, h⟩ := bind_ok.1 h
    obtain ⟨v, hv, h⟩ := bind_ok.1 h
    obtain ⟨⟨ws', fs', m'⟩, hr, h⟩ := bind_ok.1 h
    cases h
    rcases List.mem_cons.1 hw with rfl | hw
    · exact ⟨it, by simp, hv⟩
    · obtain ⟨it', h1, h2⟩ := ih _ _ _ _ hr w hw
      exact ⟨it', by simp [h1], h2⟩

/-- C67, in any arithmetic: a word of several symbols is kept by a reduction only if it was emitted and the score of the word, as it is computed, is positive. -/
theorem C67_kept_score (E : Env F) (L : EnvLaws E) (SL : ScoreLaws E.ops) (s0 : StatDict F) (h0 : FreshClosed s0) (seqs : List IntSeq) (cur : List IntSeq)
    (hfit : FitsAll s0.dict.seqs seqs cur) (s : StatDict F) (outs : List (List Int)) (h : parseAll E.ops s0 seqs = .ok (s, outs)) (slots : Int)
    (words : List IntSeq) (freqs : List Int) (mp : F) (hr : s.reduce E slots = .ok (words, freqs, mp)) (n : Nat) (w : IntSeq) (hw : cur[n]? = some w)
    (hl : 1 < w.length) (hk : w ∈ words) : 0 < outs.flatten.count (n : Int) ∧ ∃ x, scoreOfWord E.ops s n = .ok x ∧ E.ops.lt (E.ops.ofInt 0) x = true := by
  obtain ⟨hh, hp⟩ := h0.spec
  obtain ⟨s', outs', p1, p2, p3, _, _⟩ := healthy_parseAll SL seqs s0 cur hh hfit
  rw [h] at p1
  cases p1
  subst p3
  have hf : s.freq (n : Int) = (outs.flatten.count (n : Int) : Int) := by
    obtain ⟨s', outs', q1, _, q2, _⟩ := C13_freq_accounting E.ops SL s0 (by
      rcases h0 with h0 | ⟨ws, mp, fr, _, k2, _, k4, k5⟩
      · exact Or.inl h0
      · exact Or.inr ⟨ws, mp, fr, k2, k4, k5⟩) seqs
    rw [h] at q1
    cases q1
    exact q2 n
  obtain ⟨ex, u1, u2⟩ := p2.unused
  have hex : ∀ (k : Nat) (x : Int), s.dict.seqs[k]? = some [x] → (k : Int) ∉ ex := by
    intro k x hk hmem
    have := ((u2 k _ hk).1 hmem).1
    simp at this
  obtain ⟨raw, i1, i2, _, _⟩ := statItemsLoop_spec L SL p2 (ex := ex)
    (cl := E.ops.mul (s.codeLengthPerChar E.ops) (E.ops.ofInt s.totalChars)) (fun h1 h2 => codeLength_num L h1 h2)
    hex (fun k w hk hl hf => (u2 k w hk).2 ⟨hl, hf⟩) (List.range s.symbolFreqs.length) (by intro i hi; rw [← p2.full]; simpa using hi) List.nodup_range
  have sp := (L.sort raw (by
    intro a ha
    obtain ⟨n, w, _, _, r⟩ := i2 a ha
    by_cases hw : w.length = 1
    · exact Or.inl (r.single hw)
    · exact Or.inr (r.multi hw).1)).1
  unfold StatDict.reduce at hr
  obtain ⟨items, hi, hr⟩ := bind_ok.1 hr
  obtain ⟨it, hit, hg⟩ := reduceLoop_words _ _ _ _ _ hr w hk
  have hin : it ∈ raw := by
    unfold StatDict.filterStatItems at hi
    obtain ⟨roots, _, hi⟩ := bind_ok.1 hi
    rw [u1, ok_bind] at hi
    simp only [StatDict.statItems, i1, ok_bind, pure_M, Except.ok.injEq] at hi
    rw [← hi] at hit
    split at hit
    · exact sp.mem_iff.1 hit
    · exact sp.mem_iff.1 (List.mem_of_mem_take hit)
  obtain ⟨m, v, _, _, r⟩ := i2 it hin
  have hv : v = w := by
    rw [r.second, IntDict.get] at hg
    have := rd_nat_ok.1 hg
    rw [r.word] at this
    cases this
    rfl
  subst hv
  have := index_unique p2.sorted.nodup r.word hw
  subst this
  obtain ⟨_, r2, r3⟩ := r.multi (by omega)
  obtain ⟨k, a1, _, _, a4⟩ := statItemsLoop_score _ _ i1 it hin
  have hkm : k = m := by
    have := r.second
    omega
  subst hkm
  have hgk : s.dict.get (k : Int) = .ok v := by rw [← a1]; exact hg
  have a5 := a4 _ hgk
  rw [if_pos hl] at a5
  obtain ⟨alt, wa, ea⟩ := a5
  refine ⟨by have := r.count; omega, it.score, ?_, r2⟩
  simp only [scoreOfWord, u1, ok_bind, hgk, wa, pure_M, ea]

/-- `0 1` is emitted twice and its score is positive, so it is kept; `1 1` is not emitted and dropped. -/
example : ∃ s0 s : StatDict (Ext Rat), StatDict.ofSeqs [[0], [0, 1], [1], [1, 1]] (Ext.fin (1 / 2)) none = .ok s0 ∧
    parseAll quickEnv.ops s0 [[0, 1, 0, 0, 1, 0]] = .ok (s, [[1, 0, 1, 0]]) ∧ s.reduce quickEnv 5 = .ok ([[0], [1], [0, 1]], [2, 0, 2], .fin (1 / 4)) ∧
    (∃ x : Rat, scoreOfWord quickEnv.ops s 1 = .ok (.fin x) ∧ 0 < x) ∧
    ∀ (slots : Int) words freqs mp, s.reduce quickEnv slots = .ok (words, freqs, mp) → [1, 1] ∉ words := by
  have h0 : StatDict.ofSeqs [[0], [0, 1], [1], [1, 1]] (Ext.fin (1 / 2 : Rat)) none =
      .ok ⟨⟨[[0], [0, 1], [1], [1, 1]], [-1, 0, -1, 2]⟩, [0, 0, 0, 0], [0, 0, 0, 0], 0, 0, [], .fin (1 / 2), 0⟩ := by decide +kernel
  have h : parseAll quickEnv.ops ⟨⟨[[0], [0, 1], [1], [1, 1]], [-1, 0, -1, 2]⟩, [0, 0, 0, 0], [0, 0, 0, 0], 0, 0, [], .fin (1 / 2), 0⟩ [[0, 1, 0, 0, 1, 0]] =
      .ok (⟨⟨[[0], [0, 1], [1], [1, 1]], [-1, 0, -1, 2]⟩, [2, 2, 0, 0], [2, 2, 0, 0], 4, 0, [((1, 0), 2), ((0, 1), 1)], .fin (1 / 2), 6⟩, [[1, 0, 1, 0]]) := by
    decide +kernel
  refine ⟨_, _, h0, h, by decide +kernel, ⟨_, rfl, by decide +kernel⟩, fun slots words freqs mp hr hm => ?_⟩
  have := (C67_kept_score quickEnv (Ext.envLaws _) (Ext.scoreLaws _) _
    (Or.inr ⟨[[0], [0, 1], [1], [1, 1]], _, none, by decide, by simp, by unfold Closed Knows; decide, by simp, h0⟩) _ [[0], [0, 1], [1], [1, 1]]
    (.cons (.known (by decide) (.known (by decide) (.known (by decide) (.known (by decide) (.known (by decide) (.known (by decide) .nil)))))) .nil) _ _ h slots words
    freqs mp hr 3 [1, 1] rfl (by decide) hm).1
  revert this
  decide

/-! ## C26 -/

variable {log : Double → Double} {srt : List (StatItem Double) → List (StatItem Double)} {ord : PairMap → PairMap} {gam : List Double → Nat → Double}

/-- Negative, possibly infinite. -/
def Below (d : Double) : Prop := Double.val d = .bot ∨ ∃ q : ℚ, Double.val d = .fin q ∧ q < 0

theorem Below.down {d e : Double} (h : Below d) (he : Double.val e ≠ .nan) (hle : Ext.lt (Double.val d) (Double.val e) = false) : Below e := by
  unfold Below at *
  rcases h with h | ⟨q, h, hq⟩ <;> rw [h] at hle <;> cases hv : Double.val e with
  | nan => exact absurd hv he
  | bot => exact Or.inl rfl
  | top => rw [hv] at hle; simp [Ext.lt] at hle
  | fin y =>
    rw [hv] at hle
    simp only [Ext.lt, decide_eq_false_iff_not, not_lt, Bool.true_eq_false] at hle
    all_goals exact Or.inr ⟨y, rfl, by linarith⟩

/-- With a negative minimal probability one emitted id is enough. -/
theorem enough_below (hneg : ∀ (d : Double) (x : ℚ), Double.val d = .fin x → 0 < x → x ≤ 1 → ∃ y : ℚ, Double.val (log d) = .fin y ∧ y ≤ 0)
    {s : StatDict Double} {p : Double} (hp : Alive p) (hq : Below s.minProb) (hn : 1 ≤ s.power) : s.enough (Double.ops log) p = true := by
  obtain ⟨x, hx, h1, h2⟩ := hp
  obtain ⟨y, hy, hy0⟩ := hneg p x hx (lt_of_lt_of_le (by positivity) h1) h2
  have hopp : Double.val (Double.opposite (log p)) = .fin (-y) := by rw [val_opposite, hy]; rfl
  obtain ⟨n, en, n1, _⟩ := int_range log hn
  show Ext.lt (Double.val (Double.div (Double.opposite (log p)) s.minProb)) (Double.val ((Double.ops log).ofInt s.power)) = true
  rw [en]
  rcases hq with hq | ⟨q, hq, hq0⟩
  · have : Double.val (Double.div (Double.opposite (log p)) s.minProb) = .fin 0 := by
      unfold Double.div
      rw [hopp, hq]
      show Double.val ⟨_ ^^ _, 0⟩ = _
      generalize (_ ^^ _ : Bool) = z
      cases z <;> decide +kernel
    rw [this]
    simp only [Ext.lt, decide_eq_true_eq]
    linarith
  · rw [div_val hopp hq hq0.ne]
    have hle : -y / q ≤ 0 := div_nonpos_of_nonneg_of_nonpos (by linarith) hq0.le
    rcases val_rounded_cases ((Double.opposite (log p)).neg ^^ s.minProb.neg) (-y / q) with ⟨_, e⟩ | ⟨e, _⟩ | ⟨e, _⟩
    · linarith [overflow_pos]
    · rw [e]
      rfl
    · rw [e]
      have : rnd (-y / q) ≤ 0 := by
        have := rnd_mono hle
        rwa [show rnd 0 = 0 from by decide +kernel] at this
      simp only [Ext.lt, decide_eq_true_eq]
      linarith

/-- All minimal probabilities are negative. -/
structure MarkedD (hl : LogLaw log) (b : Builder Double) : Prop where
  bq : BQ (doubleProbLaws hl) b
  below : ∀ s ∈ b.stats, Below s.minProb

theorem update_markedD (hl : LogLaw log) (hsort : ∀ l, (srt l).Perm l) (hord : ∀ p, (ord p).Perm p) {b b' : Builder Double} (hb : MarkedD hl b)
    (h : b.update (Double.env log srt ord gam) = .ok b') : MarkedD hl b' := by
  obtain ⟨bq', mle⟩ := update_minle (E := Double.env log srt ord gam) (doubleProbLaws hl) hsort hord hb.bq h
  refine ⟨bq', ?_⟩
  rcases update_cases h with ⟨rfl, s, hs, hr⟩ | ⟨s, s', words, freqs, mp, _, u⟩
  · exact hb.below
  · intro t ht
    rw [u.stats] at ht
    rcases List.mem_append.1 ht with ht | ht
    · exact hb.below t ht
    · rw [List.mem_singleton] at ht
      subst ht
      have hcur : b'.stats[b'.current]? = some t := by rw [u.stats, u.current]; simp
      exact (hb.below s (List.mem_of_getElem? u.cur)).down (bq'.heap t (List.mem_of_getElem? hcur)).ok (mle s t u.cur hcur)

theorem parse_markedD (hl : LogLaw log) {b : Builder Double} (hb : MarkedD hl b) {s s' : StatDict Double} (hs : b.cur = .ok s) {seq : IntSeq} {r : List Int × Int}
    (hp : s.parse (Double.ops log) seq [] = .ok (s', r)) : MarkedD hl { b with stats := b.stats.set b.current s' } := by
  have hs' : b.stats[b.current]? = some s := rd_nat_ok.1 hs
  obtain ⟨q1, q2⟩ := parse_qinv (P := doubleProbLaws hl) (hb.bq.heap s (List.mem_of_getElem? hs')) hp
  refine ⟨⟨?_, ?_, ?_⟩, ?_⟩
  · intro t ht
    rcases List.mem_or_eq_of_mem_set ht with ht | rfl
    · exact hb.bq.heap t ht
    · exact q1
  · simp only [List.length_set]; exact hb.bq.res
  · simp only [List.length_set]; exact hb.bq.cur
  · intro t ht
    rcases List.mem_or_eq_of_mem_set ht with ht | rfl
    · exact hb.below t ht
    · rw [q2]
      exact hb.below s (List.mem_of_getElem? hs')

theorem act_markedD (hl : LogLaw log) (hsort : ∀ l, (srt l).Perm l) (hord : ∀ p, (ord p).Perm p) {b b' : Builder Double} {a : Act} (hb : MarkedD hl b)
    (h : act (Double.env log srt ord gam) b a = .ok b') : MarkedD hl b' := by
  cases a with
  | update => exact update_markedD hl hsort hord hb h
  | accept seq =>
    simp only [act, Builder.accept] at h
    obtain ⟨s, hs, h⟩ := bind_ok.1 h
    obtain ⟨⟨s', r⟩, hp, h⟩ := bind_ok.1 h
    have hb1 := parse_markedD hl hb hs hp
    dsimp only at h
    split at h
    · exact update_markedD hl hsort hord hb1 h
    · cases h
      exact hb1
  | freqs =>
    obtain ⟨bq', _⟩ := act_minle (E := Double.env log srt ord gam) (doubleProbLaws hl) hsort hord hb.bq h
    simp only [act, Builder.resultFreqs] at h
    obtain ⟨⟨b1, _⟩, h1, h⟩ := bind_ok.1 h
    obtain ⟨s, hs, h1⟩ := bind_ok.1 h1
    cases h
    cases h1
    have hs' : b.stats[b.resultIdx]? = some s := rd_nat_ok.1 hs
    refine ⟨bq', ?_⟩
    intro t ht
    rcases List.mem_or_eq_of_mem_set ht with ht | rfl
    · exact hb.below t ht
    · exact hb.below s (List.mem_of_getElem? hs')

/-- C26 is false in doubles as well: a model saved before its first publication carries the minimal probability −1, and in a builder restored from it every accept call
that finds or emits an id since the last rebuild rebuilds the dictionary, now and forever.  Of the logarithm it is only used that it is not positive up to 1. -/
theorem C26_marker_doubles_false (hl : LogLaw log)
    (hneg : ∀ (d : Double) (x : ℚ), Double.val d = .fin x → 0 < x → x ≤ 1 → ∃ y : ℚ, Double.val (log d) = .fin y ∧ y ≤ 0)
    (hsort : ∀ l, (srt l).Perm l) (hord : ∀ p, (ord p).Perm p) (saved b0 : Builder Double) (hnone : saved.result = none) (mp : Double)
    (hmp : saved.getMinProbability (Double.ops log) = .ok mp) (d : IntDict) (freqs : List Int) (alphabet : List IntSeq)
    (hb : Builder.ofSaved (Double.ops log) d freqs alphabet mp = .ok b0) (acts : List Act) (b b' : Builder Double)
    (h : train (Double.env log srt ord gam) b0 acts = .ok b) (s s' : StatDict Double) (hs : b.cur = .ok s) (seq : IntSeq) (ids : List Int) (c : Int)
    (hp : s.parse (Double.ops log) seq [] = .ok (s', ids, c)) (hn : 0 < s.power + ids.length)
    (h' : b.accept (Double.env log srt ord gam) seq = .ok b') : b'.stats.length = b.stats.length + 1 := by
  have hmp' : mp = (Double.ops log).ofInt (-1) := by
    unfold Builder.getMinProbability at hmp
    rw [hnone] at hmp
    cases hmp
    rfl
  have hbelow : Below mp := by
    rw [hmp']
    refine Or.inr ⟨-1, ?_, by norm_num⟩
    show Double.val (Double.rounded false (clamp (-1))) = _
    decide +kernel
  have hok : (doubleProbLaws hl).Ok mp := by
    rcases hbelow with e | ⟨q, e, _⟩ <;> show Double.val mp ≠ .nan <;> rw [e] <;> simp
  have hbuilt : Built (Double.ops log) (doubleProbLaws hl).Ok b0 := .saved hok hb
  have hm : MarkedD hl b0 := by
    refine ⟨Built.bq (doubleProbLaws hl) hbuilt, ?_⟩
    obtain ⟨s, h1, h2⟩ := bind_ok.1 hb
    cases h2
    intro t ht
    simp only [List.mem_singleton] at ht
    subst ht
    have e := (ofSeqs_qinv (P := doubleProbLaws hl) hok h1).2
    rw [e]
    exact hbelow
  have hb1 : MarkedD hl b := (train_rel (E := Double.env log srt ord gam) (I := MarkedD hl) (R := fun _ _ => True) (fun _ => trivial)
    (fun _ _ _ _ _ => trivial) (fun b b' a hb h => ⟨act_markedD hl hsort hord hb h, trivial⟩) acts hm h).1
  have hb2 := parse_markedD hl hb1 hs hp
  have hpow := parse_power hp
  simp only at hpow
  have hcur := (List.getElem?_eq_some_iff.1 (rd_nat_ok.1 hs)).1
  have hr : ({ b with stats := b.stats.set b.current s' } : Builder Double).ready (Double.ops log) s' = true := by
    unfold Builder.ready
    rw [enough_below hneg (C91_prob_found b0 _ hbuilt acts b h) (hb2.below s' (List.mem_set hcur s')) (by omega)]
    rfl
  unfold Builder.accept at h'
  simp only [hs, ok_bind] at h'
  rw [show (Double.env log srt ord gam).ops = Double.ops log from rfl, hp] at h'
  simp only [ok_bind] at h'
  rw [if_pos hr] at h'
  rcases update_cases h' with ⟨rfl, t, ht, hr'⟩ | ⟨t, t', words, freqs, mp, _, u⟩
  · exfalso
    simp only [List.getElem?_set_self hcur] at ht
    cases ht
    rw [show (Double.env log srt ord gam).ops = Double.ops log from rfl, hr] at hr'
    cases hr'
  · rw [u.stats]
    simp

theorem roughLog_nonpos (d : Double) (x : ℚ) (hx : Double.val d = .fin x) (h0 : 0 < x) (h1 : x ≤ 1) : ∃ y : ℚ, Double.val (roughLog d) = .fin y ∧ y ≤ 0 := by
  have hle : (x - 1) / (100 * (x + 1)) ≤ 0 := div_nonpos_of_nonpos_of_nonneg (by linarith) (by positivity)
  obtain ⟨y, hy, _⟩ := roughLog_law d x hx h0
  refine ⟨y, hy, ?_⟩
  have e : roughLog d = Double.rounded false ((x - 1) / (100 * (x + 1))) := by
    unfold roughLog
    rw [hx]
    exact if_pos h0
  rw [e] at hy
  rcases val_rounded_cases false ((x - 1) / (100 * (x + 1))) with ⟨k, _⟩ | ⟨k, _⟩ | ⟨k, _⟩ <;> rw [k] at hy <;> cases hy
  have := rnd_mono hle
  rwa [show rnd 0 = 0 from by decide +kernel] at this

/-- The logarithm of the examples satisfies the hypotheses, and three accepted symbols make three rebuilds; with the minimal probability of a published model they make
none. -/
example : LogLaw roughLog ∧ (∀ (d : Double) (x : ℚ), Double.val d = .fin x → 0 < x → x ≤ 1 → ∃ y : ℚ, Double.val (roughLog d) = .fin y ∧ y ≤ 0) ∧
    (Builder.new (Double.ops roughLog) 5).getMinProbability (Double.ops roughLog) = .ok ⟨true, 0x3FF0000000000000⟩ ∧
    (match (do
      let b ← Builder.ofSaved sampleEnv.ops ⟨[[0], [1]], [-1, -1]⟩ [1, 1] [[0], [1]] ⟨true, 0x3FF0000000000000⟩
      train sampleEnv b [.accept [0], .accept [1], .accept [0]] : M (Builder Double)) with
    | .ok b => b.stats.length | .error _ => 0) = 4 ∧
    (match (do
      let b ← Builder.ofSaved sampleEnv.ops ⟨[[0], [1]], [-1, -1]⟩ [1, 1] [[0], [1]] ⟨false, 0x3F50624DD2F1A9FC⟩
      train sampleEnv b [.accept [0], .accept [1], .accept [0]] : M (Builder Double)) with
    | .ok b => b.stats.length | .error _ => 0) = 1 := by
  refine ⟨roughLog_law, roughLog_nonpos, ?_, ?_, ?_⟩ <;> decide +kernel

end VGram.Props
