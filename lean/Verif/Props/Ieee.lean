import Verif.Proofs.Ieee
import Verif.Props.Double
import Verif.Props.File
import Verif.Props.Patience
import Verif.Props.StreamBest

/-!
# The program with IEEE doubles: overflow, underflow, signed zeros and NaN included (C90, C91)
-/

namespace VGram.Props

open VGram Spec Dump Parse

variable {log : Double → Double} {srt : List (StatItem Double) → List (StatItem Double)} {ord : PairMap → PairMap} {gam : List Double → Nat → Double}

/-! ## C90 -/

/-- C90, the arithmetic: the exact result `x` of an operation becomes the double nearest to it, and of two nearest ones the one with the even significand, as long as
`x` is below the limit of IEEE 754; otherwise the infinity of the same sign. -/
theorem C90_rounding (s : Bool) (x : ℚ) :
    (|x| < (2 ^ 54 - 1) * 2 ^ 970 → ∃ y, Double.val (Double.rounded s x) = .fin y ∧ (0 ≤ x → 0 ≤ y) ∧ (x ≤ 0 → y ≤ 0) ∧ (x = 0 → (Double.rounded s x).neg = s) ∧
      ∀ d z, Double.val d = .fin z → |x - y| ≤ |x - z| ∧ (|x - y| = |x - z| → y = z ∨ (Double.rounded s x).mag.val % 2 = 0)) ∧
    ((2 ^ 54 - 1) * 2 ^ 970 ≤ x → Double.rounded s x = Double.inf false) ∧ (x ≤ -((2 ^ 54 - 1) * 2 ^ 970) → Double.rounded s x = Double.inf true) := by
  have ext : ∀ a b : Double, a.neg = b.neg → a.mag = b.mag → a = b := by
    rintro ⟨_, _⟩ ⟨_, _⟩ rfl rfl
    rfl
  refine ⟨fun h => ?_, fun h => ?_, fun h => ?_⟩
  · refine ⟨rnd x, val_rounded s h, rnd_nonneg, fun hx => ?_, fun hx => by simp [Double.rounded, hx], fun d z hz => ?_⟩
    · have := rnd_nonneg (x := -x) (by linarith)
      rw [rnd_neg] at this
      linarith
    · have hz' : |z| = value d.mag.val := by
        unfold Double.val at hz
        split at hz
        · injection hz with hz
          rw [← hz]
          split
          · rw [abs_neg, abs_of_nonneg (value_nonneg _)]
          · rw [abs_of_nonneg (value_nonneg _)]
        · split at hz
          · split at hz <;> cases hz
          · cases hz
      have e : |x - rnd x| = |(|x| - value (nearestBits |x|))| := by
        rcases lt_or_ge x 0 with hx | hx
        · unfold rnd
          rw [if_pos hx, abs_of_neg hx, ← abs_neg]
          congr 1
          ring
        · unfold rnd
          rw [if_neg (not_lt.2 hx), abs_of_nonneg hx]
      have h1 := (nearestBits_spec (abs_nonneg x) h).2 d.mag.val
      have h2 : |(|x| - value d.mag.val)| ≤ |x - z| := hz' ▸ abs_abs_sub_abs_le_abs_sub x z
      refine ⟨e ▸ h1.trans h2, fun ht => ?_⟩
      rw [mag_rounded]
      by_cases hc : d.mag.val = nearestBits |x|
      · left
        have hyz : |rnd x| = |z| := by rw [abs_rnd, hz', hc]
        rcases abs_eq_abs.1 hyz with hyz | hyz
        · exact hyz
        · rw [hyz] at ht ⊢
          rcases abs_eq_abs.1 ht with k | k
          · linarith
          · have hx : x = 0 := by linarith
            rw [hx, show rnd 0 = 0 by rw [← value_zero, rnd_value (by norm_num)]] at hyz
            linarith
      · right
        exact nearestBits_tie (abs_nonneg x) h hc (le_antisymm (h2.trans (ht ▸ e.le)) h1)
  · have hx := overflow_pos.trans_le h
    refine ext (Double.rounded s x) _ ?_ (Fin.ext ?_)
    · simp [Double.rounded, Double.inf, hx.ne', not_lt.2 hx.le]
    · rw [mag_rounded, abs_of_pos hx, nearestBits_overflow h]
      decide +kernel
  · have hx : x < 0 := lt_of_le_of_lt h (neg_neg_of_pos overflow_pos)
    refine ext (Double.rounded s x) _ ?_ (Fin.ext ?_)
    · simp [Double.rounded, Double.inf, hx.ne, hx]
    · rw [mag_rounded, abs_of_neg hx, nearestBits_overflow (le_neg_of_le_neg h)]
      decide +kernel

/-- One third, a tie between two doubles, half of the least double, and a number between the greatest double and the limit. -/
example : (Double.rounded false (1 / 3)).mag.val = 0x3FD5555555555555 ∧ (Double.rounded false (2 ^ 53 + 1)).mag.val = 0x4340000000000000 ∧
    (Double.rounded true (1 / 2 ^ 1075)) = ⟨false, 0⟩ ∧ (Double.rounded true 0) = ⟨true, 0⟩ := by decide +kernel

/-- C90: with doubles, everything that the theorems about the algorithm ask of numbers and libraries holds, whatever `std::log` within 1024, the sorting of finite scores,
the order of the hash table and gamma variates from `2^-160` to `2^160` are. -/
theorem C90_laws (H : LibraryLaws log srt ord gam) : Nonempty (EnvLaws (Double.env log srt ord gam)) ∧ Nonempty (ScoreLaws (Double.ops log)) ∧ Nonempty (OrderLaws (Double.ops log)) ∧
    Nonempty (ProbLaws (Double.ops log)) ∧ FiniteLaws (Double.ops log) :=
  ⟨⟨doubleEnvLaws H⟩, ⟨doubleScoreLaws H.log⟩, ⟨doubleOrderLaws H.log⟩, ⟨doubleProbLaws H.log⟩, doubleFiniteLaws log⟩

/-- C90: there are libraries that do what is asked. -/
theorem C90_libraries_exist : ∃ log srt ord gam, LibraryLaws log srt ord gam := ⟨_, _, _, _, sampleEnv_laws⟩

/-- C90: the score of a pair is a finite double, whatever the (64-bit) counts: no overflow, no division by zero, no logarithm of zero, no NaN. -/
theorem C90_pair_score (H : LibraryLaws log srt ord gam) {f ab ay xb xy : Int} (h1 : 0 ≤ ab) (h2 : 0 ≤ ay) (h3 : 0 ≤ xb) (h4 : 0 ≤ xy) :
    ∃ x, StatDict.pairScore (Double.env log srt ord gam) f ab ay xb xy = .ok x ∧ x.isFinite = true := by
  obtain ⟨x, e, y, hy, _⟩ := pairScore_num (doubleEnvLaws H) (f := f) h1 h2 h3 h4
  exact ⟨x, e, isFinite_of_fin hy⟩

/-- C90: the score of a word that a reduction may drop is a finite double. -/
theorem C90_word_score (H : LibraryLaws log srt ord gam) {s : StatDict Double} {count : Int} {parse : List Int} (h1 : 1 ≤ s.totalChars) (h2 : 1 ≤ s.power)
    (hc : 1 ≤ count) (hp : parse ≠ []) (hf : ∀ i, 0 ≤ s.freq i) :
    (s.itemScore (Double.ops log) ((Double.ops log).mul (s.codeLengthPerChar (Double.ops log)) ((Double.ops log).ofInt s.totalChars)) count parse).isFinite = true := by
  obtain ⟨y, hy, _⟩ := itemScore_num (E := Double.env log srt ord gam) (doubleEnvLaws H) (codeLength_num (E := Double.env log srt ord gam) (doubleEnvLaws H) h1 h2) hc h2 hp hf
  exact isFinite_of_fin hy

/-- C90: C38 with doubles.  After any admissible history that published a dictionary, `parse` succeeds on every sequence and is lossless. -/
theorem C90_parse_total (H : LibraryLaws log srt ord gam) (m0 : Stream Double) (vals : List Int) (calls : List Call)
    (h : Admissible (Double.ops log) m0 vals calls true) : ∃ m, run (Double.env log srt ord gam) m0 calls = .ok m ∧
      ∀ seq, ∃ m' ids ws ws', m.parse (Double.ops log) seq = .ok (m', ids) ∧ m.alphabet = .ok ws ∧ m'.alphabet = .ok ws' ∧ ws <+: ws' ∧
        Spells ws' ids (seq.filter fun x => decide (x ∈ vals ++ accepted calls)) :=
  C38_parse_total (Double.env log srt ord gam) (doubleEnvLaws H) (doubleScoreLaws H.log) m0 vals calls h

/-- C90: C73 with doubles.  The ids returned by `parse` have the greatest score, as it is computed in doubles, among all ways to write the sequence. -/
theorem C90_best_score (H : LibraryLaws log srt ord gam) (m0 : Stream Double) (vals : List Int) (calls : List Call)
    (h : Admissible (Double.ops log) m0 vals calls true) (hn : Covered (Double.env log srt ord gam) m0 vals calls) :
    ∃ m ws, run (Double.env log srt ord gam) m0 calls = .ok m ∧ m.alphabet = .ok ws ∧ (∀ f ∈ m.freqs, 0 ≤ f) ∧
      ∀ seq, (∀ x ∈ seq, x ∈ vals ++ accepted calls → [x] ∈ ws) → ∃ ids, m.parse (Double.ops log) seq = .ok (m, ids) ∧
        Spells ws ids (seq.filter fun x => decide (x ∈ vals ++ accepted calls)) ∧
        ∀ ids', Spells ws ids' (seq.filter fun x => decide (x ∈ vals ++ accepted calls)) →
          (Double.ops log).lt (parseScore (Double.ops log) m.freqs m.freqs.sum ws.length ids) (parseScore (Double.ops log) m.freqs m.freqs.sum ws.length ids') = false :=
  C73_best_score (Double.env log srt ord gam) (doubleEnvLaws H) (doubleScoreLaws H.log) (doubleOrderLaws H.log) m0 vals calls h hn

/-- C90: C80 with doubles.  The bytes that `IntVGram::save` writes after any successful uninterrupted `fit` in doubles load as a stream model that answers like the fitted
one, if `strtod` rounds correctly. -/
theorem C90_fitted_file (H : LibraryLaws log srt ord gam) {strtod : Str → Double} (hs : CorrectlyRounded strtod) (size iter : Int) (h1 : 1 ≤ size) (h2 : 1 ≤ iter)
    (σ : IntVGram.Sched) (seqs : List IntSeq) (m : IntVGram Double) (hcap : ((seen seqs.flatten).length : Int) ≤ size)
    (hσ : ∀ j, j < iter.toNat * seqs.length + seqs.length → σ.term j = false)
    (hf : (IntVGram.new (Double.ops log) size iter).fit (Double.env log srt ord gam) σ seqs = .ok (m, true))
    (hsize : size < 2 ^ 31) (hx : ∀ x ∈ seqs.flatten, IsInt x) (hn : seqs.flatten.length < 2 ^ 31) :
    ∃ ws j, m.alphabet = .ok ws ∧ Saver.saveIntVGram (Double.ops log) m = .ok j ∧ (writeFile (Double.ops log) (Double.text strtod) j).done = true ∧
      ∃ j' m', readFile (Double.ops log) (Double.text strtod) (writeFile (Double.ops log) (Double.text strtod) j).text = .ok j' ∧
        Loader.loadStream (Double.ops log) j' = .ok m' ∧ Narrow.loadStream (Double.ops log) j' = .ok m' ∧ m'.alphabet = .ok ws ∧ m'.freqs = m.freqs ∧ m'.size = m.size ∧ m'.coder.codeMap = m.coder.codeMap ∧
        ∀ seqs, ∃ r, talk (Double.ops log) m.toStream seqs = .ok r ∧ talk (Double.ops log) m' seqs = .ok r :=
  C80_fitted_file (Double.env log srt ord gam) _ (doubleEnvLaws H) (doubleScoreLaws H.log) (doubleFiniteLaws log) (C86_text_laws (fun _ => rfl) hs) size iter h1 h2 σ seqs m
    hcap hσ hf hsize hx hn

/-- C90: C80 with doubles, models of texts at character level. -/
theorem C90_text_file (H : LibraryLaws log srt ord gam) {strtod : Str → Double} (hs : CorrectlyRounded strtod) (m : StringVGram Double)
    (trained : List Str) (h : TextModel (Double.env log srt ord gam) .char m trained) (hsize : m.int.size < 2 ^ 31) (hn : trained.length < 2 ^ 31) :
    ∃ ws j, m.alphabet = .ok ws ∧ Saver.saveStringVGram (Double.ops log) m = .ok j ∧ (writeFile (Double.ops log) (Double.text strtod) j).done = true ∧
      ∃ j' m', readFile (Double.ops log) (Double.text strtod) (writeFile (Double.ops log) (Double.text strtod) j).text = .ok j' ∧
        Loader.loadStringVGram (Double.ops log) j' = .ok m' ∧ Narrow.loadStringVGram (Double.ops log) j' = .ok m' ∧ m'.alphabet = .ok ws ∧
        m'.int.freqs = m.int.freqs ∧ m'.int.size = m.int.size ∧ m'.int.fitted = m.int.fitted ∧ m'.int.freqsComputed = m.int.freqsComputed ∧
        ∀ batches, ∃ r, textTalk (Double.ops log) m batches = .ok r ∧ textTalk (Double.ops log) m' batches = .ok r :=
  C80_text_file (Double.env log srt ord gam) _ (doubleEnvLaws H) (doubleScoreLaws H.log) (doubleFiniteLaws log) (C86_text_laws (fun _ => rfl) hs) m trained h hsize hn

set_option synthInstance.maxSize 2000 in
/-- A model fitted in doubles learns the word `[5, 6]`; its file is loaded again and the minimal probability has the same 64 bits. -/
example : (do
    let E := sampleEnv
    let T := Double.text strtodEven
    let (m, _) ← (IntVGram.new E.ops 5 3).fit E ⟨fun n => n, fun _ => false⟩ [[5, 6], [5, 6, 5, 6, 7, 5, 6]]
    let j ← Saver.saveIntVGram E.ops m
    let j' ← readFile E.ops T (writeFile E.ops T j).text
    let m' ← Loader.loadStream E.ops j'
    let ws ← m'.alphabet
    let (_, ids) ← m'.parse E.ops [5, 6, 7]
    pure (ws, m'.freqs, ids, m'.minProb, decide (m'.minProb = m.toStream.minProb)) :
      M (List IntSeq × List Int × List Int × Option Double × Bool)) =
    .ok ([[5], [5, 6], [6], [7]], [0, 4, 0, 1], [1, 3], some ⟨false, 0x3F60624DD2F1A9FC⟩, true) := by decide +kernel

/-! ## C91 -/

/-- A probability that has not been lost: from `2^-1073` to 1. -/
def Alive (d : Double) : Prop := ∃ p : ℚ, Double.val d = .fin p ∧ 1 / 2 ^ 1073 ≤ p ∧ p ≤ 1

theorem alive_tenth : Alive ((Double.ops log).lit 1 1) := by
  refine ⟨3602879701896397 / 2 ^ 55, ?_, ?_, ?_⟩
  · show Double.val (Double.rounded false (clamp 1 / 10 ^ 1)) = _
    decide +kernel
  · decide +kernel
  · norm_num

/-- Multiplying by 0.8 loses nothing below the second smallest double, because it is rounded to itself. -/
theorem Alive.shrink {d : Double} (h : Alive d) : Alive ((Double.ops log).mul d ((Double.ops log).lit 8 1)) := by
  obtain ⟨p, hp, h1, h2⟩ := h
  have h8 : Double.val ((Double.ops log).lit 8 1) = .fin (3602879701896397 / 2 ^ 52) := by
    show Double.val (Double.rounded false (clamp 8 / 10 ^ 1)) = _
    decide +kernel
  have hp0 : 0 < p := lt_of_lt_of_le (by positivity) h1
  have hle : |p * (3602879701896397 / 2 ^ 52)| ≤ 2 ^ 0 := by
    rw [abs_of_nonneg (by positivity)]
    norm_num
    linarith
  show Alive (Double.mul d _)
  rw [mul_val hp h8]
  refine ⟨_, val_rounded _ (small (by omega) hle), ?_, (abs_le.1 (abs_rnd_pow (by omega) hle)).2.trans_eq (pow_zero 2)⟩
  have e2 : value 2 = 1 / 2 ^ 1073 := by decide +kernel
  have e1 : value 1 = 1 / 2 ^ 1073 / 2 := by decide +kernel
  rw [← e2]
  refine le_rnd_stay (by positivity) (lt_of_le_of_lt (le_abs_self _) (small (k := 0) (by omega) hle)) ?_
  rw [show 2 - 1 = 1 from rfl, e1, e2]
  have hq : (0 : ℚ) < 1 / 2 ^ 1073 := by positivity
  generalize (1 : ℚ) / 2 ^ 1073 = q at *
  norm_num
  linarith

theorem update_alive {b b' : Builder Double} (hb : Alive b.probFound) (h : b.update (Double.env log srt ord gam) = .ok b') : Alive b'.probFound := by
  unfold Builder.update at h
  obtain ⟨s, hs, h⟩ := bind_ok.1 h
  dsimp only at h
  split at h
  · cases h
    exact hb
  · obtain ⟨rate, _, h⟩ := bind_ok.1 h
    obtain ⟨⟨words, freqs, mp⟩, hw, h⟩ := bind_ok.1 h
    obtain ⟨s', hs2, h⟩ := bind_ok.1 h
    obtain ⟨fresh, hf, h⟩ := bind_ok.1 h
    cases h
    show Alive (b.noteRate (Double.ops log) rate).probFound
    unfold Builder.noteRate
    split
    · exact hb
    · split
      · exact hb.shrink
      · exact hb

theorem act_alive {b b' : Builder Double} {a : Act} (hb : Alive b.probFound) (h : act (Double.env log srt ord gam) b a = .ok b') : Alive b'.probFound := by
  cases a with
  | update => exact update_alive hb h
  | accept seq =>
    simp only [act, Builder.accept] at h
    obtain ⟨s, hs, h⟩ := bind_ok.1 h
    obtain ⟨⟨s', r⟩, hp, h⟩ := bind_ok.1 h
    dsimp only at h
    split at h
    · exact update_alive (by exact hb) h
    · cases h
      exact hb
  | freqs =>
    simp only [act, Builder.resultFreqs] at h
    obtain ⟨⟨b1, _⟩, h1, h⟩ := bind_ok.1 h
    obtain ⟨s, hs, h1⟩ := bind_ok.1 h1
    cases h
    cases h1
    exact hb

/-- C91: however often the rate has not improved, the probability that `prob_found_ *= 0.8` shrinks is at least `2^-1073` in doubles: it neither vanishes nor makes the
logarithm infinite. -/
theorem C91_prob_found (b0 : Builder Double) (Ok : Double → Prop) (h0 : Built (Double.ops log) Ok b0) (acts : List Act) (b : Builder Double)
    (h : train (Double.env log srt ord gam) b0 acts = .ok b) : ∃ p : ℚ, Double.val b.probFound = .fin p ∧ 1 / 2 ^ 1073 ≤ p ∧ p ≤ 1 := by
  have hs : Alive b0.probFound := by
    cases h0 with
    | fresh size => exact alive_tenth (log := log)
    | alphabet h =>
      obtain ⟨s, _, rfl⟩ := ofAlphabet_one h
      exact alive_tenth (log := log)
    | symbols h =>
      obtain ⟨d, _, h⟩ := bind_ok.1 h
      obtain ⟨s, _, rfl⟩ := ofAlphabet_one h
      exact alive_tenth (log := log)
    | saved _ h =>
      obtain ⟨s, _, h⟩ := bind_ok.1 h
      cases h
      exact alive_tenth (log := log)
  exact (train_rel (E := Double.env log srt ord gam) (I := fun b => Alive b.probFound) (R := fun _ _ => True) (fun _ => trivial)
    (fun _ _ _ _ _ => trivial) (fun b b' a hb h => ⟨act_alive hb h, trivial⟩) acts hs h).1

/-- Enough has been read if it is four times more than the bound on the logarithm asks for. -/
theorem enough_doubles (hl : LogLaw log) {s : StatDict Double} {p : Double} {q : ℚ} (hp : Alive p) (hq : Double.val s.minProb = .fin q) (hq0 : 0 < q)
    (hn : 4096 / q < (s.power : ℚ)) (hn' : s.power ≤ 2 ^ 62) : s.enough (Double.ops log) p = true := by
  obtain ⟨x, hx, h1, _⟩ := hp
  obtain ⟨y, hy, h2⟩ := hl p x hx (lt_of_lt_of_le (by positivity) h1)
  have hpow : (0 : ℚ) < s.power := lt_trans (by positivity) hn
  have hpow1 : 1 ≤ s.power := by exact_mod_cast hpow
  have hc : clamp s.power = s.power := by
    unfold clamp
    omega
  obtain ⟨k, hk1, hk2⟩ : ∃ k : Nat, (2 : ℚ) ^ k ≤ s.power ∧ (s.power : ℚ) < 2 ^ (k + 1) := by
    obtain ⟨n, hn⟩ := Int.eq_ofNat_of_zero_le (show 0 ≤ s.power by omega)
    refine ⟨Nat.log 2 n, ?_, ?_⟩
    · rw [hn]
      exact_mod_cast Nat.pow_log_le_self 2 (by omega)
    · rw [hn]
      exact_mod_cast Nat.lt_pow_succ_log_self (by norm_num) n
  have hk : k ≤ 62 := by
    by_contra hk
    have : (2 : ℚ) ^ 63 ≤ 2 ^ k := pow_le_pow_right₀ (by norm_num) (by omega)
    have h3 : (s.power : ℚ) ≤ 2 ^ 62 := by exact_mod_cast hn'
    norm_num at this h3
    linarith
  -- the waiting time before rounding
  have hneg : Double.val (Double.opposite (log p)) = .fin (-y) := by rw [val_opposite, hy]; rfl
  have hb : |(-y) / q| ≤ 2 ^ k / 2 := by
    rw [abs_div, abs_neg, abs_of_pos hq0, div_le_iff₀ hq0]
    rw [div_lt_iff₀ hq0] at hn
    rw [pow_succ] at hk2
    have := mul_lt_mul_of_pos_right hk2 hq0
    norm_num at h2
    nlinarith
  have hb' : |(-y) / q| ≤ 2 ^ k := hb.trans (by linarith [show (0 : ℚ) < 2 ^ k by positivity])
  have e1 : Double.val (Double.div (Double.opposite (log p)) s.minProb) = .fin (rnd (-y / q)) := by
    rw [div_val hneg hq hq0.ne', val_rounded _ (small (by omega) hb')]
  have e2 : Double.val ((Double.ops log).ofInt s.power) = .fin (rnd s.power) := by
    have := clamp_abs s.power
    rw [hc] at this
    show Double.val (Double.rounded false _) = _
    rw [hc, val_rounded _ (small (k := 64) (by omega) this)]
  show Ext.lt (Double.val (Double.div (Double.opposite (log p)) s.minProb)) (Double.val ((Double.ops log).ofInt s.power)) = true
  rw [e1, e2]
  have h3 : (2 : ℚ) ^ k ≤ rnd s.power := by
    rw [← rnd_pow (show k ≤ 1023 by omega)]
    exact rnd_mono hk1
  have h4 : rnd (-y / q) < 2 ^ k := by
    rcases Nat.eq_zero_or_pos k with rfl | hk0
    · refine lt_of_le_of_lt (rnd_mono ((le_abs_self _).trans hb)) ?_
      have : rnd (2 ^ 0 / 2) = 1 / 2 ^ 1 := by
        rw [← rnd_inv_pow (show 1 ≤ 1022 by omega)]
        norm_num
      rw [this]
      norm_num
    · obtain ⟨k, rfl⟩ := Nat.exists_eq_add_of_lt hk0
      rw [show 0 + k + 1 = k + 1 by omega] at *
      have : (2 : ℚ) ^ (k + 1) / 2 = 2 ^ k := by rw [pow_succ]; ring
      rw [this] at hb
      refine lt_of_le_of_lt ((le_abs_self _).trans (abs_rnd_pow (by omega) hb)) ?_
      rw [pow_succ]
      linarith [show (0 : ℚ) < 2 ^ k by positivity]
  simp only [Ext.lt, decide_eq_true_eq]
  linarith

/-- C91: in doubles the patience is bounded: whatever happened before, once the ids emitted since the last rebuild exceed `4096 / q` (`q` the minimal probability of the
working dictionary), the accept call rebuilds the dictionary.  (In exact arithmetic the bound grows with every rebuild that brings nothing, C71.) -/
theorem C91_patience_bounded (hl : LogLaw log) (b0 : Builder Double) (Ok : Double → Prop) (h0 : Built (Double.ops log) Ok b0) (acts : List Act) (b : Builder Double)
    (h : train (Double.env log srt ord gam) b0 acts = .ok b) (s s' : StatDict Double) (hs : b.cur = .ok s) (q : ℚ) (hq : Double.val s.minProb = .fin q) (hq0 : 0 < q)
    (seq : IntSeq) (ids : List Int) (c : Int) (hp : s.parse (Double.ops log) seq [] = .ok (s', ids, c)) (b' : Builder Double)
    (ha : b.accept (Double.env log srt ord gam) seq = .ok b') (hn : 4096 / q < ((s.power + ids.length : Int) : ℚ)) : b'.stats.length = b.stats.length + 1 := by
  have hpow := parse_power hp
  simp only at hpow
  have hr : ({ b with stats := b.stats.set b.current s' } : Builder Double).ready (Double.ops log) s' = true := by
    unfold Builder.ready
    by_cases hbig : 20000000 < s'.power
    · simp [hbig]
    · rw [enough_doubles hl (C91_prob_found b0 Ok h0 acts b h) ((congrArg Double.val (parse_minProb hp)).trans hq) hq0 (by rw [hpow]; exact hn) (by omega)]
      rfl
  unfold Builder.accept at ha
  simp only [hs, ok_bind] at ha
  rw [show (Double.env log srt ord gam).ops = Double.ops log from rfl, hp] at ha
  simp only [ok_bind] at ha
  rw [if_pos hr] at ha
  rcases update_cases ha with ⟨rfl, t, ht, hr'⟩ | ⟨t, t', words, freqs, mp, _, u⟩
  · exfalso
    have hcur := (List.getElem?_eq_some_iff.1 (rd_nat_ok.1 hs)).1
    simp only [List.getElem?_set_self hcur] at ht
    cases ht
    rw [show (Double.env log srt ord gam).ops = Double.ops log from rfl, hr] at hr'
    cases hr'
  · rw [u.stats]; simp

/-- The least value that `prob_found_` can have: 0.8 times `2^-1073` is rounded to `2^-1073`. -/
example : (Double.ops roughLog).mul ⟨false, 2⟩ ((Double.ops roughLog).lit 8 1) = ⟨false, 2⟩ ∧ Double.val ⟨false, 2⟩ = .fin (1 / 2 ^ 1073) ∧
    (Double.ops roughLog).mul ⟨false, 3⟩ ((Double.ops roughLog).lit 8 1) = ⟨false, 2⟩ := by decide +kernel

end VGram.Props
