import Verif.Proofs.Sign
import Verif.Props.Gamma
import Verif.Props.Gain

/-!
# C103: rare pairs are never learned
-/

namespace VGram.Props

open VGram Spec

variable {log sqrt : Double → Double} {pow : Double → Double → Double} {srt : List (StatItem Double) → List (StatItem Double)} {ord : PairMap → PairMap}
  {gam : List Double → Nat → Double}

/-- C103: the sign of a score computed in doubles, for any sampler.  If the variates of the pair, its alternatives and the rest are `g`, the score is negative when
`g 0 * (g 0 + g 1 + g 2 + g 3)` is below `(g 0 + g 1) * (g 0 + g 2)`, that is `g 0 * g 3` below `g 1 * g 2`, by more than the rounding errors, and it is not negative in the
opposite case. -/
theorem C103_sign (hl : LogLaw log) (hs : LogSign log) {f ab ay xb xy : Int} (hf : 1 ≤ f) (g : Fin 4 → ℚ)
    (hg : ∀ i : Fin 4, Double.val (gam [(Double.ops log).ofInt (ab + 1), (Double.ops log).ofInt (ay + 1), (Double.ops log).ofInt (xb + 1), (Double.ops log).ofInt (xy + 1)] i) = .fin (g i) ∧
      1 / 2 ^ 160 ≤ g i ∧ g i ≤ 2 ^ 160) :
    ∃ d x, StatDict.pairScore (Double.env log srt ord gam) f ab ay xb xy = .ok d ∧ Double.val d = .fin x ∧
      (g 0 * (g 0 + g 1 + g 2 + g 3) * (1 + 1 / 2 ^ 47) ≤ (g 0 + g 1) * (g 0 + g 2) → x < 0) ∧
      ((g 0 + g 1) * (g 0 + g 2) * (1 + 1 / 2 ^ 47) ≤ g 0 * (g 0 + g 1 + g 2 + g 3) → 0 ≤ x) := score_sign hl hs hf g hg

/-- C103: with doubles and the sampler of libstdc++, the score of a rare pair is negative and the score of a frequent one is not. -/
theorem C103_score (hl : LogLaws log) (hs : LogSign log) (hr : SqrtLaw sqrt) (fuel : Nat) {f ab ay xb xy : Int} (hf : 1 ≤ f) (h0 : 0 ≤ ab ∧ ab < 2 ^ 31) (h1 : 0 ≤ ay ∧ ay < 2 ^ 31)
    (h2 : 0 ≤ xb ∧ xb < 2 ^ 31) (h3 : 0 ≤ xy ∧ xy < 2 ^ 31) :
    ∃ d x, StatDict.pairScore (Double.env log srt ord (Gamma.gammas (Double.math log sqrt pow) (fuel + 1))) f ab ay xb xy = .ok d ∧ Double.val d = .fin x ∧
      (Rare [ab, ay, xb, xy] → x < 0) ∧ (Frequent [ab, ay, xb, xy] → 0 ≤ x) := by
  have hc : ∀ i : Fin 4, 0 ≤ ![ab, ay, xb, xy] i ∧ ![ab, ay, xb, xy] i < 2 ^ 31 := by
    intro i
    fin_cases i
    · exact h0
    · exact h1
    · exact h2
    · exact h3
  obtain ⟨g, e, gpos, gslant, glow, grange⟩ := C100_slant (pow := pow) hl hr fuel ![ab, ay, xb, xy] fun i => ⟨(hc i).1, lt_trans (hc i).2 (by norm_num)⟩
  have hrange := fun i => grange i (lt_trans (hc i).2 (by norm_num))
  have hlist : (List.ofFn fun i => (Double.ops log).ofInt (![ab, ay, xb, xy] i + 1)) =
      [(Double.ops log).ofInt (ab + 1), (Double.ops log).ofInt (ay + 1), (Double.ops log).ofInt (xb + 1), (Double.ops log).ofInt (xy + 1)] := rfl
  rw [hlist] at e
  have cast : ∀ i : Fin 4, (0 : ℚ) ≤ (![ab, ay, xb, xy] i : ℤ) ∧ ((![ab, ay, xb, xy] i : ℤ) : ℚ) ≤ 2 ^ 31 := fun i =>
    ⟨by exact_mod_cast (hc i).1, by exact_mod_cast (hc i).2.le⟩
  obtain ⟨d, x, ed, ex, hneg, hpos⟩ := C103_sign (srt := srt) (ord := ord) hl.size hs hf g fun i => ⟨e i, by
    have := (hrange i).1
    have := (cast i).1
    refine le_trans ?_ (hrange i).1
    have : (1 : ℚ) / 2 ^ 160 ≤ 1 / 64 := by norm_num
    linarith, by
    refine (hrange i).2.trans ?_
    have := (cast i).2
    norm_num at this ⊢
    linarith⟩
  have a0 := gslant
  have b1 := glow 1 (by decide)
  have b2 := glow 2 (by decide)
  have b3 := glow 3 (by decide)
  have r0 := (hrange 0).1
  have r1 := (hrange 1).2
  have r2 := (hrange 2).2
  have r3 := (hrange 3).2
  have c0 := cast 0
  have c1 := cast 1
  have c2 := cast 2
  have c3 := cast 3
  simp only [Matrix.cons_val] at a0 b1 b2 b3 r0 r1 r2 r3 c0 c1 c2 c3
  have p0 := gpos 0
  have p1 := gpos 1
  have p2 := gpos 2
  have p3 := gpos 3
  clear e hrange grange gslant glow gpos hc cast
  generalize g 0 = x0 at *
  generalize g 1 = x1 at *
  generalize g 2 = x2 at *
  generalize g 3 = x3 at *
  refine ⟨d, x, ed, ex, fun h => hneg ?_, fun h => hpos ?_⟩
  · have h' : (24 : ℚ) * ((ab + 1) * (xy + 1)) ≤ (2 * ay + 1) * (2 * xb + 1) := by exact_mod_cast h
    have k1 : x0 * x3 ≤ (ab + 3 / 4) * (5 * (xy + 3 / 4)) := mul_le_mul a0 r3 p3.le (by linarith)
    have k2 : ((ay : ℚ) + 1 / 2) * (xb + 1 / 2) ≤ x1 * x2 := mul_le_mul b1 b2 (by linarith) p1.le
    have k3 : ((ab : ℚ) + 3 / 4) * (xy + 3 / 4) ≤ (ab + 1) * (xy + 1) := mul_le_mul (by linarith) (by linarith) (by linarith) (by linarith)
    have k4 : x0 * x3 ≤ 5 / 6 * (x1 * x2) := by linarith
    have k5 : x0 ≤ 2 ^ 32 := by norm_num at c0 ⊢; linarith
    have k6 : x0 * x1 ≤ 2 ^ 33 * (x1 * x2) := by
      have : x0 ≤ 2 ^ 33 * x2 := by norm_num at k5 ⊢; linarith
      calc x0 * x1 ≤ 2 ^ 33 * x2 * x1 := mul_le_mul_of_nonneg_right this p1.le
        _ = _ := by ring
    have k7 : x0 * x2 ≤ 2 ^ 33 * (x1 * x2) := by
      have : x0 ≤ 2 ^ 33 * x1 := by norm_num at k5 ⊢; linarith
      calc x0 * x2 ≤ 2 ^ 33 * x1 * x2 := mul_le_mul_of_nonneg_right this p2.le
        _ = _ := by ring
    have k8 : x0 * x0 ≤ 2 ^ 33 * (x1 * x2) := by
      have q1 : x0 * x0 ≤ 2 ^ 32 * x0 := mul_le_mul_of_nonneg_right k5 p0.le
      have q2 : x0 * (1 / 2) ≤ x0 * x3 := mul_le_mul_of_nonneg_left (by linarith) p0.le
      have q3 : 0 < x1 * x2 := by positivity
      norm_num at q1 ⊢
      linarith
    have k9 : 0 < x1 * x2 := by positivity
    norm_num at k6 k7 k8 ⊢
    nlinarith
  · have h' : (3600 : ℚ) * ((ay + 1) * (xb + 1)) ≤ (2 * ab + 1) * (2 * xy + 1) := by exact_mod_cast h
    have k1 : x1 * x2 ≤ (5 * (ay + 3 / 4)) * (5 * (xb + 3 / 4)) := mul_le_mul r1 r2 p2.le (by linarith)
    have k2 : (((ab : ℚ) + 1 / 2) / 32) * (xy + 1 / 2) ≤ x0 * x3 := mul_le_mul r0 b3 (by linarith) p0.le
    have k3 : ((ay : ℚ) + 3 / 4) * (xb + 3 / 4) ≤ (ay + 1) * (xb + 1) := mul_le_mul (by linarith) (by linarith) (by linarith) (by linarith)
    have k4 : x1 * x2 ≤ 8 / 9 * (x0 * x3) := by linarith
    have k5 : x0 * (1 / 2) ≤ x0 * x3 := mul_le_mul_of_nonneg_left (by linarith) p0.le
    have k6 : x0 * x0 ≤ 2 ^ 33 * (x0 * x3) := by
      have q1 : x0 * x0 ≤ x0 * 2 ^ 32 := mul_le_mul_of_nonneg_left (by norm_num at c0 ⊢; linarith) p0.le
      norm_num at q1 ⊢
      linarith
    have k7 : x0 * x1 ≤ 2 ^ 36 * (x0 * x3) := by
      have q1 : x0 * x1 ≤ x0 * 2 ^ 35 := mul_le_mul_of_nonneg_left (by norm_num at c1 ⊢; linarith) p0.le
      norm_num at q1 ⊢
      linarith
    have k8 : x0 * x2 ≤ 2 ^ 36 * (x0 * x3) := by
      have q1 : x0 * x2 ≤ x0 * 2 ^ 35 := mul_le_mul_of_nonneg_left (by norm_num at c2 ⊢; linarith) p0.le
      norm_num at q1 ⊢
      linarith
    have k9 : 0 < x0 * x3 := by positivity
    norm_num at k6 k7 k8 ⊢
    nlinarith

theorem table_nonneg (l : List (Int × Int)) (a b : Int) : l.count (a, b) ≤ l.countP (fun k => k.1 == a) ∧ l.count (a, b) ≤ l.countP (fun k => k.2 == b) ∧
    l.countP (fun k => k.1 == a) + l.countP (fun k => k.2 == b) ≤ l.length + l.count (a, b) := by
  induction l with
  | nil => simp
  | cons x l ih =>
    obtain ⟨u, v⟩ := x
    obtain ⟨i1, i2, i3⟩ := ih
    simp only [List.count_cons, List.countP_cons, List.length_cons, beq_iff_eq, Prod.mk.injEq]
    by_cases hu : u = a <;> by_cases hv : v = b <;> simp [hu, hv] <;> omega

/-- C103: what an expansion learns, with doubles and the sampler of libstdc++.  Every new word is made up by a pair of adjacent words that is not rare.  A word that is made up
by frequent pairs only is left out only if all places are used up. -/
theorem C103_learned (hl : LogLaws log) (hs : LogSign log) (hr : SqrtLaw sqrt)
    (hsort : ∀ l : List (StatItem Double), (∀ a ∈ l, a.score.isFinite = true) → (srt l).Perm l ∧
      (srt l).Pairwise fun a b => Ext.lt (Double.val (Double.opposite b.score)) (Double.val (Double.opposite a.score)) = false)
    (hord : ∀ p, (ord p).Perm p) (fuel : Nat) (s0 : StatDict Double) (h0 : FreshStat s0) (seqs : List IntSeq) (slots : Int) (s : StatDict Double) (outs : List (List Int))
    (h : parseAll (Double.ops log) s0 seqs = .ok (s, outs)) (hsd : s.dict.seqs.Pairwise (· < ·)) (hn : (pairsOf outs).length < 2 ^ 31) :
    ∃ words freqs mp, s.expand (Double.env log srt ord (Gamma.gammas (Double.math log sqrt pow) (fuel + 1))) slots = .ok (words, freqs, mp) ∧
      (∀ w ∈ words, w ∈ s.dict.seqs ∨ ∃ k, MakesUp s.dict.seqs outs k w ∧ ¬ Rare (contingency outs k.1 k.2)) ∧
      ∀ w, w ∉ words → w ∉ s.dict.seqs → (∃ k, MakesUp s.dict.seqs outs k w) → (∀ k, MakesUp s.dict.seqs outs k w → Frequent (contingency outs k.1 k.2)) →
        words.length = (slots + s.dict.seqs.length).toNat := by
  have H := C100_library (pow := pow) hl hr hsort hord fuel
  have SL := doubleScoreLaws hl.size
  have hx := reached_exp SL h0 h hsd
  obtain ⟨taken, rest, e1, e2, e3, e4, e5, e6, e7, _, e9⟩ := expand_shape (doubleEnvLaws H) hx slots
  have hpc := pairs_count SL h0 h
  have hsum : ∀ c, pairSum c s.pairs = (pairsOf outs).countP c := fun c => pairSum_count hx.pnodup c _ hpc
  have hitem : ∀ it ∈ taken ++ rest, txt s it ∉ s.dict.seqs → MakesUp s.dict.seqs outs (it.first, it.second) (txt s it) ∧
      ∃ x, Double.val it.score = .fin x ∧ (Rare (contingency outs it.first it.second) → x < 0) ∧ (Frequent (contingency outs it.first it.second) → 0 ≤ x) := by
    intro it hit hnew
    obtain ⟨⟨i1, i2, i3⟩, i4⟩ := e7 it hit
    rcases i4 with ⟨n, hlt, rfl⟩ | ⟨g1, _, g3, _, g5⟩
    · refine absurd ?_ hnew
      have : txt s (knownItem (Double.env log srt ord (Gamma.gammas (Double.math log sqrt pow) (fuel + 1))).ops s n) = s.dict.seqs[n] := by
        simp [txt, knownItem, wordAt, List.getElem?_eq_getElem hlt]
      rw [this]
      simp
    · have hcount : it.count = (followed outs it.first it.second : Int) := by
        have : pairGet s.pairs (it.first, it.second) = it.count := pairGet_of_mem hx.pnodup g3
        rw [← this, hpc]
        rfl
      have hpos := hx.ppos _ g3
      dsimp only at hpos
      refine ⟨⟨?_, _, _, isWord_wordAt g1 (i1 g1), isWord_wordAt i2 i3, by simp [txt, g1]⟩, ?_⟩
      · rw [hcount] at hpos
        exact List.count_pos_iff.1 (by exact_mod_cast hpos)
      · obtain ⟨t1, t2, t3⟩ := table_nonneg (pairsOf outs) it.first it.second
        have u1 := List.countP_le_length (p := fun k : Int × Int => k.1 == it.first) (l := pairsOf outs)
        have u2 := List.countP_le_length (p := fun k : Int × Int => k.2 == it.second) (l := pairsOf outs)
        rw [hsum, hsum, hsum, List.countP_true] at g5
        rw [hcount] at g5 hpos
        unfold followed at g5 hpos
        unfold contingency followed leading trailing
        generalize (pairsOf outs).count (it.first, it.second) = cb at *
        generalize (pairsOf outs).countP (fun k => k.1 == it.first) = ca at *
        generalize (pairsOf outs).countP (fun k => k.2 == it.second) = cc at *
        generalize (pairsOf outs).length = cn at *
        obtain ⟨d, x, ed, ex, d1, d2⟩ := C103_score (pow := pow) (srt := srt) (ord := ord) hl hs hr fuel (f := cb) (ab := cb) (ay := ca - cb) (xb := cc - cb)
          (xy := cn - (ca - cb) - (cc - cb) - cb) (by omega) (by omega) (by omega) (by omega) (by omega)
        rw [g5] at ed
        injection ed with ed
        have hxy : (cn : Int) - (ca - cb) - (cc - cb) - cb = cn - ca - cc + cb := by omega
        rw [hxy] at d1 d2
        exact ⟨x, by rw [ed]; exact ex, d1, d2⟩
  have zero := int_zero log
  refine ⟨_, _, _, e1, fun w hw => ?_, fun w hw hnew hex hall => ?_⟩
  · obtain ⟨it, hit, rfl⟩ := List.mem_map.1 hw
    by_cases hm : txt s it ∈ s.dict.seqs
    · exact Or.inl hm
    · obtain ⟨m1, x, ex, x1, _⟩ := hitem it (List.mem_append_left _ hit) hm
      refine Or.inr ⟨_, m1, fun hrare => ?_⟩
      have h5 := e5 it hit
      have : (Double.env log srt ord (Gamma.gammas (Double.math log sqrt pow) (fuel + 1))).ops.lt it.score ((Double.ops log).ofInt 0) = true := by
        show (Double.ops log).lt it.score ((Double.ops log).ofInt 0) = true
        rw [lt_fin ex zero]
        simpa using x1 hrare
      rw [show (Double.env log srt ord (Gamma.gammas (Double.math log sqrt pow) (fuel + 1))).ops.ofInt 0 = (Double.ops log).ofInt 0 from rfl, this] at h5
      cases h5
  · obtain ⟨k, hk, u, v, hu, hv, rfl⟩ := hex
    have hword : ∀ i u, IsWord s.dict.seqs i u → u = wordAt s i := by
      rintro i u ⟨_, h2⟩
      simp [wordAt, h2]
    have hmem : u ++ v ∈ (taken ++ rest).map (txt s) := by
      rw [hword _ _ hu, hword _ _ hv]
      have hkp : pairGet s.pairs k ≠ 0 := by
        rw [hpc]
        have := List.count_pos_iff.2 hk
        omega
      exact e9 _ (pairGet_pos_mem hkp)
    obtain ⟨it, hit, he⟩ := List.mem_map.1 hmem
    rw [← he] at hw hnew hall
    obtain ⟨m1, x, ex, _, x2⟩ := hitem it hit hnew
    have hfr := hall (it.first, it.second) m1
    dsimp only at hfr
    have hx0 := x2 hfr
    have hrest : it ∈ rest := by
      rcases List.mem_append.1 hit with h' | h'
      · exact absurd (List.mem_map_of_mem h') hw
      · exact h'
    rw [List.length_map]
    rcases e6 with h' | h' | ⟨hd, tl, h', hneg⟩
    · simp [h'] at hrest
    · omega
    · exfalso
      have hneg : (Double.ops log).lt hd.score ((Double.ops log).ofInt 0) = true := hneg
      have hhd : ∃ y, Double.val hd.score = .fin y := by
        rcases (e7 hd (List.mem_append_right _ (by simp [h']))).2 with ⟨n, _, rfl⟩ | ⟨_, g2, _⟩
        · exact ⟨_, val_max log⟩
        · by_cases hm : txt s hd ∈ s.dict.seqs
          · exact fin_of_isFinite (by obtain ⟨y, hy, _⟩ := g2; exact isFinite_of_fin hy)
          · obtain ⟨_, y, ey, _⟩ := hitem hd (List.mem_append_right _ (by simp [h'])) hm
            exact ⟨y, ey⟩
      obtain ⟨y, ey⟩ := hhd
      rw [lt_fin ey zero] at hneg
      have hy : y < 0 := by simpa using hneg
      rw [h'] at hrest
      rcases List.mem_cons.1 hrest with rfl | htl
      · rw [ex] at ey
        cases ey
        linarith
      · have hpw := (List.pairwise_append.1 e2).2.1
        rw [h'] at hpw
        have h2 : (Double.ops log).lt (Double.opposite it.score) (Double.opposite hd.score) = false := (List.pairwise_cons.1 hpw).1 it htl
        rw [lt_fin (x := -x) (y := -y) (by rw [val_opposite, ex]; rfl) (by rw [val_opposite, ey]; rfl)] at h2
        have : ¬ -x < -y := by simpa using h2
        linarith

/-- C103: there are logarithms that do what is asked. -/
theorem C103_logarithms_exist : LogSign roughLog := by
  intro d x hx h0
  have hv : roughLog d = Double.rounded false ((x - 1) / (100 * (x + 1))) := by
    unfold roughLog
    rw [hx]
    simp [h0]
  have hp : 0 < 100 * (x + 1) := by linarith
  have hb : |(x - 1) / (100 * (x + 1))| ≤ 2 ^ 0 := by
    rw [abs_le, le_div_iff₀ hp, div_le_iff₀ hp]
    constructor <;> norm_num <;> linarith
  refine ⟨_, by rw [hv]; exact val_rounded _ (small (by omega) hb), fun h1 => ?_, fun h1 => rnd_nonneg (div_nonneg (by linarith) hp.le)⟩
  have hle := below_one hx h0 h1
  have hz : (1 - x) / 200 ≤ (1 - x) / (100 * (x + 1)) := div_le_div_of_nonneg_left (by linarith) hp (by linarith)
  have hz1 : (1 : ℚ) / 2 ^ 70 ≤ (1 - x) / (100 * (x + 1)) := by
    refine le_trans ?_ hz
    norm_num at hle ⊢
    linarith
  have hz2 : (1 - x) / (100 * (x + 1)) ≤ 2 ^ 70 := by
    rw [div_le_iff₀ hp]
    norm_num
    linarith
  have hr := (rnd_slack (n := 70) (by omega) hz1 hz2).1
  have hneg : (x - 1) / (100 * (x + 1)) = -((1 - x) / (100 * (x + 1))) := by ring
  rw [hneg, rnd_neg]
  unfold slack at hr
  norm_num at hr ⊢
  linarith

/-- A rare pair, a frequent one, and two in between, one on either side. -/
example : let E := Double.env roughLog (insSort (Double.ops roughLog)) (fun p => p) (Gamma.gammas (Double.math roughLog plainSqrt (fun d _ => d)) 1)
    let negative := fun r : M Double => r.toOption.map fun d => E.ops.lt d (E.ops.ofInt 0)
    negative (StatDict.pairScore E 1 1 30 30 10) = some true ∧ negative (StatDict.pairScore E 100 100 0 0 100) = some false ∧
      negative (StatDict.pairScore E 5 5 2 3 20) = some false ∧ negative (StatDict.pairScore E 5 5 10 10 10) = some true := by decide +kernel

example : Rare [1, 30, 30, 10] ∧ Frequent [100, 0, 0, 100] ∧ ¬ Rare [5, 2, 3, 20] ∧ ¬ Frequent [5, 2, 3, 20] := by
  unfold Rare Frequent
  decide

set_option synthInstance.maxSize 2000 in
/-- An expansion that leaves out the rare pair of twice the letter 0, although there are places left. -/
example : let E := Double.env roughLog (insSort (Double.ops roughLog)) (fun p => p) (Gamma.gammas (Double.math roughLog plainSqrt (fun d _ => d)) 1)
    (do
      let (s, outs) ← parseAll E.ops (StatDict.new (Double.rounded false (1 / 500))) [[0, 1, 0, 1, 0, 1, 0, 0, 1, 0, 1, 0, 1, 0, 1], [2, 2, 2, 2]]
      let (words, freqs, _) ← s.expand E 10
      pure (s.dict.seqs, words, freqs, contingency outs 0 0, contingency outs 0 1) : M (List IntSeq × List IntSeq × List Int × List Int × List Int)) =
    .ok ([[0], [1], [2]], [[0], [1], [2], [1, 0], [0, 1], [2, 2]], [8, 7, 4, 6, 7, 3], [1, 7, 6, 3], [7, 1, 0, 9]) := by decide +kernel

example : Rare [1, 7, 6, 3] := by
  unfold Rare
  decide

end VGram.Props
