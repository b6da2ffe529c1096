import Verif.Proofs.Patience
import Verif.Props.Gain
import Verif.Props.Train

/-!
# How long training waits for the next rebuild (C71), and how many words an expansion may add (C70), in exact real arithmetic
-/

namespace VGram.Props

open VGram Spec

variable {srt : List (StatItem (Ext ℝ)) → List (StatItem (Ext ℝ))} {ord : PairMap → PairMap} {gam : List (Ext ℝ) → Nat → ℝ}

/-! ## C71 -/

/-- What is written down about one call: it read something or not, and it rebuilt the dictionary or not. -/
inductive Notes (E : Env (Ext ℝ)) (b : Builder (Ext ℝ)) (l : Log) : Act → Builder (Ext ℝ) → Log → Prop
  | read {seq : IntSeq} {s s' : StatDict (Ext ℝ)} {ids : List Int} {c : Int} {b' : Builder (Ext ℝ)} (h1 : b.cur = .ok s)
      (h2 : s.parse E.ops seq [] = .ok (s', ids, c)) (h3 : act E b (.accept seq) = .ok b') (h4 : b'.stats.length = b.stats.length) :
      Notes E b l (.accept seq) b' (l.read seq ids)
  | readRebuilt {seq : IntSeq} {s s' : StatDict (Ext ℝ)} {ids : List Int} {c : Int} {b' : Builder (Ext ℝ)} (h1 : b.cur = .ok s)
      (h2 : s.parse E.ops seq [] = .ok (s', ids, c)) (h3 : act E b (.accept seq) = .ok b') (h4 : b'.stats.length = b.stats.length + 1) :
      Notes E b l (.accept seq) b' ((l.read seq ids).rebuilt s'.dict.seqs.length)
  | quiet {a : Act} {b' : Builder (Ext ℝ)} (h1 : a = .update ∨ a = .freqs) (h2 : act E b a = .ok b')
      (h3 : b'.stats.length = b.stats.length) : Notes E b l a b' l
  | rebuilt {s : StatDict (Ext ℝ)} {b' : Builder (Ext ℝ)} (h1 : b.cur = .ok s) (h2 : act E b .update = .ok b')
      (h3 : b'.stats.length = b.stats.length + 1) : Notes E b l .update b' (l.rebuilt s.dict.seqs.length)

/-- What is written down about a run. -/
inductive Noted (E : Env (Ext ℝ)) : Builder (Ext ℝ) → Log → List Act → Builder (Ext ℝ) → Log → Prop
  | nil {b : Builder (Ext ℝ)} {l : Log} : Noted E b l [] b l
  | cons {b b1 b2 : Builder (Ext ℝ)} {l l1 l2 : Log} {a : Act} {acts : List Act} (h1 : Notes E b l a b1 l1)
      (h2 : Noted E b1 l1 acts b2 l2) : Noted E b l (a :: acts) b2 l2

/-- The log agrees with the working dictionary and the members that steer the patience. -/
structure LogKept (b : Builder (Ext ℝ)) (l : Log) : Prop where
  steers : Steers b l.rates
  cur : ∃ (s : StatDict (Ext ℝ)) (q : ℝ), b.stats[b.current]? = some s ∧ (∀ i : Nat, s.freq (i : Int) = (l.ids.count (i : Int) : Int)) ∧
    s.power = (l.ids.length : Int) ∧ s.totalChars = (l.text.length : Int) ∧ s.minProb = .fin q ∧ 0 < q

theorem pos_of_ok {mp : Ext ℝ} {q : ℝ} (h1 : (Ext.probLaws Real.log).Ok mp) (h2 : (Ext.ops ℝ Real.log).lt (.fin q) mp = false) :
    ∃ y, mp = .fin y := by
  rcases h1 with rfl | h
  · simp [Ext.ops, Ext.lt] at h2
  · exact h

/-- The minimal probability stays positive. -/
theorem rebuild_pos (L : RealLaws srt ord gam) {b : Builder (Ext ℝ)} {s : StatDict (Ext ℝ)} (hh : Healthy s) {q : ℝ} (hq : s.minProb = .fin q) (h0 : 0 < q)
    {words : List IntSeq} {freqs : List Int} {mp : Ext ℝ} (h : b.rebuild (exactEnv srt ord gam) s = .ok (words, freqs, mp)) :
    ∃ q', mp = .fin q' ∧ 0 < q' := by
  have hok : (Ext.probLaws Real.log).Ok s.minProb := Or.inr ⟨q, hq⟩
  unfold Builder.rebuild at h
  split at h
  · obtain ⟨taken, rest, e1, _, _, _, _, _, e7, _⟩ := expand_shape L.env hh.expOk (b.expandSlots (exactEnv srt ord gam).ops s)
    rw [e1] at h
    obtain rfl : expMin (exactEnv srt ord gam).ops (pairSum (fun _ => true) s.pairs) taken s.minProb = mp := by
      simp only [Except.ok.injEq, Prod.mk.injEq] at h
      exact h.2.2
    have hnew : ∀ it ∈ taken, 0 ≤ it.first → 0 < it.count ∧ 1 ≤ pairSum (fun _ => true) s.pairs := by
      intro it hit h0
      rcases (e7 it (List.mem_append_left _ hit)).2 with ⟨n, _, rfl⟩ | ⟨_, _, g3, _⟩
      · simp [knownItem] at h0
      · have hp := hh.ppos _ g3
        refine ⟨hp, ?_⟩
        have : ∀ (P : PairMap), (∀ e ∈ P, 0 < e.2) → ∀ e ∈ P, e.2 ≤ pairSum (fun _ => true) P := by
          intro P
          induction P with
          | nil => intro _ e he; simp at he
          | cons x P ih =>
            intro hP e he
            have hx := hP x (by simp)
            have hn : 0 ≤ pairSum (fun _ => true) P := by
              clear ih he
              have hP' : ∀ e ∈ P, 0 < e.2 := fun e he => hP e (by simp [he])
              clear hP hx
              induction P with
              | nil => simp [pairSum]
              | cons y P ih =>
                have h1 := ih fun e he => hP' e (by simp [he])
                have h2 := hP' y (by simp)
                simp only [pairSum] at h1 ⊢
                simp at h1 ⊢
                omega
            have hc : pairSum (fun _ => true) (x :: P) = x.2 + pairSum (fun _ => true) P := by simp [pairSum]
            rw [hc]
            rcases List.mem_cons.1 he with rfl | he
            · omega
            · have := ih (fun e he => hP e (by simp [he])) e he
              omega
        have := this s.pairs hh.ppos _ g3
        dsimp only at this hp
        omega
    by_cases hacc : 1 ≤ pairSum (fun _ => true) s.pairs
    · obtain ⟨a1, a2, _, a4⟩ := expMin_spec (Ext.probLaws Real.log) hacc taken s.minProb hok fun it hit h0 => (hnew it hit h0).1.le
      rw [hq] at a2
      obtain ⟨y, hy⟩ := pos_of_ok a1 (by rw [← hq] at a2 ⊢; exact a2)
      refine ⟨y, hy, ?_⟩
      rcases a4 with e | ⟨it, hit, h1, e⟩
      · have : (.fin y : Ext ℝ) = .fin q := by rw [← hy, ← hq]; exact e
        cases this
        exact h0
      · have hc := (hnew it hit h1).1
        have hy' : (.fin y : Ext ℝ) = (Ext.ops ℝ Real.log).div ((Ext.ops ℝ Real.log).ofInt it.count) ((Ext.ops ℝ Real.log).ofInt (pairSum (fun _ => true) s.pairs)) := by
          rw [← hy]; exact e
        have hne : ((pairSum (fun _ => true) s.pairs : Int) : ℝ) ≠ 0 := by
          have : (0 : ℝ) < ((pairSum (fun _ => true) s.pairs : Int) : ℝ) := by exact_mod_cast hacc
          exact this.ne'
        simp only [Ext.ops, Ext.div, hne, if_false, Ext.fin.injEq] at hy'
        rw [hy']
        have h1 : (0 : ℝ) < (it.count : ℝ) := by exact_mod_cast hc
        have h2 : (0 : ℝ) < ((pairSum (fun _ => true) s.pairs : Int) : ℝ) := by exact_mod_cast hacc
        positivity
    · have hno : ∀ it ∈ taken, it.first < 0 := by
        intro it hit
        by_contra hc
        exact hacc (hnew it hit (by omega)).2
      have : ∀ (taken : List (StatItem (Ext ℝ))) (mp : Ext ℝ), (∀ it ∈ taken, it.first < 0) →
          expMin (exactEnv srt ord gam).ops (pairSum (fun _ => true) s.pairs) taken mp = mp := by
        intro taken
        induction taken with
        | nil => intro mp _; rfl
        | cons it taken ih =>
          intro mp hn
          have h1 := hn it (by simp)
          have h2 := ih mp fun i hi => hn i (by simp [hi])
          unfold expMin at h2 ⊢
          rw [List.foldl_cons, if_neg (by omega)]
          exact h2
      rw [this taken _ hno]
      exact ⟨q, hq, h0⟩
  · obtain ⟨alt, kept, rest, m, r1, r2, _, _, r5, _⟩ := reduce_shape L.env (Ext.scoreLaws Real.log) hh (b.size - (b.symbAlphabet.length : Int))
    rw [r1] at h
    obtain rfl : m = mp := by
      simp only [Except.ok.injEq, Prod.mk.injEq] at h
      exact h.2.2
    have hinv := (Ext.probLaws Real.log).inv (s.size : Int) (by omega)
    obtain ⟨a1, a2, a3⟩ := min_spec (Ext.probLaws Real.log) hinv hok
    have hstart : ∃ y, (Ext.ops ℝ Real.log).min ((Ext.ops ℝ Real.log).div ((Ext.ops ℝ Real.log).ofInt 1) ((Ext.ops ℝ Real.log).ofInt (s.size : Int))) s.minProb = .fin y ∧ 0 < y := by
      rw [hq] at a3
      obtain ⟨y, hy⟩ := pos_of_ok a1 (by rw [← hq] at a3 ⊢; exact a3)
      refine ⟨y, hy, ?_⟩
      rcases min_cases (Ext.ops ℝ Real.log) ((Ext.ops ℝ Real.log).div ((Ext.ops ℝ Real.log).ofInt 1) ((Ext.ops ℝ Real.log).ofInt (s.size : Int))) s.minProb with e | e
      · rw [hy] at e
        by_cases hz : ((s.size : Int) : ℝ) = 0
        · simp only [Ext.ops, Ext.div, hz, if_true, Int.cast_one, zero_lt_one] at e
          cases e
        · simp only [Ext.ops, Ext.div, hz, if_false, Ext.fin.injEq] at e
          rw [e]
          have : (0 : ℝ) ≤ ((s.size : Int) : ℝ) := by positivity
          have : (0 : ℝ) < ((s.size : Int) : ℝ) := lt_of_le_of_ne this (Ne.symm hz)
          simp only [Int.cast_one]
          positivity
      · rw [hy, hq] at e
        cases e
        exact h0
    obtain ⟨y, hy, hy0⟩ := hstart
    have hcount : ∀ it ∈ kept, 0 ≤ it.count ∧ 0 < s.size := by
      intro it hit
      obtain ⟨n, w, hw, _, _, h3, _⟩ := (r5 it).1 (List.mem_append_left _ hit)
      refine ⟨?_, ?_⟩
      · rw [h3, freq_nat]
        by_cases hn : n < s.symbolFreqs.length
        · exact hh.inv.nonneg _ (fq_mem hn)
        · rw [fq_of_le (by omega)]
      · have := (List.getElem?_eq_some_iff.1 hw).1
        simp only [StatDict.size, IntDict.size]
        omega
    have r2' : s.reduceLoop (Ext.ops ℝ Real.log) (sumI (kept.map fun it => it.count)) kept
        ((Ext.ops ℝ Real.log).min ((Ext.ops ℝ Real.log).div ((Ext.ops ℝ Real.log).ofInt 1) ((Ext.ops ℝ Real.log).ofInt (s.size : Int))) s.minProb) =
        .ok (kept.map fun it => wordAt s it.second, kept.map (·.count), m) := r2
    by_cases hk : kept = []
    · subst hk
      cases r2'
      exact ⟨y, hy, hy0⟩
    · have hsum : 0 ≤ sumI (kept.map (·.count)) := by
        rw [sumI_eq]
        refine List.sum_nonneg fun c hc => ?_
        obtain ⟨i, hi, rfl⟩ := List.mem_map.1 hc
        exact (hcount i hi).1
      obtain ⟨it0, hit0⟩ := List.exists_mem_of_ne_nil _ hk
      have hsz := (hcount it0 hit0).2
      obtain ⟨c1, c2, _, c4⟩ := reduceLoop_min_exact (Ext.probLaws Real.log) (s := s) (power := sumI (kept.map fun it => it.count)) (by omega) kept _ _ a1
        (fun it hit => (hcount it hit).1) r2'
      dsimp only at c1 c2 c4
      rw [hy] at c2 c4
      obtain ⟨z, rfl⟩ := pos_of_ok c1 c2
      refine ⟨z, rfl, ?_⟩
      rcases c4 with e | ⟨it, hit, _, e⟩
      · cases e; exact hy0
      · have h2 : (0 : ℝ) < ((sumI (kept.map (·.count)) + (s.size : Int) : Int) : ℝ) := by
          have : 0 < sumI (kept.map (·.count)) + (s.size : Int) := by omega
          exact_mod_cast this
        have h1 : (0 : ℝ) < ((it.count + 1 : Int) : ℝ) := by
          have := (hcount it hit).1
          have : 0 < it.count + 1 := by omega
          exact_mod_cast this
        simp only [Ext.ops, Ext.div, h2.ne', if_false, Ext.fin.injEq] at e
        rw [e]
        positivity

theorem update_kept (L : RealLaws srt ord gam) {b : Builder (Ext ℝ)} {n : Nat} (t : TInv b n) {l : Log} (k : LogKept b l) {b' : Builder (Ext ℝ)}
    (h : b.update (exactEnv srt ord gam) = .ok b') {s : StatDict (Ext ℝ)} (hs : b.stats[b.current]? = some s) :
    (b.ready realOps s = false ∧ b' = b) ∨
    (b.ready realOps s = true ∧ b'.stats.length = b.stats.length + 1 ∧ LogKept b' (l.rebuilt s.dict.seqs.length)) := by
  obtain ⟨s1, hs1, hh, _⟩ := t.cur
  obtain ⟨s2, q, hs2, k1, k2, k3, k4, k5⟩ := k.cur
  rw [hs] at hs1 hs2
  cases hs1
  cases hs2
  unfold Builder.update at h
  rw [cur_eq hs, ok_bind] at h
  dsimp only at h
  have hO : (exactEnv srt ord gam).ops = realOps := rfl
  rw [hO] at h
  split at h
  · next hr =>
    cases h
    exact Or.inl ⟨by simpa using hr, rfl⟩
  · next hr =>
    refine Or.inr ⟨by simpa using hr, ?_⟩
    obtain ⟨rate, h1, hrate⟩ := rate_real hh k1 k3
    rw [show realOps = Ext.ops ℝ Real.log from rfl, h1, ok_bind] at h
    obtain ⟨⟨words, freqs, mp⟩, hw, h⟩ := bind_ok.1 h
    obtain ⟨s', hs', h⟩ := bind_ok.1 h
    obtain ⟨fresh, hf, h⟩ := bind_ok.1 h
    simp only [pure_M, Except.ok.injEq] at h
    obtain ⟨q', e1, e2⟩ := rebuild_pos L hh k4 k5 hw
    have hnew : (∀ i : Nat, s'.freq (i : Int) = 0) ∧ s'.power = 0 ∧ s'.totalChars = 0 ∧ s'.minProb = mp := by
      unfold StatDict.ofSeqs at hs'
      obtain ⟨d, _, hs'⟩ := bind_ok.1 hs'
      cases hs'
      refine ⟨fun i => ?_, rfl, rfl, rfl⟩
      rw [freq_nat, fq, List.getElem?_replicate]
      split <;> rfl
    obtain ⟨n1, n2, n3, n4⟩ := hnew
    refine ⟨by rw [← h]; simp, ⟨?_, ⟨s', q', by rw [← h]; simp, fun i => by rw [n1]; simp [Log.rebuilt], by rw [n2]; simp [Log.rebuilt], by rw [n3]; simp [Log.rebuilt], by rw [n4, e1], e2⟩⟩⟩
    exact k.steers.note hrate (by rw [← h]) (by rw [← h]) (by rw [← h])

/-- The reading half of an accept call. -/
theorem read_kept {b : Builder (Ext ℝ)} {n m : Nat} (t : TInv b n) {l : Log} (k : LogKept b l) {seq : IntSeq} (ha : Arrive n seq m) :
    ∃ s s' ids, b.stats[b.current]? = some s ∧ s.parse realOps seq [] = .ok (s', ids, (ids.length : Int)) ∧
      TInv { b with stats := b.stats.set b.current s' } m ∧ LogKept { b with stats := b.stats.set b.current s' } (l.read seq ids) ∧
      ({ b with stats := b.stats.set b.current s' } : Builder (Ext ℝ)).stats[b.current]? = some s' ∧ s'.minProb = s.minProb := by
  obtain ⟨s, s', ids, h1, h2, h3, _⟩ := accept_parse (E := ⟨realOps, fun l => l, fun p => p, fun _ _ => .nan⟩) (Ext.scoreLaws Real.log) t ha
  obtain ⟨s2, q, hs2, k1, k2, k3, k4, k5⟩ := k.cur
  rw [h1] at hs2
  cases hs2
  obtain ⟨s1, hs1, hh, _⟩ := t.cur
  rw [h1] at hs1
  cases hs1
  obtain ⟨s3, ids3, p1, _, _, _, p5, _, p7, _, p9, _, p11, _⟩ := statParse_spec (Ext.scoreLaws Real.log) hh.inv seq [] (by simp)
  rw [show realOps = Ext.ops ℝ Real.log from rfl] at h2 ⊢
  rw [h2] at p1
  simp only [List.nil_append, Except.ok.injEq, Prod.mk.injEq] at p1 p5 p7
  obtain ⟨rfl, rfl, _⟩ := p1
  have hlt := (List.getElem?_eq_some_iff.1 h1).1
  refine ⟨s, s', ids, h1, h2, h3, ⟨⟨k.steers.pat, k.steers.prob⟩, ⟨s', q, by simp [hlt], fun i => ?_, ?_, ?_, by rw [p11, k4], k5⟩⟩, by simp [hlt], p11⟩
  · rw [freq_nat, p5, ← freq_nat, k1]
    simp [Log.read]
  · rw [p7, k2]
    simp [Log.read]
  · rw [p9, k3]
    simp [Log.read]

theorem act_kept (L : RealLaws srt ord gam) {b : Builder (Ext ℝ)} {n m : Nat} (t : TInv b n) {l : Log} (k : LogKept b l) {a : Act}
    (ha : ActsArrive n [a] m) (hm : (m : Int) ≤ b.size + 1) :
    ∃ b' l', Notes (exactEnv srt ord gam) b l a b' l' ∧ act (exactEnv srt ord gam) b a = .ok b' ∧ TInv b' m ∧ LogKept b' l' ∧ b'.size = b.size := by
  cases ha with
  | accept h1 h2 =>
    cases h2
    obtain ⟨b', c1, c2, c3⟩ := accept_tinv L.env (Ext.scoreLaws Real.log) t h1 hm
    obtain ⟨s, s', ids, e1, e2, e3, e4, e5, _⟩ := read_kept t k h1
    have hact : act (exactEnv srt ord gam) b (.accept _) = .ok b' := c1
    rcases ready_update e1 e2 c1 with rfl | hu
    · exact ⟨_, _, .read (cur_eq e1) e2 hact (by simp), hact, c2, e4, c3⟩
    · rcases update_kept L e3 e4 hu e5 with ⟨_, rfl⟩ | ⟨_, g2, g3⟩
      · exact ⟨_, _, .read (cur_eq e1) e2 hact (by simp), hact, c2, e4, c3⟩
      · exact ⟨_, _, .readRebuilt (cur_eq e1) e2 hact (by simpa using g2), hact, c2, g3, c3⟩
  | update h2 =>
    cases h2
    obtain ⟨b', c1, c2, c3, _⟩ := update_tinv L.env (Ext.scoreLaws Real.log) t hm
    obtain ⟨s, hs, _⟩ := t.cur
    have hact : act (exactEnv srt ord gam) b .update = .ok b' := c1
    rcases update_kept L t k c1 hs with ⟨_, rfl⟩ | ⟨_, g2, g3⟩
    · exact ⟨_, _, .quiet (Or.inl rfl) hact rfl, hact, c2, k, c3⟩
    · exact ⟨_, _, .rebuilt (cur_eq hs) hact g2, hact, c2, g3, c3⟩
  | freqs h2 =>
    cases h2
    obtain ⟨s, hs, a1, a2⟩ := resultFreqs_tinv t []
    obtain ⟨b', hb', hact⟩ : ∃ b', b' = { b with stats := b.stats.set b.resultIdx { s with symbolFreqs := StatDict.padTo s.symbolFreqs s.size } } ∧
        act (exactEnv srt ord gam) b .freqs = .ok b' := ⟨_, rfl, by simp only [act, a1, ok_bind, pure_M]⟩
    subst hb'
    refine ⟨_, _, .quiet (Or.inr rfl) hact (by simp), hact, a2, ⟨⟨k.steers.pat, k.steers.prob⟩, ?_⟩, rfl⟩
    obtain ⟨s2, q, hs2, k1, k2, k3, k4, k5⟩ := k.cur
    by_cases he : b.resultIdx = b.current
    · rw [he, hs2] at hs
      cases hs
      have hlt := (List.getElem?_eq_some_iff.1 hs2).1
      refine ⟨{ s with symbolFreqs := StatDict.padTo s.symbolFreqs s.size }, q, by simp only; rw [he]; simp [hlt], fun i => ?_, k2, k3, k4, k5⟩
      rw [freq_nat]
      show fq (StatDict.padTo s.symbolFreqs s.size) i = _
      rw [fq_padTo, ← freq_nat, k1]
    · exact ⟨s2, q, by simp only; rw [List.getElem?_set_ne he]; exact hs2, k1, k2, k3, k4, k5⟩

theorem train_kept (L : RealLaws srt ord gam) : ∀ (acts : List Act) {b : Builder (Ext ℝ)} {n m : Nat} {l : Log}, TInv b n → LogKept b l →
    ActsArrive n acts m → (m : Int) ≤ b.size + 1 →
    ∃ b' l', Noted (exactEnv srt ord gam) b l acts b' l' ∧ train (exactEnv srt ord gam) b acts = .ok b' ∧ TInv b' m ∧ LogKept b' l' ∧ b'.size = b.size := by
  intro acts
  induction acts with
  | nil =>
    intro b n m l t k ha _
    cases ha
    exact ⟨b, l, .nil, rfl, t, k, rfl⟩
  | cons a acts ih =>
    intro b n m l t k ha hm
    have : ∃ j, ActsArrive n [a] j ∧ ActsArrive j acts m := by
      cases ha with
      | accept g1 h2 => exact ⟨_, .accept g1 .nil, h2⟩
      | update h2 => exact ⟨_, .update .nil, h2⟩
      | freqs h2 => exact ⟨_, .freqs .nil, h2⟩
    obtain ⟨j, j1, j2⟩ := this
    have := actsArrive_le j2
    obtain ⟨b1, l1, n1, a1, t1, k1, s1⟩ := act_kept L t k j1 (by omega)
    obtain ⟨b2, l2, n2, a2, t2, k2, s2⟩ := ih t1 k1 j2 (by omega)
    exact ⟨b2, l2, .cons n1 n2, by simp only [train, a1, ok_bind, a2], t2, k2, s2.trans s1⟩

theorem ready_iff {b : Builder (Ext ℝ)} {l : Log} (k : LogKept b l) {s : StatDict (Ext ℝ)} (hs : b.stats[b.current]? = some s) {q : ℝ}
    (hq : s.minProb = .fin q) : b.ready realOps s = true ↔
      (-Real.log (1 / 10 * (4 / 5) ^ stalls l.rates) / q < (l.ids.length : ℝ) ∨ 20000000 < l.ids.length) := by
  obtain ⟨s2, q2, hs2, _, k2, _, k4, k5⟩ := k.cur
  rw [hs] at hs2
  cases hs2
  rw [hq] at k4
  cases k4
  have hp : (0 : ℝ) < 1 / 10 * (4 / 5) ^ stalls l.rates := by positivity
  have he := enough_real hp k5.ne' hq
  have hpr := k.steers.prob
  simp only [Builder.ready, hpr, realOps, he, Bool.or_eq_true, decide_eq_true_eq, k2, Int.cast_natCast]
  refine or_congr Iff.rfl ?_
  omega

/-- C71: training never gets stuck waiting, and how long it waits is determined by what it has achieved.  After any history of
calls, with `l` the notes taken along it and `q > 0` the minimal probability of the working dictionary, the next accept call
rebuilds the dictionary exactly if the ids emitted since the last rebuild (its own included) are more than
`-log(0.1 * 0.8 ^ k) / q` or more than 20 million, where `k` counts the rebuilds that, like the three before them, did not
reach a new best code length per symbol.  An update call does so according to the ids emitted so far. -/
theorem C71_patience (L : RealLaws srt ord gam) (b0 : Builder (Ext ℝ)) (n m : Nat) (h0 : Start realOps b0 n)
    (hq : ∃ s q, b0.cur = .ok s ∧ s.minProb = .fin q ∧ 0 < q) (acts : List Act) (ha : ActsArrive n acts m) (hsize : (m : Int) ≤ b0.size + 1) :
    ∃ b l s q, train (exactEnv srt ord gam) b0 acts = .ok b ∧ Noted (exactEnv srt ord gam) b0 ⟨[], [], []⟩ acts b l ∧
      b.cur = .ok s ∧ s.minProb = .fin q ∧ 0 < q ∧
      (∀ seq k, Arrive m seq k → (k : Int) ≤ b0.size + 1 → ∃ b' s' ids c, s.parse realOps seq [] = .ok (s', ids, c) ∧
        b.accept (exactEnv srt ord gam) seq = .ok b' ∧
        b'.stats.length = b.stats.length + (if -Real.log (1 / 10 * (4 / 5) ^ stalls l.rates) / q < ((l.ids ++ ids).length : ℝ) ∨
          20000000 < (l.ids ++ ids).length then 1 else 0)) ∧
      ∃ b', b.update (exactEnv srt ord gam) = .ok b' ∧
        b'.stats.length = b.stats.length + (if -Real.log (1 / 10 * (4 / 5) ^ stalls l.rates) / q < (l.ids.length : ℝ) ∨
          20000000 < l.ids.length then 1 else 0) := by
  have t0 := h0.tinv
  have k0 : LogKept b0 ⟨[], [], []⟩ := by
    obtain ⟨s, q, hs, hq, hq0⟩ := hq
    have hlit : realOps.lit 1 1 = .fin (1 / 10 * (4 / 5) ^ stalls []) := by
      simp [realOps, Ext.ops, stalls]
    have hone : realOps.ofInt 1 = .fin 1 := by simp [realOps, Ext.ops]
    have hst : b0.bestRate = realOps.ofInt 1 ∧ b0.noRate = 0 ∧ b0.probFound = realOps.lit 1 1 ∧
        ((∀ i : Nat, s.freq (i : Int) = 0) ∧ s.power = 0 ∧ s.totalChars = 0) := by
      have hofs : ∀ {words : List IntSeq} {mp : Ext ℝ} {fr : Option (List Int)} {s : StatDict (Ext ℝ)}, StatDict.ofSeqs words mp fr = .ok s →
          (∀ i : Nat, s.freq (i : Int) = 0) ∧ s.power = 0 ∧ s.totalChars = 0 := by
        intro words mp fr s hs'
        unfold StatDict.ofSeqs at hs'
        obtain ⟨d, _, hs'⟩ := bind_ok.1 hs'
        cases fr <;> cases hs' <;> refine ⟨fun i => ?_, rfl, rfl⟩ <;> rw [freq_nat, fq, List.getElem?_replicate] <;> split <;> rfl
      cases h0 with
      | fresh h =>
        cases hs
        exact ⟨rfl, rfl, rfl, fun i => by simp [freq_nat, StatDict.new, fq], rfl, rfl⟩
      | alphabet h1 h2 h3 h4 =>
        obtain ⟨s', e1, rfl⟩ := ofAlphabet_one h4
        cases hs
        exact ⟨rfl, rfl, rfl, hofs e1⟩
      | saved h1 h2 h3 h4 h5 =>
        obtain ⟨s', e1, h5⟩ := bind_ok.1 h5
        cases h5
        cases hs
        exact ⟨rfl, rfl, rfl, hofs e1⟩
    obtain ⟨e1, e2, e3, e4, e5, e6⟩ := hst
    exact ⟨⟨⟨1, 0, e1.trans hone, e2, Pat.nil⟩, e3.trans hlit⟩, ⟨s, q, rd_nat_ok.1 hs, fun i => by rw [e4]; simp, e5, e6, hq, hq0⟩⟩
  obtain ⟨b, l, n1, a1, t1, k1, s1⟩ := train_kept L acts t0 k0 ha hsize
  obtain ⟨s, q, hs, _, _, _, hq1, hq2⟩ := k1.cur
  refine ⟨b, l, s, q, a1, n1, cur_eq hs, hq1, hq2, fun seq k hk hk' => ?_, ?_⟩
  · obtain ⟨b', c1, c2, c3⟩ := accept_tinv L.env (Ext.scoreLaws Real.log) t1 hk (by rw [s1]; exact hk')
    obtain ⟨s2, s', ids, e1, e2, e3, e4, e5, e6⟩ := read_kept t1 k1 hk
    rw [hs] at e1
    cases e1
    refine ⟨b', s', ids, _, e2, c1, ?_⟩
    have hri : _ ↔ (-Real.log (1 / 10 * (4 / 5) ^ stalls l.rates) / q < ((l.ids ++ ids).length : ℝ) ∨ 20000000 < (l.ids ++ ids).length) :=
      ready_iff e4 e5 (e6.trans hq1)
    simp only [Builder.accept, cur_eq hs, ok_bind] at c1
    rw [show (exactEnv srt ord gam).ops = realOps from rfl, e2, ok_bind] at c1
    dsimp only at c1
    split at c1
    · next hr =>
      rw [if_pos (hri.1 hr)]
      rcases update_kept L e3 e4 c1 e5 with ⟨g, _⟩ | ⟨_, g2, _⟩
      · rw [g] at hr; cases hr
      · simpa using g2
    · next hr =>
      cases c1
      rw [if_neg fun hc => hr (hri.2 hc)]
      simp
  · obtain ⟨b', c1, c2, c3, _⟩ := update_tinv L.env (Ext.scoreLaws Real.log) t1 (by rw [s1]; exact hsize)
    refine ⟨b', c1, ?_⟩
    have hri := ready_iff k1 hs hq1
    rcases update_kept L t1 k1 c1 hs with ⟨g, rfl⟩ | ⟨g, g2, _⟩
    · rw [if_neg fun hc => by rw [hri.2 hc] at g; cases g]
      rfl
    · rw [if_pos (hri.1 g), g2]

/-- A fresh builder waits for `-log 0.1 / 0.002`, about 1151 ids. -/
example : ∃ s q, (Builder.new realOps 100).cur = .ok s ∧ s.minProb = .fin q ∧ 0 < q ∧ q = 1 / 500 :=
  ⟨_, 1 / 500, rfl, by simp [StatDict.new, Builder.kMaxMinProbability, realOps, Ext.ops]; norm_num, by norm_num, rfl⟩

/-- Five rebuilds with bytes per symbol 1/2, 3/5, 3/5, 3/5, 3/5: the last one is stalled. -/
example : stalls [some (1 / 2), some (3 / 5), some (3 / 5), some (3 / 5), some (3 / 5)] = 1 := by
  have hrec : ∀ i, Record [some (1 / 2), some (3 / 5), some (3 / 5), some (3 / 5), some (3 / 5)] i ↔ i = 0 := by
    intro i
    constructor
    · rintro ⟨r, h1, h2, h3⟩
      by_contra hi
      have hlt := (List.getElem?_eq_some_iff.1 h1).1
      have := h3 0 (by omega) (1 / 2) (by simp)
      simp only [List.length_cons, List.length_nil] at hlt
      obtain rfl | rfl | rfl | rfl : i = 1 ∨ i = 2 ∨ i = 3 ∨ i = 4 := by omega
      all_goals
        simp at h1
        rw [← h1] at this
        norm_num at this
    · rintro rfl
      exact ⟨1 / 2, by simp, by norm_num, by intro j hj; omega⟩
  have hst : ∀ i, Stalled [some (1 / 2), some (3 / 5), some (3 / 5), some (3 / 5), some (3 / 5)] i ↔ 4 ≤ i := by
    intro i
    simp only [Stalled, hrec]
    constructor
    · rintro ⟨h1, h2⟩
      have := h2 (i - 3) (by omega) (by omega)
      omega
    · intro h
      exact ⟨by omega, fun j _ _ => by omega⟩
  have : (Finset.range 5).filter (fun i => 4 ≤ i) = {4} := by decide
  unfold stalls
  simp only [hst]
  simpa using congrArg Finset.card this

/-! ## C70 -/

theorem expandSlots_exact {K : Type} [Field K] [LinearOrder K] [IsStrictOrderedRing K] [FloorRing K] (lg : K → K) (b : Builder (Ext K)) (s : StatDict (Ext K)) :
    b.expandSlots (Ext.ops K lg) s = places b.size b.symbAlphabet.length s.dict.seqs.length := by
  have hm : (Ext.ops K lg).mul ((Ext.ops K lg).ofInt (s.size : Int)) ((Ext.ops K lg).lit 13 1) =
      .fin ((s.dict.seqs.length : K) * (13 / 10)) := by
    simp [Ext.ops, Ext.mul, StatDict.size, IntDict.size]
  unfold Builder.expandSlots places
  dsimp only
  rw [hm]
  have hlt : (Ext.ops K lg).lt (.fin ((s.dict.seqs.length : K) * (13 / 10))) ((Ext.ops K lg).ofInt 10) = true ↔
      13 * s.dict.seqs.length < 100 := by
    simp only [Ext.ops, Ext.lt, decide_eq_true_eq]
    rw [← Nat.cast_lt (α := K)]
    push_cast
    constructor <;> intro h <;> linarith
  by_cases hc : 13 * s.dict.seqs.length < 100
  · rw [if_pos (hlt.2 hc), if_pos hc]
  · rw [if_neg (fun h => hc (hlt.1 h)), if_neg hc]
    have h0 : (0 : K) ≤ (s.dict.seqs.length : K) * (13 / 10) := by positivity
    show (if (0 : K) ≤ (s.dict.seqs.length : K) * (13 / 10) then ⌊(s.dict.seqs.length : K) * (13 / 10)⌋ else _) = _
    rw [if_pos h0, Int.floor_eq_iff]
    have h1 : 10 * (13 * s.dict.seqs.length / 10) ≤ 13 * s.dict.seqs.length := Nat.mul_div_le _ _
    have h2 : 13 * s.dict.seqs.length < 10 * (13 * s.dict.seqs.length / 10) + 10 := by omega
    have h1' : ((10 * (13 * s.dict.seqs.length / 10) : Nat) : K) ≤ ((13 * s.dict.seqs.length : Nat) : K) := by exact_mod_cast h1
    have h2' : ((13 * s.dict.seqs.length : Nat) : K) < ((10 * (13 * s.dict.seqs.length / 10) + 10 : Nat) : K) := by exact_mod_cast h2
    simp only [Nat.cast_mul, Nat.cast_add, Nat.cast_ofNat] at h1' h2'
    constructor
    · rw [Int.cast_natCast]; linarith
    · rw [Int.cast_natCast]; linarith

/-- The places of a rebuild in any arithmetic that computes them correctly for dictionaries of the sizes `P`. -/
theorem rebuild_places {F : Type} {E : Env F} (L : EnvLaws E) (SL : ScoreLaws E.ops) {P : Nat → Prop}
    (hslots : ∀ (b : Builder F) (s : StatDict F), P s.dict.seqs.length → b.expandSlots E.ops s = places b.size b.symbAlphabet.length s.dict.seqs.length)
    (b0 b b' : Builder F) (n m k : Nat) (h0 : Start E.ops b0 n) (acts : List Act)
    (ha : ActsArrive n acts m) (hb : train E b0 acts = .ok b) (a : Act) (ha' : ActsArrive m [a] k)
    (hsize : (k : Int) ≤ b0.size + 1) (h : act E b a = .ok b') (hnew : b.stats.length < b'.stats.length) :
    ∃ s s' words freqs mp, Working E b s a ∧ StatDict.ofSeqs words mp (some freqs) = .ok s' ∧ b'.cur = .ok s' ∧ (P s.dict.seqs.length →
      if b.populate = true then
        s.expand E (places b0.size b.symbAlphabet.length s.dict.seqs.length) = .ok (words, freqs, mp) ∧
        (∀ w ∈ s.dict.seqs, w ∈ s'.dict.seqs) ∧
        (s'.dict.seqs.length : Int) ≤ s.dict.seqs.length + places b0.size b.symbAlphabet.length s.dict.seqs.length
      else s.reduce E (b0.size - b.symbAlphabet.length) = .ok (words, freqs, mp)) := by
  have hle := actsArrive_le ha'
  obtain ⟨b1, t1, t2, t3⟩ := train_tinv L SL ha h0.tinv (by omega)
  rw [hb] at t1
  cases t1
  have main : ∀ {c : Builder F} {j : Nat}, TInv c j → c.update E = .ok b' → c.size = b.size → c.populate = b.populate →
      c.symbAlphabet = b.symbAlphabet → c.stats.length = b.stats.length → ∃ s s' words freqs mp, c.cur = .ok s ∧
      StatDict.ofSeqs words mp (some freqs) = .ok s' ∧ b'.cur = .ok s' ∧ (P s.dict.seqs.length →
      if b.populate = true then
        s.expand E (places b0.size b.symbAlphabet.length s.dict.seqs.length) = .ok (words, freqs, mp) ∧
        (∀ w ∈ s.dict.seqs, w ∈ s'.dict.seqs) ∧
        (s'.dict.seqs.length : Int) ≤ s.dict.seqs.length + places b0.size b.symbAlphabet.length s.dict.seqs.length
      else s.reduce E (b0.size - b.symbAlphabet.length) = .ok (words, freqs, mp)) := by
    intro c j t hu e1 e2 e3 e4
    rcases update_cases hu with ⟨rfl, _⟩ | ⟨s, s', words, freqs, mp, _, u⟩
    · omega
    · refine ⟨s, s', words, freqs, mp, cur_eq u.cur, u.made, cur_eq (by rw [u.stats, u.current]; simp), fun hP => ?_⟩
      have hw := u.work
      unfold Builder.rebuild at hw
      rw [e2, hslots c s hP, e1, e3, t3] at hw
      split
      · next hp =>
        rw [if_pos hp] at hw
        obtain ⟨s2, c1, hh, _⟩ := t.cur
        rw [u.cur] at c1
        cases c1
        have hp2 := ofSeqs_words u.made
        obtain ⟨words', freqs', mp', f1, _, _, f4, _, f6, _⟩ :=
          expand_spec L hh.expOk (places b0.size b.symbAlphabet.length s.dict.seqs.length)
        rw [f1] at hw
        cases hw
        have hal := t.alpha
        rw [e1, e3, t3] at hal
        have h0 : 0 ≤ places b0.size b.symbAlphabet.length s.dict.seqs.length := by
          unfold places
          split <;> omega
        refine ⟨f1, fun w hw => hp2.mem_iff.2 (f4 h0 w hw), ?_⟩
        rw [hp2.length_eq]
        omega
      · next hp => rwa [if_neg hp] at hw
  cases ha' with
  | accept g1 g2 =>
    cases g2
    obtain ⟨s, s', ids, e1, e2, e3, _⟩ := accept_parse (E := E) SL t2 g1
    rcases ready_update e1 e2 h with rfl | hu
    · simp at hnew
    · obtain ⟨s1, s1', words, freqs, mp, m1, m2⟩ := main e3 hu rfl rfl rfl (by simp)
      have : s1 = s' := by
        rw [cur_eq (s := s') (by simp [(List.getElem?_eq_some_iff.1 e1).1])] at m1
        cases m1
        rfl
      subst this
      exact ⟨s1, s1', words, freqs, mp, ⟨s, _, cur_eq e1, e2⟩, m2⟩
  | update g2 =>
    cases g2
    exact main t2 h rfl rfl rfl rfl
  | freqs g2 =>
    cases g2
    obtain ⟨s, _, a1, _⟩ := resultFreqs_tinv t2 []
    simp only [act, a1, ok_bind, pure_M] at h
    cases h
    simp at hnew

/-- C70: every rebuild of a training run has a definite number of places to fill.  It takes the working dictionary with what
was counted in it (`Working`: after the parse of the accepted sequence) and, alternately, expands it with
`places` - a number determined by the sizes alone - keeping all its words and adding at most that many, or reduces it to the
requested size without the symbols already counted. -/
theorem C70_rebuild_places (L : RealLaws srt ord gam) (b0 b b' : Builder (Ext ℝ)) (n m k : Nat) (h0 : Start realOps b0 n) (acts : List Act)
    (ha : ActsArrive n acts m) (hb : train (exactEnv srt ord gam) b0 acts = .ok b) (a : Act) (ha' : ActsArrive m [a] k)
    (hsize : (k : Int) ≤ b0.size + 1) (h : act (exactEnv srt ord gam) b a = .ok b') (hnew : b.stats.length < b'.stats.length) :
    ∃ s s' words freqs mp, Working (exactEnv srt ord gam) b s a ∧ StatDict.ofSeqs words mp (some freqs) = .ok s' ∧ b'.cur = .ok s' ∧
      if b.populate = true then
        s.expand (exactEnv srt ord gam) (places b0.size b.symbAlphabet.length s.dict.seqs.length) = .ok (words, freqs, mp) ∧
        (∀ w ∈ s.dict.seqs, w ∈ s'.dict.seqs) ∧
        (s'.dict.seqs.length : Int) ≤ s.dict.seqs.length + places b0.size b.symbAlphabet.length s.dict.seqs.length
      else s.reduce (exactEnv srt ord gam) (b0.size - b.symbAlphabet.length) = .ok (words, freqs, mp) := by
  obtain ⟨s, s', words, freqs, mp, e1, e2, e3, e4⟩ := rebuild_places (P := fun _ => True) L.env (Ext.scoreLaws Real.log) (fun b s _ => expandSlots_exact Real.log b s) b0 b b' n m k h0 acts ha hb a ha'
    hsize h hnew
  exact ⟨s, s', words, freqs, mp, e1, e2, e3, e4 trivial⟩

/-- C70 in any ordered field with any logarithm. -/
theorem C70_places_exact {K : Type} [Field K] [LinearOrder K] [IsStrictOrderedRing K] [FloorRing K] (lg : K → K) (b0 b b' : Builder (Ext K)) (n m k : Nat)
    (h0 : Start (Ext.ops K lg) b0 n) (acts : List Act) (ha : ActsArrive n acts m) (hb : train (Ext.env K lg) b0 acts = .ok b) (a : Act) (ha' : ActsArrive m [a] k)
    (hsize : (k : Int) ≤ b0.size + 1) (h : act (Ext.env K lg) b a = .ok b') (hnew : b.stats.length < b'.stats.length) :
    ∃ s s' words freqs mp, Working (Ext.env K lg) b s a ∧ StatDict.ofSeqs words mp (some freqs) = .ok s' ∧ b'.cur = .ok s' ∧
      if b.populate = true then
        s.expand (Ext.env K lg) (places b0.size b.symbAlphabet.length s.dict.seqs.length) = .ok (words, freqs, mp) ∧
        (∀ w ∈ s.dict.seqs, w ∈ s'.dict.seqs) ∧
        (s'.dict.seqs.length : Int) ≤ s.dict.seqs.length + places b0.size b.symbAlphabet.length s.dict.seqs.length
      else s.reduce (Ext.env K lg) (b0.size - b.symbAlphabet.length) = .ok (words, freqs, mp) := by
  obtain ⟨s, s', words, freqs, mp, e1, e2, e3, e4⟩ := rebuild_places (P := fun _ => True) (Ext.envLaws lg) (Ext.scoreLaws lg) (fun b s _ => expandSlots_exact lg b s) b0 b b' n m k h0 acts ha hb a ha'
    hsize h hnew
  exact ⟨s, s', words, freqs, mp, e1, e2, e3, e4 trivial⟩

/-- Eight words can at most grow to eighteen; seven fill up to the requested size. -/
example : places 100 8 8 = 10 ∧ places 100 7 7 = 93 := by decide

end VGram.Props
