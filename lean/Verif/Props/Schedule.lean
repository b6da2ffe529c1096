import Verif.Proofs.Patience
import Verif.Props.Ieee
import Verif.Props.IeeeBest
import Verif.Props.Patience
import Verif.Spec.Schedule

/-!
# When training rebuilds, in any arithmetic (C94)
-/

namespace VGram.Props

open VGram Spec

variable {F : Type} {E : Env F}

/-! ## Rates -/

theorem bestIn_append (O : FloatOps F) (rs : List F) (x : F) : bestIn O (rs ++ [x]) = if O.lt x (bestIn O rs) then x else bestIn O rs := by
  rw [bestIn, List.foldl_append]
  rfl

theorem recordAt_append {O : FloatOps F} {rs : List F} {x : F} {j : Nat} (h : j < rs.length) : recordAt O (rs ++ [x]) j = recordAt O rs j := by
  unfold recordAt
  rw [List.getElem?_append_left h, List.take_append_of_le_length h.le]

theorem recordAt_last (O : FloatOps F) (rs : List F) (x : F) : recordAt O (rs ++ [x]) rs.length = O.lt x (bestIn O rs) := by
  unfold recordAt
  simp

theorem stallsIn_append (O : FloatOps F) (rs : List F) (x : F) :
    stallsIn O (rs ++ [x]) = stallsIn O rs + if stalledAt O (rs ++ [x]) rs.length then 1 else 0 := by
  have hsame : (List.range rs.length).countP (stalledAt O (rs ++ [x])) = (List.range rs.length).countP (stalledAt O rs) := by
    refine List.countP_congr fun j hj => ?_
    have hj := List.mem_range.1 hj
    unfold stalledAt
    simp only [Bool.and_eq_true, List.all_eq_true, decide_eq_true_eq]
    refine and_congr_right fun _ => forall₂_congr fun d _ => ?_
    rw [recordAt_append (by omega)]
  simp only [stallsIn, List.length_append, List.length_singleton, List.range_succ, List.countP_append, hsame, List.countP_singleton]

/-- The members of the builder that steer the patience. -/
structure Guides (O : FloatOps F) (b : Builder F) (rs : List F) : Prop where
  best : b.bestRate = bestIn O rs
  prob : b.probFound = foundIn O (stallsIn O rs)
  turns : ∃ k : Nat, b.noRate = (k : Int) ∧ k ≤ rs.length ∧ (∀ j, rs.length ≤ j + k → j < rs.length → recordAt O rs j = false) ∧
    ∀ j, j + k + 1 = rs.length → recordAt O rs j = true

theorem Guides.note {O : FloatOps F} {b b' : Builder F} {rs : List F} (h : Guides O b rs) {rate : F} (h1 : b'.bestRate = (b.noteRate O rate).bestRate)
    (h2 : b'.noRate = (b.noteRate O rate).noRate) (h3 : b'.probFound = (b.noteRate O rate).probFound) : Guides O b' (rs ++ [rate]) := by
  obtain ⟨k, e1, e2, e3, e4⟩ := h.turns
  have hlast := recordAt_last O rs rate
  by_cases hlt : O.lt rate (bestIn O rs) = true
  · rw [hlt] at hlast
    have hl : O.lt rate b.bestRate = true := by rw [h.best]; exact hlt
    simp only [Builder.noteRate, hl, if_true] at h1 h2 h3
    have hns : stalledAt O (rs ++ [rate]) rs.length = false := by
      unfold stalledAt
      simp [List.range_succ, hlast]
    refine ⟨by rw [h1, bestIn_append, if_pos hlt], by rw [h3, h.prob, stallsIn_append, hns]; rfl, 0, by simpa using h2, by simp, ?_, ?_⟩
    · intro j a b
      omega
    · intro j hj
      simp only [List.length_append, List.length_singleton] at hj
      rw [show j = rs.length by omega]
      exact hlast
  · have hf : O.lt rate (bestIn O rs) = false := by simpa using hlt
    rw [hf] at hlast
    have hl : O.lt rate b.bestRate = false := by rw [h.best]; exact hf
    simp only [Builder.noteRate, hl, Bool.false_eq_true, if_false] at h1 h2 h3
    have hturn : ∃ k' : Nat, ((k : Int) + 1) = (k' : Int) ∧ k' ≤ (rs ++ [rate]).length ∧
        (∀ j, (rs ++ [rate]).length ≤ j + k' → j < (rs ++ [rate]).length → recordAt O (rs ++ [rate]) j = false) ∧
        ∀ j, j + k' + 1 = (rs ++ [rate]).length → recordAt O (rs ++ [rate]) j = true := by
      refine ⟨k + 1, by push_cast; rfl, by simpa using e2, ?_, ?_⟩
      · intro j a c
        simp only [List.length_append, List.length_singleton] at a c
        rcases Nat.lt_or_ge j rs.length with hj | hj
        · rw [recordAt_append hj]
          exact e3 j (by omega) hj
        · rw [show j = rs.length by omega]
          exact hlast
      · intro j a
        simp only [List.length_append, List.length_singleton] at a
        rw [recordAt_append (by omega)]
        exact e4 j (by omega)
    have hst : stalledAt O (rs ++ [rate]) rs.length = decide (3 < k + 1) := by
      by_cases hk : 3 < k + 1
      · rw [decide_eq_true hk]
        unfold stalledAt
        rw [Bool.and_eq_true, List.all_eq_true]
        refine ⟨by simp; omega, fun d hd => ?_⟩
        have hd := List.mem_range.1 hd
        rcases Nat.eq_zero_or_pos d with rfl | hd0
        · simp [hlast]
        · rw [recordAt_append (by omega), e3 _ (by omega) (by omega)]
          rfl
      · rw [decide_eq_false hk]
        unfold stalledAt
        by_cases h3 : 3 ≤ rs.length
        · have hr := e4 (rs.length - (k + 1)) (by omega)
          have : (List.range 4).all (fun d => !recordAt O (rs ++ [rate]) (rs.length - d)) = false := by
            rw [List.all_eq_false]
            refine ⟨k + 1, List.mem_range.2 (by omega), ?_⟩
            rw [recordAt_append (by omega), hr]
            decide
          rw [this, Bool.and_false]
        · simp [h3]
    have hb : bestIn O (rs ++ [rate]) = bestIn O rs := by
      rw [bestIn_append, hf]
      rfl
    by_cases hk : 3 < b.noRate + 1
    · rw [if_pos hk] at h1 h2 h3
      refine ⟨by rw [h1, hb]; exact h.best, ?_, ?_⟩
      · rw [h3, stallsIn_append, hst, if_pos (by simp; omega)]
        simp only [h.prob, foundIn, Function.iterate_succ_apply']
      · rw [h2]
        simpa only [e1] using hturn
    · rw [if_neg hk] at h1 h2 h3
      refine ⟨by rw [h1, hb]; exact h.best, ?_, ?_⟩
      · rw [h3, stallsIn_append, hst, if_neg (by simp; omega)]
        exact h.prob
      · rw [h2]
        simpa only [e1] using hturn

theorem rateLoop_any {O : FloatOps F} {s : StatDict F} {ids : List Int} (hf : ∀ i : Nat, s.freq (i : Int) = (ids.count (i : Int) : Int)) :
    ∀ (l : List Nat) (x : F) (tl : Int), (∀ i ∈ l, i < s.dict.seqs.length) →
    Builder.rateLoop O s l x tl =
      .ok (((l.map fun (i : Nat) => ids.count (i : Int)).filter fun n => decide (0 < n)).foldl (fun sum n => O.sub sum (bitsOf O n)) x,
        tl + (l.map fun (i : Nat) => fq s.symbolFreqs i * wlen s.dict.seqs i).sum) := by
  intro l
  induction l with
  | nil => intro x tl _; simp [Builder.rateLoop]
  | cons i l ih =>
    intro x tl hl
    have hi := hl i (by simp)
    have hw : s.dict.get (i : Int) = .ok s.dict.seqs[i] := rd_of_lt hi
    simp only [Builder.rateLoop, hw, ok_bind]
    have hlen : (s.dict.seqs[i].length : Int) * s.freq (i : Int) = fq s.symbolFreqs i * wlen s.dict.seqs i := by
      rw [freq_nat]
      simp [wlen, List.getElem?_eq_getElem hi, mul_comm]
    rw [hlen, ih _ _ (fun j hj => hl j (by simp [hj]))]
    have hsum : tl + fq s.symbolFreqs i * wlen s.dict.seqs i + (l.map fun (i : Nat) => fq s.symbolFreqs i * wlen s.dict.seqs i).sum =
        tl + ((i :: l).map fun (i : Nat) => fq s.symbolFreqs i * wlen s.dict.seqs i).sum := by
      simp only [List.map_cons, List.sum_cons]
      ring
    rw [hsum]
    congr 2
    rw [hf, List.map_cons, List.filter_cons]
    by_cases h0 : 0 < ids.count (i : Int)
    · have : (0 : Int) < (ids.count (i : Int) : Int) := by omega
      simp only [h0, decide_true, if_true, List.foldl_cons, this]
      rfl
    · have : ¬ (0 : Int) < (ids.count (i : Int) : Int) := by omega
      simp only [h0, decide_false, Bool.false_eq_true, if_false, this]

theorem rate_any {O : FloatOps F} {s : StatDict F} (h : Healthy s) {ids : List Int} {text : IntSeq} (hf : ∀ i : Nat, s.freq (i : Int) = (ids.count (i : Int) : Int))
    (hp : s.power = (ids.length : Int)) (ht : s.totalChars = (text.length : Int)) :
    Builder.compressionRate O s = .ok (rateIn O s.dict.seqs.length ids text) := by
  have hl := rateLoop_any (O := O) hf (List.range s.size) (O.ofInt 0) 0 (fun i hi => by simpa [StatDict.size, IntDict.size] using hi)
  have hchars : ((List.range s.size).map fun (i : Nat) => fq s.symbolFreqs i * wlen s.dict.seqs i).sum = (text.length : Int) := by
    rw [sum_range_map, ← ht, h.chars]
    rfl
  rw [hchars, zero_add] at hl
  simp only [Builder.compressionRate, hl, ok_bind, pure_M, Except.ok.injEq, hp]
  rfl

/-! ## C94 -/

/-- What is written down about one call: it read something or not, and it rebuilt the dictionary or not. -/
inductive Enters (E : Env F) (b : Builder F) (l : Journal F) : Act → Builder F → Journal F → Prop
  | read {seq : IntSeq} {s s' : StatDict F} {ids : List Int} {c : Int} {b' : Builder F} (h1 : b.cur = .ok s)
      (h2 : s.parse E.ops seq [] = .ok (s', ids, c)) (h3 : act E b (.accept seq) = .ok b') (h4 : b'.stats.length = b.stats.length) :
      Enters E b l (.accept seq) b' (l.read seq ids)
  | readRebuilt {seq : IntSeq} {s s' : StatDict F} {ids : List Int} {c : Int} {b' : Builder F} (h1 : b.cur = .ok s)
      (h2 : s.parse E.ops seq [] = .ok (s', ids, c)) (h3 : act E b (.accept seq) = .ok b') (h4 : b'.stats.length = b.stats.length + 1) :
      Enters E b l (.accept seq) b' ((l.read seq ids).rebuilt E.ops s'.dict.seqs.length)
  | quiet {a : Act} {b' : Builder F} (h1 : a = .update ∨ a = .freqs) (h2 : act E b a = .ok b')
      (h3 : b'.stats.length = b.stats.length) : Enters E b l a b' l
  | rebuilt {s : StatDict F} {b' : Builder F} (h1 : b.cur = .ok s) (h2 : act E b .update = .ok b')
      (h3 : b'.stats.length = b.stats.length + 1) : Enters E b l .update b' (l.rebuilt E.ops s.dict.seqs.length)

/-- What is written down about a run. -/
inductive Entered (E : Env F) : Builder F → Journal F → List Act → Builder F → Journal F → Prop
  | nil {b : Builder F} {l : Journal F} : Entered E b l [] b l
  | cons {b b1 b2 : Builder F} {l l1 l2 : Journal F} {a : Act} {acts : List Act} (h1 : Enters E b l a b1 l1)
      (h2 : Entered E b1 l1 acts b2 l2) : Entered E b l (a :: acts) b2 l2

/-- The journal agrees with the working dictionary and the members that steer the patience. -/
structure JournalKept (O : FloatOps F) (b : Builder F) (l : Journal F) : Prop where
  guides : Guides O b l.rates
  cur : ∃ s : StatDict F, b.stats[b.current]? = some s ∧ (∀ i : Nat, s.freq (i : Int) = (l.ids.count (i : Int) : Int)) ∧
    s.power = (l.ids.length : Int) ∧ s.totalChars = (l.text.length : Int)

theorem update_journal {b : Builder F} {n : Nat} (t : TInv b n) {l : Journal F} (k : JournalKept E.ops b l) {b' : Builder F}
    (h : b.update E = .ok b') {s : StatDict F} (hs : b.stats[b.current]? = some s) :
    (b.ready E.ops s = false ∧ b' = b) ∨
    (b.ready E.ops s = true ∧ b'.stats.length = b.stats.length + 1 ∧ JournalKept E.ops b' (l.rebuilt E.ops s.dict.seqs.length)) := by
  obtain ⟨s1, hs1, hh, _⟩ := t.cur
  obtain ⟨s2, hs2, k1, k2, k3⟩ := k.cur
  rw [hs] at hs1 hs2
  cases hs1
  cases hs2
  unfold Builder.update at h
  rw [cur_eq hs, ok_bind] at h
  dsimp only at h
  split at h
  · next hr =>
    cases h
    exact Or.inl ⟨by simpa using hr, rfl⟩
  · next hr =>
    refine Or.inr ⟨by simpa using hr, ?_⟩
    rw [rate_any hh k1 k2 k3, ok_bind] at h
    obtain ⟨⟨words, freqs, mp⟩, hw, h⟩ := bind_ok.1 h
    obtain ⟨s', hs', h⟩ := bind_ok.1 h
    obtain ⟨fresh, hf, h⟩ := bind_ok.1 h
    simp only [pure_M, Except.ok.injEq] at h
    have hnew : (∀ i : Nat, s'.freq (i : Int) = 0) ∧ s'.power = 0 ∧ s'.totalChars = 0 := by
      unfold StatDict.ofSeqs at hs'
      obtain ⟨d, _, hs'⟩ := bind_ok.1 hs'
      cases hs'
      refine ⟨fun i => ?_, rfl, rfl⟩
      rw [freq_nat, fq, List.getElem?_replicate]
      split <;> rfl
    obtain ⟨n1, n2, n3⟩ := hnew
    refine ⟨by rw [← h]; simp, ⟨?_, ⟨s', by rw [← h]; simp, fun i => by rw [n1]; simp [Journal.rebuilt], by rw [n2]; simp [Journal.rebuilt], by rw [n3]; simp [Journal.rebuilt]⟩⟩⟩
    exact k.guides.note (by rw [← h]) (by rw [← h]) (by rw [← h])

/-- The reading half of an accept call. -/
theorem read_journal (SL : ScoreLaws E.ops) {b : Builder F} {n m : Nat} (t : TInv b n) {l : Journal F} (k : JournalKept E.ops b l) {seq : IntSeq} (ha : Arrive n seq m) :
    ∃ s s' ids, b.stats[b.current]? = some s ∧ s.parse E.ops seq [] = .ok (s', ids, (ids.length : Int)) ∧
      TInv { b with stats := b.stats.set b.current s' } m ∧ JournalKept E.ops { b with stats := b.stats.set b.current s' } (l.read seq ids) ∧
      ({ b with stats := b.stats.set b.current s' } : Builder F).stats[b.current]? = some s' ∧ s'.minProb = s.minProb := by
  obtain ⟨s, s', ids, h1, h2, h3, _⟩ := accept_parse (E := E) SL t ha
  obtain ⟨s2, hs2, k1, k2, k3⟩ := k.cur
  rw [h1] at hs2
  cases hs2
  obtain ⟨s1, hs1, hh, _⟩ := t.cur
  rw [h1] at hs1
  cases hs1
  obtain ⟨s3, ids3, p1, _, _, _, p5, _, p7, _, p9, _, p11, _⟩ := statParse_spec SL hh.inv seq [] (by simp)
  rw [h2] at p1
  simp only [List.nil_append, Except.ok.injEq, Prod.mk.injEq] at p1 p5 p7
  obtain ⟨rfl, rfl, _⟩ := p1
  have hlt := (List.getElem?_eq_some_iff.1 h1).1
  refine ⟨s, s', ids, h1, h2, h3, ⟨⟨k.guides.best, k.guides.prob, k.guides.turns⟩, ⟨s', by simp [hlt], fun i => ?_, ?_, ?_⟩⟩, by simp [hlt], p11⟩
  · rw [freq_nat, p5, ← freq_nat, k1]
    simp [Journal.read]
  · rw [p7, k2]
    simp [Journal.read]
  · rw [p9, k3]
    simp [Journal.read]

theorem act_journal (L : EnvLaws E) (SL : ScoreLaws E.ops) {b : Builder F} {n m : Nat} (t : TInv b n) {l : Journal F} (k : JournalKept E.ops b l) {a : Act}
    (ha : ActsArrive n [a] m) (hm : (m : Int) ≤ b.size + 1) :
    ∃ b' l', Enters E b l a b' l' ∧ act E b a = .ok b' ∧ TInv b' m ∧ JournalKept E.ops b' l' ∧ b'.size = b.size := by
  cases ha with
  | accept h1 h2 =>
    cases h2
    obtain ⟨b', c1, c2, c3⟩ := accept_tinv L SL t h1 hm
    obtain ⟨s, s', ids, e1, e2, e3, e4, e5, _⟩ := read_journal SL t k h1
    have hact : act E b (.accept _) = .ok b' := c1
    rcases ready_update e1 e2 c1 with rfl | hu
    · exact ⟨_, _, .read (cur_eq e1) e2 hact (by simp), hact, c2, e4, c3⟩
    · rcases update_journal e3 e4 hu e5 with ⟨_, rfl⟩ | ⟨_, g2, g3⟩
      · exact ⟨_, _, .read (cur_eq e1) e2 hact (by simp), hact, c2, e4, c3⟩
      · exact ⟨_, _, .readRebuilt (cur_eq e1) e2 hact (by simpa using g2), hact, c2, g3, c3⟩
  | update h2 =>
    cases h2
    obtain ⟨b', c1, c2, c3, _⟩ := update_tinv L SL t hm
    obtain ⟨s, hs, _⟩ := t.cur
    have hact : act E b .update = .ok b' := c1
    rcases update_journal t k c1 hs with ⟨_, rfl⟩ | ⟨_, g2, g3⟩
    · exact ⟨_, _, .quiet (Or.inl rfl) hact rfl, hact, c2, k, c3⟩
    · exact ⟨_, _, .rebuilt (cur_eq hs) hact g2, hact, c2, g3, c3⟩
  | freqs h2 =>
    cases h2
    obtain ⟨s, hs, a1, a2⟩ := resultFreqs_tinv t []
    obtain ⟨b', hb', hact⟩ : ∃ b', b' = { b with stats := b.stats.set b.resultIdx { s with symbolFreqs := StatDict.padTo s.symbolFreqs s.size } } ∧
        act E b .freqs = .ok b' := ⟨_, rfl, by simp only [act, a1, ok_bind, pure_M]⟩
    subst hb'
    refine ⟨_, _, .quiet (Or.inr rfl) hact (by simp), hact, a2, ⟨⟨k.guides.best, k.guides.prob, k.guides.turns⟩, ?_⟩, rfl⟩
    obtain ⟨s2, hs2, k1, k2, k3⟩ := k.cur
    by_cases he : b.resultIdx = b.current
    · rw [he, hs2] at hs
      cases hs
      have hlt := (List.getElem?_eq_some_iff.1 hs2).1
      refine ⟨{ s with symbolFreqs := StatDict.padTo s.symbolFreqs s.size }, by simp only; rw [he]; simp [hlt], fun i => ?_, k2, k3⟩
      rw [freq_nat]
      show fq (StatDict.padTo s.symbolFreqs s.size) i = _
      rw [fq_padTo, ← freq_nat, k1]
    · exact ⟨s2, by simp only; rw [List.getElem?_set_ne he]; exact hs2, k1, k2, k3⟩

theorem train_journal (L : EnvLaws E) (SL : ScoreLaws E.ops) : ∀ (acts : List Act) {b : Builder F} {n m : Nat} {l : Journal F}, TInv b n → JournalKept E.ops b l →
    ActsArrive n acts m → (m : Int) ≤ b.size + 1 →
    ∃ b' l', Entered E b l acts b' l' ∧ train E b acts = .ok b' ∧ TInv b' m ∧ JournalKept E.ops b' l' ∧ b'.size = b.size := by
  intro acts
  induction acts with
  | nil =>
    intro b n m l t k ha _
    cases ha
    exact ⟨b, l, .nil, rfl, t, k, rfl⟩
  | cons a acts ih =>
    intro b n m l t k ha hm
    have : ∃ j, ActsArrive n [a] j ∧ ActsArrive j acts m := by
      cases ha with
      | accept g1 h2 => exact ⟨_, .accept g1 .nil, h2⟩
      | update h2 => exact ⟨_, .update .nil, h2⟩
      | freqs h2 => exact ⟨_, .freqs .nil, h2⟩
    obtain ⟨j, j1, j2⟩ := this
    have := actsArrive_le j2
    obtain ⟨b1, l1, n1, a1, t1, k1, s1⟩ := act_journal L SL t k j1 (by omega)
    obtain ⟨b2, l2, n2, a2, t2, k2, s2⟩ := ih t1 k1 j2 (by omega)
    exact ⟨b2, l2, .cons n1 n2, by simp only [train, a1, ok_bind, a2], t2, k2, s2.trans s1⟩

theorem ready_eq {O : FloatOps F} {b : Builder F} {l : Journal F} (k : JournalKept O b l) {s : StatDict F} (hs : b.stats[b.current]? = some s) :
    b.ready O s = dueIn O (stallsIn O l.rates) s.minProb l.ids.length := by
  obtain ⟨s2, hs2, _, k2, _⟩ := k.cur
  rw [hs] at hs2
  cases hs2
  have : decide ((20000000 : Int) < (l.ids.length : Int)) = decide (20000000 < l.ids.length) := by
    rw [decide_eq_decide]
    omega
  rw [Builder.ready, k.guides.prob, StatDict.enough, k2, this]
  rfl

/-- C94: in every arithmetic that obeys the laws, in particular in doubles, the moments at which training rebuilds the dictionary are determined by what was written down:
after any history of calls with journal `l`, the next accept call rebuilds exactly if `dueIn` says that the ids emitted since the last rebuild (its own included) suffice
for the number of stalled rebuilds and the minimal probability of the working dictionary; an update call does so according to the ids emitted so far. -/
theorem C94_schedule (E : Env F) (L : EnvLaws E) (SL : ScoreLaws E.ops) (b0 : Builder F) (n m : Nat) (h0 : Start E.ops b0 n)
    (acts : List Act) (ha : ActsArrive n acts m) (hsize : (m : Int) ≤ b0.size + 1) :
    ∃ b l s, train E b0 acts = .ok b ∧ Entered E b0 ⟨[], [], []⟩ acts b l ∧ b.cur = .ok s ∧
      (∀ seq k, Arrive m seq k → (k : Int) ≤ b0.size + 1 → ∃ b' s' ids c, s.parse E.ops seq [] = .ok (s', ids, c) ∧ b.accept E seq = .ok b' ∧
        b'.stats.length = b.stats.length + (if dueIn E.ops (stallsIn E.ops l.rates) s.minProb (l.ids ++ ids).length then 1 else 0)) ∧
      ∃ b', b.update E = .ok b' ∧
        b'.stats.length = b.stats.length + (if dueIn E.ops (stallsIn E.ops l.rates) s.minProb l.ids.length then 1 else 0) := by
  have t0 := h0.tinv
  have k0 : JournalKept E.ops b0 ⟨[], [], []⟩ := by
    have hofs : ∀ {words : List IntSeq} {mp : F} {fr : Option (List Int)} {s : StatDict F}, StatDict.ofSeqs words mp fr = .ok s →
        (∀ i : Nat, s.freq (i : Int) = 0) ∧ s.power = 0 ∧ s.totalChars = 0 := by
      intro words mp fr s hs'
      unfold StatDict.ofSeqs at hs'
      obtain ⟨d, _, hs'⟩ := bind_ok.1 hs'
      cases fr <;> cases hs' <;> refine ⟨fun i => ?_, rfl, rfl⟩ <;> rw [freq_nat, fq, List.getElem?_replicate] <;> split <;> rfl
    have mk : ∀ {b : Builder F} {s : StatDict F}, b.bestRate = E.ops.ofInt 1 → b.noRate = 0 → b.probFound = E.ops.lit 1 1 → b.stats[b.current]? = some s →
        ((∀ i : Nat, s.freq (i : Int) = 0) ∧ s.power = 0 ∧ s.totalChars = 0) → JournalKept E.ops b ⟨[], [], []⟩ := by
      intro b s e1 e2 e3 e4 ⟨e5, e6, e7⟩
      exact ⟨⟨e1, e3, 0, e2, le_rfl, by simp, by simp⟩, ⟨s, e4, fun i => by rw [e5]; simp, e6, e7⟩⟩
    cases h0 with
    | fresh h => exact mk rfl rfl rfl rfl ⟨fun i => by simp [freq_nat, StatDict.new, fq], rfl, rfl⟩
    | alphabet h1 h2 h3 h4 =>
      obtain ⟨s', e1, rfl⟩ := ofAlphabet_one h4
      exact mk rfl rfl rfl rfl (hofs e1)
    | saved h1 h2 h3 h4 h5 =>
      obtain ⟨s', e1, h5⟩ := bind_ok.1 h5
      cases h5
      exact mk rfl rfl rfl rfl (hofs e1)
  obtain ⟨b, l, n1, a1, t1, k1, s1⟩ := train_journal L SL acts t0 k0 ha hsize
  obtain ⟨s, hs, _⟩ := k1.cur
  refine ⟨b, l, s, a1, n1, cur_eq hs, fun seq k hk hk' => ?_, ?_⟩
  · obtain ⟨b', c1, c2, c3⟩ := accept_tinv L SL t1 hk (by rw [s1]; exact hk')
    obtain ⟨s2, s', ids, e1, e2, e3, e4, e5, e6⟩ := read_journal SL t1 k1 hk
    rw [hs] at e1
    cases e1
    refine ⟨b', s', ids, _, e2, c1, ?_⟩
    have hri := ready_eq e4 e5
    rw [e6] at hri
    have hlen : (l.read seq ids).ids = l.ids ++ ids := rfl
    have hrates : (l.read seq ids).rates = l.rates := rfl
    rw [hlen, hrates] at hri
    simp only [Builder.accept, cur_eq hs, ok_bind] at c1
    rw [e2, ok_bind] at c1
    dsimp only at c1
    rw [← hri]
    split at c1
    · next hr =>
      rw [if_pos hr]
      rcases update_journal e3 e4 c1 e5 with ⟨g, _⟩ | ⟨_, g2, _⟩
      · rw [g] at hr; cases hr
      · simpa using g2
    · next hr =>
      cases c1
      rw [if_neg hr]
      simp
  · obtain ⟨b', c1, c2, c3, _⟩ := update_tinv L SL t1 (by rw [s1]; exact hsize)
    refine ⟨b', c1, ?_⟩
    rw [← ready_eq k1 hs]
    rcases update_journal t1 k1 c1 hs with ⟨g, rfl⟩ | ⟨g, g2, _⟩
    · rw [if_neg (by rw [g]; decide)]
      rfl
    · rw [if_pos g, g2]

/-! ## The room for new words -/

variable {log : Double → Double} {srt : List (StatItem Double) → List (StatItem Double)} {ord : PairMap → PairMap} {gam : List Double → Nat → Double}

theorem factor_val : Double.val ((Double.ops log).lit 13 1) = .fin (5854679515581645 / 2 ^ 52) := by
  show Double.val (Double.rounded false (clamp 13 / 10 ^ 1)) = _
  decide +kernel

/-- The double next to 1.3 is a little too large, by so little that a product with an `int` stays on the same side of every integer. -/
theorem scaled_val {n : Nat} (h : n ≤ 2 ^ 31) : ∃ x : ℚ, Double.val (Double.mul ((Double.ops log).ofInt n) ((Double.ops log).lit 13 1)) = .fin x ∧
    ((13 * n / 10 : Nat) : ℚ) ≤ x ∧ x < ((13 * n / 10 : Nat) : ℚ) + 1 := by
  have hn : (n : ℚ) ≤ 2 ^ 31 := by exact_mod_cast h
  have hn0 : (0 : ℚ) ≤ (n : ℚ) := by positivity
  have hi : Double.val ((Double.ops log).ofInt n) = .fin (n : ℚ) := by
    rw [int_exact (by omega) (by omega), Int.cast_natCast]
  have hle : |(n : ℚ) * (5854679515581645 / 2 ^ 52)| ≤ 2 ^ 33 := by
    rw [abs_of_nonneg (by positivity)]
    norm_num
    linarith
  rw [mul_val hi factor_val]
  refine ⟨_, val_rounded _ (small (by omega) hle), ?_, ?_⟩
  · have hN : 13 * n / 10 ≤ 2 ^ 53 := by omega
    rw [← rnd_nat hN]
    refine rnd_mono ?_
    have : 10 * (13 * n / 10) ≤ 13 * n := by omega
    have h1 : ((10 * (13 * n / 10) : Nat) : ℚ) ≤ ((13 * n : Nat) : ℚ) := Nat.cast_le.2 this
    rw [Nat.cast_mul, Nat.cast_mul] at h1
    generalize ((13 * n / 10 : Nat) : ℚ) = N at *
    norm_num at *
    linarith
  · have h1 : 13 * n ≤ 10 * (13 * n / 10) + 9 := by omega
    have h2 : ((13 * n : Nat) : ℚ) ≤ ((10 * (13 * n / 10) + 9 : Nat) : ℚ) := Nat.cast_le.2 h1
    rw [Nat.cast_add, Nat.cast_mul, Nat.cast_mul] at h2
    rcases Nat.eq_zero_or_pos n with rfl | hpos
    · rw [show ((0 : Nat) : ℚ) * (5854679515581645 / 2 ^ 52) = ((0 : Nat) : ℚ) by norm_num, rnd_nat (by norm_num)]
      norm_num
    · have hp : (1 : ℚ) ≤ (n : ℚ) := by exact_mod_cast hpos
      have hx1 : (1 : ℚ) ≤ (n : ℚ) * (5854679515581645 / 2 ^ 52) := by
        norm_num
        linarith
      have hr := rnd_normal (x := (n : ℚ) * (5854679515581645 / 2 ^ 52)) (by
        rw [abs_of_nonneg (by positivity)]
        refine le_trans ?_ hx1
        rw [div_le_one (by positivity)]
        exact one_le_pow₀ (by norm_num)) (small (by omega) hle)
      have hr := (abs_le.1 hr).2
      rw [abs_of_nonneg (by positivity)] at hr
      generalize ((13 * n / 10 : Nat) : ℚ) = N at *
      norm_num at *
      linarith

theorem expandSlots_double (b : Builder Double) (s : StatDict Double) (h : s.dict.seqs.length ≤ 2 ^ 31) :
    b.expandSlots (Double.ops log) s = places b.size b.symbAlphabet.length s.dict.seqs.length := by
  obtain ⟨x, hx, h1, h2⟩ := scaled_val (log := log) h
  have hs : ((s.size : Nat) : Int) = (s.dict.seqs.length : Int) := rfl
  have h10 : Double.val ((Double.ops log).ofInt 10) = .fin ((10 : Int) : ℚ) := int_exact (by omega) (by omega)
  unfold Builder.expandSlots places
  rw [hs]
  have hlt : (Double.ops log).lt ((Double.ops log).mul ((Double.ops log).ofInt s.dict.seqs.length) ((Double.ops log).lit 13 1)) ((Double.ops log).ofInt 10) = true ↔
      13 * s.dict.seqs.length < 100 := by
    show Ext.lt (Double.val (Double.mul _ _)) (Double.val _) = true ↔ _
    rw [hx, h10]
    simp only [Ext.lt, decide_eq_true_eq]
    constructor
    · intro h
      have : ((13 * s.dict.seqs.length / 10 : Nat) : ℚ) < ((10 : Nat) : ℚ) := lt_of_le_of_lt h1 (by exact_mod_cast h)
      have := Nat.cast_lt.1 this
      omega
    · intro h
      have h3 : 13 * s.dict.seqs.length / 10 + 1 ≤ 10 := by omega
      have : ((13 * s.dict.seqs.length / 10 : Nat) : ℚ) + 1 ≤ 10 := by exact_mod_cast h3
      push_cast
      linarith
  simp only [hlt]
  split
  · rfl
  · show (match Double.val (Double.mul _ _) with | .fin x => if 0 ≤ x then ⌊x⌋ else ⌈x⌉ | _ => 0 : Int) = _
    rw [hx]
    simp only [if_pos (le_trans (Nat.cast_nonneg _) h1)]
    exact Int.floor_eq_iff.2 ⟨by exact_mod_cast h1, by exact_mod_cast h2⟩

/-- C94: with doubles a rebuild has as many places to fill as in exact arithmetic (C70), for every dictionary whose size is an `int`: the rounding of 1.3 and of the
product never moves the result across an integer. -/
theorem C94_places (H : LibraryLaws log srt ord gam) (b0 b b' : Builder Double) (n m k : Nat) (h0 : Start (Double.ops log) b0 n) (acts : List Act)
    (ha : ActsArrive n acts m) (hb : train (Double.env log srt ord gam) b0 acts = .ok b) (a : Act) (ha' : ActsArrive m [a] k)
    (hsize : (k : Int) ≤ b0.size + 1) (h : act (Double.env log srt ord gam) b a = .ok b') (hnew : b.stats.length < b'.stats.length) :
    ∃ s s' words freqs mp, Working (Double.env log srt ord gam) b s a ∧ StatDict.ofSeqs words mp (some freqs) = .ok s' ∧ b'.cur = .ok s' ∧
      (s.dict.seqs.length ≤ 2 ^ 31 →
      if b.populate = true then
        s.expand (Double.env log srt ord gam) (places b0.size b.symbAlphabet.length s.dict.seqs.length) = .ok (words, freqs, mp) ∧
        (∀ w ∈ s.dict.seqs, w ∈ s'.dict.seqs) ∧
        (s'.dict.seqs.length : Int) ≤ s.dict.seqs.length + places b0.size b.symbAlphabet.length s.dict.seqs.length
      else s.reduce (Double.env log srt ord gam) (b0.size - b.symbAlphabet.length) = .ok (words, freqs, mp)) :=
  rebuild_places (P := fun n => n ≤ 2 ^ 31) (doubleEnvLaws H) (doubleScoreLaws H.log) (fun b s h => expandSlots_double b s h) b0 b b' n m k h0 acts ha hb a ha' hsize h hnew

/-- C94: the schedule of `C94_schedule` with doubles. -/
theorem C94_doubles (H : LibraryLaws log srt ord gam) (b0 : Builder Double) (n m : Nat) (h0 : Start (Double.ops log) b0 n)
    (acts : List Act) (ha : ActsArrive n acts m) (hsize : (m : Int) ≤ b0.size + 1) :
    ∃ b l s, train (Double.env log srt ord gam) b0 acts = .ok b ∧ Entered (Double.env log srt ord gam) b0 ⟨[], [], []⟩ acts b l ∧ b.cur = .ok s ∧
      ∀ seq k, Arrive m seq k → (k : Int) ≤ b0.size + 1 → ∃ b' s' ids c, s.parse (Double.ops log) seq [] = .ok (s', ids, c) ∧
        b.accept (Double.env log srt ord gam) seq = .ok b' ∧ b'.stats.length = b.stats.length +
          (if dueIn (Double.ops log) (stallsIn (Double.ops log) l.rates) s.minProb (l.ids ++ ids).length then 1 else 0) := by
  obtain ⟨b, l, s, h1, h2, h3, h4, _⟩ := C94_schedule (Double.env log srt ord gam) (doubleEnvLaws H) (doubleScoreLaws H.log) b0 n m h0 acts ha hsize
  exact ⟨b, l, s, h1, h2, h3, h4⟩

/-- One stalled rebuild among six, although one rate is not a number; 0.1 * 0.8 in doubles is not the double 0.08, but the next one. -/
example : stallsIn ratOps [.fin (1 / 2), .fin (3 / 5), .nan, .fin (3 / 5), .fin (3 / 5), .fin (1 / 3)] = 1 ∧
    (foundIn (Double.ops roughLog) 1).mag.val = ((Double.ops roughLog).lit 8 2).mag.val + 1 := by decide +kernel

set_option synthInstance.maxSize 2000 in
/-- In doubles: four ids are not enough for a fresh builder, five are; the second accept call rebuilds, and the rate that is noted is the one computed from the six ids. -/
example : dueIn sampleEnv.ops 0 (sampleEnv.ops.lit 2 3) 4 = false ∧ dueIn sampleEnv.ops 0 (sampleEnv.ops.lit 2 3) 5 = true ∧
    (do
      let b ← train sampleEnv (Builder.new sampleEnv.ops 5) [.accept [0, 1, 0, 1]]
      let b' ← b.accept sampleEnv [0, 1]
      pure (b.stats.length, b'.stats.length, decide (b'.bestRate = rateIn sampleEnv.ops 2 [0, 1, 0, 1, 0, 1] [0, 1, 0, 1, 0, 1]))) = .ok (1, 2, true) := by decide +kernel

/-- `C94_doubles` applies to that run. -/
example : ∃ b l s, train sampleEnv (Builder.new sampleEnv.ops 5) [.accept [0, 1, 0, 1]] = .ok b ∧
    Entered sampleEnv (Builder.new sampleEnv.ops 5) ⟨[], [], []⟩ [.accept [0, 1, 0, 1]] b l ∧ b.cur = .ok s := by
  obtain ⟨b, l, s, h1, h2, h3, _⟩ := C94_doubles sampleEnv_laws (Builder.new sampleEnv.ops 5) 0 2 (.fresh (by decide)) [.accept [0, 1, 0, 1]]
    (.accept (.fresh (.fresh (.known (by decide) (by decide) (.known (by decide) (by decide) .nil)))) .nil) (by decide)
  exact ⟨b, l, s, h1, h2, h3⟩

/-- Ten words make room for exactly thirteen: the double next to 1.3 is rounded up, a factor rounded down would give twelve. -/
example : (Double.ops roughLog).trunc ((Double.ops roughLog).mul ((Double.ops roughLog).ofInt 10) ((Double.ops roughLog).lit 13 1)) = 13 ∧
    places 100 5 10 = 13 ∧ places 100 5 7 = 95 := by decide +kernel

end VGram.Props
