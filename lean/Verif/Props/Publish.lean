import Verif.Props.Counts

/-!
# Which dictionary `update_dict` shows (C78)
-/

namespace VGram.Props

open VGram Spec

variable {F : Type}

theorem tally_minProb : ∀ (l : List Int) (prev : Int) {s s' : StatDict F}, s.tally prev l = .ok s' → s'.minProb = s.minProb := by
  intro l
  induction l with
  | nil => intro prev s s' h; cases h; rfl
  | cons x l ih =>
    intro prev s s' h
    simp only [StatDict.tally] at h
    obtain ⟨s1, h1, h⟩ := bind_ok.1 h
    have : s1.minProb = s.minProb := by
      unfold StatDict.updateSymbol at h1
      obtain ⟨_, _, h1⟩ := bind_ok.1 h1
      obtain ⟨_, _, h1⟩ := bind_ok.1 h1
      obtain ⟨_, _, h1⟩ := bind_ok.1 h1
      obtain ⟨_, _, h1⟩ := bind_ok.1 h1
      cases h1
      rfl
    rw [ih _ h]
    split
    · exact this
    · exact this

theorem parse_minProb {O : FloatOps F} {s s' : StatDict F} {seq : IntSeq} {out : List Int} {r : List Int × Int}
    (h : s.parse O seq out = .ok (s', r)) : s'.minProb = s.minProb := by
  unfold StatDict.parse at h
  obtain ⟨⟨d, o, n⟩, h1, h⟩ := bind_ok.1 h
  obtain ⟨s2, ht, h⟩ := bind_ok.1 h
  cases h
  rw [tally_minProb _ _ ht]

/-- The rebuilds made so far and the published dictionary, for a builder that started with `res0`. -/
structure Turns (res0 : Option Nat) (b : Builder F) : Prop where
  last : b.current + 1 = b.stats.length
  turn : b.populate = decide (b.current % 2 = 0)
  res : b.result = if b.current < 2 then res0 else some (2 * (b.current / 2))

theorem Turns.update {E : Env F} {res0 : Option Nat} {b b' : Builder F} (h : Turns res0 b) (hu : b.update E = .ok b') :
    Turns res0 b' ∧ ∀ (i : Nat) s, b.stats[i]? = some s → b'.stats[i]? = some s := by
  rcases update_cases hu with ⟨rfl, _⟩ | ⟨s, s', words, freqs, mp, _, u⟩
  · exact ⟨h, fun _ _ hs => hs⟩
  · obtain ⟨h1, h2, h3⟩ := h
    refine ⟨⟨by rw [u.current, u.stats]; simp, ?_, ?_⟩, fun i s hs => ?_⟩
    · rw [u.populate, u.current, h2, ← h1]
      by_cases hc : b.current % 2 = 0
      · simp [hc]; omega
      · simp [hc]; omega
    · rw [u.result, u.current, h2, h3, ← h1]
      by_cases hc : b.current % 2 = 0
      · simp only [hc, decide_true, if_true]
        by_cases h0 : b.current < 2
        · rw [if_pos h0, if_pos (by omega)]
        · rw [if_neg h0, if_neg (by omega)]
          congr 1
          omega
      · simp only [hc, decide_false, Bool.false_eq_true, if_false]
        rw [if_neg (by omega)]
        congr 1
        omega
    · rw [u.stats, List.getElem?_append_left (List.getElem?_eq_some_iff.1 hs).1]
      exact hs

theorem Turns.accept {E : Env F} {res0 : Option Nat} {b b' : Builder F} {seq : IntSeq} (h : Turns res0 b) (ha : b.accept E seq = .ok b') :
    Turns res0 b' ∧ ∀ (i : Nat) s, b.stats[i]? = some s → ∃ s', b'.stats[i]? = some s' ∧ s'.minProb = s.minProb := by
  simp only [Builder.accept] at ha
  obtain ⟨s, hs, ha⟩ := bind_ok.1 ha
  obtain ⟨⟨s', r⟩, hp, ha⟩ := bind_ok.1 ha
  have hs' : b.stats[b.current]? = some s := rd_nat_ok.1 hs
  have hc := (List.getElem?_eq_some_iff.1 hs').1
  have h1 : Turns res0 ({ b with stats := b.stats.set b.current s' } : Builder F) := ⟨by simpa using h.last, h.turn, h.res⟩
  have hset : ∀ (i : Nat) t, b.stats[i]? = some t → ∃ t', (b.stats.set b.current s')[i]? = some t' ∧ t'.minProb = t.minProb := by
    intro i t ht
    by_cases he : i = b.current
    · subst he
      rw [hs'] at ht
      cases ht
      exact ⟨s', by simp [hc], parse_minProb hp⟩
    · exact ⟨t, by rw [List.getElem?_set_ne (fun h => he h.symm)]; exact ht, rfl⟩
  dsimp only at ha
  split at ha
  · obtain ⟨t1, t2⟩ := h1.update ha
    refine ⟨t1, fun i t ht => ?_⟩
    obtain ⟨t', k1, k2⟩ := hset i t ht
    exact ⟨t', t2 i t' k1, k2⟩
  · cases ha
    exact ⟨h1, hset⟩

/-- What a stream model that started with `res0` shows. -/
structure Presents (O : FloatOps F) (res0 : Option Nat) (m : Stream F) : Prop where
  start : res0 = none ∨ res0 = some 0
  turns : Turns res0 m.builder
  ptr : ∀ i, m.dict = .stat i → i < m.builder.stats.length
  mp : ∀ (i : Nat) s, m.dict = .stat i → m.builder.stats[i]? = some s →
    m.minProb = some (if res0 = none ∧ i < 2 then O.ofInt (-1) else s.minProb)

theorem Turns.resultIdx {res0 : Option Nat} (h0 : res0 = none ∨ res0 = some 0) {b : Builder F} (h : Turns res0 b) :
    b.resultIdx = if b.current = 1 ∧ res0 = none then 1 else 2 * (b.current / 2) := by
  unfold Builder.resultIdx
  rw [h.res]
  by_cases hc : b.current < 2
  · rw [if_pos hc]
    rcases h0 with rfl | rfl
    · simp only [and_true]
      split <;> omega
    · simp only [reduceCtorEq, and_false, if_false]
      omega
  · rw [if_neg hc, if_neg (by omega)]

theorem Presents.call {E : Env F} {res0 : Option Nat} {m m' : Stream F} {c : Call} (h : Presents E.ops res0 m) (hc : call E m c = .ok m') :
    Presents E.ops res0 m' := by
  obtain ⟨h0, h1, hp, h2⟩ := h
  cases c with
  | accept seq =>
    simp only [Props.call, Stream.accept] at hc
    obtain ⟨b', hb, hc⟩ := bind_ok.1 hc
    cases hc
    obtain ⟨t1, t2⟩ := h1.accept hb
    refine ⟨h0, t1, fun i hd => ?_, fun i s hd hs => ?_⟩
    · obtain ⟨s', k1, _⟩ := t2 i _ (List.getElem?_eq_getElem (hp i hd))
      exact (List.getElem?_eq_some_iff.1 k1).1
    · have hi := List.getElem?_eq_getElem (hp i hd)
      obtain ⟨s', k1, k2⟩ := t2 i _ hi
      dsimp only at hs ⊢
      rw [k1] at hs
      cases hs
      rw [k2]
      exact h2 i _ hd hi
  | parse seq =>
    simp only [Props.call] at hc
    obtain ⟨⟨m2, ids⟩, hq, hc⟩ := bind_ok.1 hc
    cases hc
    simp only [Stream.parse] at hq
    obtain ⟨_, _, hq⟩ := bind_ok.1 hq
    obtain ⟨_, _, hq⟩ := bind_ok.1 hq
    obtain ⟨⟨d, o⟩, _, hq⟩ := bind_ok.1 hq
    cases hq
    obtain ⟨f1, _, _, _, f5, _, _, f8, f9, f10⟩ := m.setDict_frame d
    refine ⟨h0, ⟨by rw [f8, f10]; exact h1.last, ?_, by rw [f9, f8]; exact h1.res⟩, fun i hd => by rw [f10]; exact hp i (f1 ▸ hd), fun i s hd hs => ?_⟩
    · rw [f8, ← h1.turn]
      unfold Stream.setDict
      split <;> rfl
    · rw [f1] at hd
      rw [f5]
      simp only [Stream.setDict, hd, List.getElem?_modify_eq] at hs
      obtain ⟨t, ht, rfl⟩ := Option.map_eq_some_iff.1 hs
      exact h2 i t hd ht
  | update =>
    simp only [Props.call, Stream.updateDict] at hc
    split at hc
    · cases hc
      exact ⟨h0, h1, hp, h2⟩
    · obtain ⟨⟨b, fr⟩, hb, hc⟩ := bind_ok.1 hc
      obtain ⟨mp, hmp, hc⟩ := bind_ok.1 hc
      cases hc
      simp only [Builder.resultFreqs] at hb
      obtain ⟨s, hs, hb⟩ := bind_ok.1 hb
      cases hb
      have hs' : m.builder.stats[m.builder.resultIdx]? = some s := rd_nat_ok.1 hs
      have hlt := (List.getElem?_eq_some_iff.1 hs').1
      refine ⟨h0, ⟨by simpa using h1.last, h1.turn, h1.res⟩, fun i hd => ?_, fun i t hd ht => ?_⟩
      · cases hd
        simpa using hlt
      · cases hd
        dsimp only at ht ⊢
        rw [List.getElem?_set_self hlt] at ht
        cases ht
        dsimp only
        have hidx := h1.resultIdx h0
        simp only [Builder.getMinProbability] at hmp
        split at hmp
        · next hr =>
          cases hmp
          have hres := h1.res
          rw [hr] at hres
          split at hres
          · next hc2 =>
            have : m.builder.resultIdx < 2 := by rw [hidx]; split <;> omega
            rw [if_pos ⟨hres.symm, this⟩]
          · cases hres
        · next i hr =>
          obtain ⟨t, ht, hmp⟩ := bind_ok.1 hmp
          cases hmp
          have e : m.builder.resultIdx = i := by simp [Builder.resultIdx, hr]
          rw [rd_nat_ok] at ht
          rw [e] at ht hlt
          rw [List.getElem?_set_self hlt] at ht
          cases ht
          have hres := h1.res
          rw [hr] at hres
          rw [if_neg]
          rintro ⟨rfl, hlt2⟩
          rw [e] at hlt2
          split at hres
          · cases hres
          · injection hres with hres
            omega

theorem Presents.run {E : Env F} {res0 : Option Nat} : ∀ {calls : List Call} {m m' : Stream F}, Presents E.ops res0 m → run E m calls = .ok m' →
    Presents E.ops res0 m' := by
  intro calls
  induction calls with
  | nil => intro m m' h hr; cases hr; exact h
  | cons c cs ih =>
    intro m m' h hr
    simp only [Props.run] at hr
    obtain ⟨m1, h1, hr⟩ := bind_ok.1 hr
    exact ih (h.call h1) hr

theorem SStart.presents {O : FloatOps F} {m : Stream F} {vals : List Int} {r : Bool} {cap : Int} (h : SStart O m vals r cap) :
    Presents O m.builder.result m ∧ (r = false → m.builder.result = none) ∧ (r = true → m.builder.result = some 0) := by
  cases h with
  | fresh h => exact ⟨⟨Or.inl rfl, ⟨rfl, rfl, rfl⟩, (by rintro i h; cases h), (by rintro i s h; cases h)⟩, fun _ => rfl, fun h => by cases h⟩
  | loaded h1 h2 h3 h4 =>
    simp only [Stream.ofSaved] at h4
    obtain ⟨d, hd, h4⟩ := bind_ok.1 h4
    obtain ⟨b, hb, h4⟩ := bind_ok.1 h4
    cases h4
    simp only [Builder.ofSaved] at hb
    obtain ⟨s, _, hb⟩ := bind_ok.1 hb
    cases hb
    exact ⟨⟨Or.inr rfl, ⟨rfl, rfl, rfl⟩, (by rintro i h; cases h), (by rintro i s h; cases h)⟩, (fun h => by cases h), fun _ => rfl⟩

/-- C78: after any history `update_dict` makes the model show the dictionary of the last reduction: rebuilds number 1, 3, 5, …
expand and numbers 2, 4, 6, … reduce, so after `n` rebuilds this is number `2 * (n / 2)`, number 0 being the one the model
started with.  The only exception is a fresh model with one rebuild, which shows that expansion.  `alphabet()` is then the list
of its words, and the probability stored with the model is the one of that dictionary; a fresh model with fewer than two
rebuilds stores -1 instead. -/
theorem C78_update_shows (E : Env F) (L : EnvLaws E) (SL : ScoreLaws E.ops) (m0 : Stream F) (vals : List Int) (calls : List Call) (r : Bool)
    (h : Admissible E.ops m0 vals calls r) :
    ∃ (m m' : Stream F) (n j : Nat) (s : StatDict F) (ws : List IntSeq), run E m0 calls = .ok m ∧ m.updateDict E.ops = .ok m' ∧
      n = rebuilds m ∧ j = (if n = 1 ∧ m0.builder.result = none then 1 else 2 * (n / 2)) ∧
      m'.dict = .stat j ∧ m.builder.stats[j]? = some s ∧ m'.alphabet = .ok ws ∧ List.Forall₂ (fun w x => m.coder.decode w = .ok x) s.dict.seqs ws ∧
      m'.minProb = some (if m0.builder.result = none ∧ n < 2 then E.ops.ofInt (-1) else s.minProb) := by
  obtain ⟨m, h1, inv, _⟩ := h.inv L SL
  obtain ⟨r0, cap, k1, k2, k3⟩ := h.start
  obtain ⟨p, _, _⟩ := k1.presents
  have hp := p.run h1
  obtain ⟨m', u1, u2, u3, _, u5, u6, u7, _, u9, u10⟩ := inv.updateDict (O := E.ops)
  have hp' := hp.call (c := .update) u1
  have hn : rebuilds m = m.builder.current := by
    have := hp.turns.last
    unfold rebuilds
    omega
  have hidx := hp.turns.resultIdx hp.start
  have hlt := inv.tinv.resultIdx_lt
  have hs := List.getElem?_eq_getElem hlt
  generalize m.builder.stats[m.builder.resultIdx] = s at hs
  have hl := inv.tinv.heap s (List.mem_of_getElem? hs)
  have hs' : ∃ s', m'.builder.stats[m.builder.resultIdx]? = some s' ∧ s'.dict = s.dict ∧ s'.minProb = s.minProb := by
    by_cases he : m.dict = .stat m.builder.resultIdx
    · rw [u9 he]
      exact ⟨s, hs, rfl, rfl⟩
    · obtain ⟨t, t1, _, _, _, t5⟩ := u10 he
      rw [hs] at t1
      cases t1
      exact ⟨{ s with symbolFreqs := StatDict.padTo s.symbolFreqs s.size }, by rw [t5, List.getElem?_set_self hlt], rfl, rfl⟩
  obtain ⟨s', e1, e2, e3⟩ := hs'
  have hd : m'.getDict = .ok s.dict := by
    simp only [Stream.getDict, u3]
    rw [rd_nat_ok.2 e1, ← e2]
    rfl
  have hj : m.builder.resultIdx = if rebuilds m = 1 ∧ m0.builder.result = none then 1 else 2 * (rebuilds m / 2) := by rw [hidx, hn]
  refine ⟨m, m', rebuilds m, m.builder.resultIdx, s, decodeWords (vals ++ accepted calls) s.dict.seqs, h1, u1, rfl, hj, u3, hs, ?_, ?_, ?_⟩
  · simp only [Stream.alphabet, hd, ok_bind, u7]
    exact decodeAll_ok inv.coder hl.symbols
  · unfold decodeWords
    rw [List.forall₂_map_right_iff, List.forall₂_same]
    intro w hw
    rw [inv.coder.decode, if_pos (hl.symbols w hw)]
  · rw [hp'.mp _ _ u3 e1, e3]
    congr 2
    have : (m.builder.resultIdx < 2) = (rebuilds m < 2) := by
      rw [hidx, hn]
      apply propext
      by_cases hc : m.builder.current = 1 ∧ m0.builder.result = none
      · rw [if_pos hc]; omega
      · rw [if_neg hc]; omega
    rw [this]

/-- The number of rebuilds, whether the stored probability is -1, and the alphabet shown by a following `update_dict`. -/
def shown (m0 : Stream (Ext Rat)) (calls : List Call) : M (Nat × Bool × List IntSeq) := do
  let m ← run quickEnv m0 calls
  let m' ← m.updateDict quickEnv.ops
  let ws ← m'.alphabet
  pure (rebuilds m, m'.minProb == some (.fin (-1)), ws)

set_option synthInstance.maxSize 2000 in
example : (shown (Stream.new quickEnv.ops 4) [.accept [5, 6, 5, 6, 5]],
    shown (Stream.new quickEnv.ops 4) [.accept [5, 6, 5, 6, 5], .update, .accept [5, 6]],
    shown (Stream.new quickEnv.ops 4) [.accept [5, 6, 5, 6, 5], .update, .accept [5, 6], .accept [5, 6, 6, 5, 6]]) =
  (.ok (1, true, [[5], [5, 6], [6], [6, 5]]), .ok (2, false, [[5], [5, 6], [6]]), .ok (3, false, [[5], [5, 6], [6]])) := by decide +kernel

set_option synthInstance.maxSize 2000 in
example : (do
    let m0 ← Stream.ofSaved quickEnv.ops (coderAfter [[5, 6]]) [1, 1, 1] [[0], [0, 1], [1]] 4 (.fin (1 / 500))
    shown m0 [.accept [5, 6, 6, 6, 5, 6, 6]]) = .ok (1, false, [[5], [5, 6], [6]]) := by decide +kernel

end VGram.Props
