import Verif.Model.Builder
import Verif.Proofs.Reduce

/-! # Training in admissible histories -/

namespace VGram

open Spec

variable {F : Type}

/-- What is known of dictionary objects the builder does not work on. -/
structure Loose (n : Nat) (s : StatDict F) : Prop where
  wf : WF s.dict
  symbols : ∀ w ∈ s.dict.seqs, ∀ x ∈ w, 0 ≤ x ∧ x < (n : Int)
  freqs : ∀ f ∈ s.symbolFreqs, 0 ≤ f
  short : s.symbolFreqs.length ≤ s.dict.seqs.length
  closed : Closed s.dict.seqs
  sorted : s.dict.seqs.Pairwise (· < ·) → Sorted s.dict

theorem Loose.mono {n m : Nat} {s : StatDict F} (h : Loose n s) (hm : n ≤ m) : Loose m s :=
  ⟨h.wf, fun w hw x hx => by have := h.symbols w hw x hx; omega, h.freqs, h.short, h.closed, h.sorted⟩

/-- Invariant of a builder in admissible training; `n` symbols `0 … n-1` have been seen. -/
structure TInv (b : Builder F) (n : Nat) : Prop where
  heap : ∀ s ∈ b.stats, Loose n s
  cur : ∃ s, b.stats[b.current]? = some s ∧ Healthy s ∧ ∀ x : Int, [x] ∈ s.dict.seqs ↔ 0 ≤ x ∧ x < (n : Int)
  res : ∀ i, b.result = some i → i < b.stats.length
  alpha : (b.symbAlphabet.length : Int) ≤ b.size

theorem rateLoop_ok (O : FloatOps F) {s : StatDict F} : ∀ (l : List Nat) (sum : F) (tl : Int), (∀ i ∈ l, i < s.dict.seqs.length) →
    ∃ r, Builder.rateLoop O s l sum tl = .ok r := by
  intro l
  induction l with
  | nil => intro sum tl _; exact ⟨_, rfl⟩
  | cons i l ih =>
    intro sum tl h
    obtain ⟨r, hr⟩ := ih (if 0 < s.freq (i : Int) then O.sub sum (O.div (StatDict.xlogx O (s.freq (i : Int))) (O.log (O.ofInt 2))) else sum)
      (tl + ((s.dict.seqs[i]'(h i (by simp))).length : Int) * s.freq (i : Int)) fun j hj => h j (by simp [hj])
    exact ⟨r, by simp only [Builder.rateLoop, IntDict.get, rd_of_lt (h i (by simp)), ok_bind, hr]⟩

theorem compressionRate_ok (O : FloatOps F) (s : StatDict F) : ∃ r, Builder.compressionRate O s = .ok r := by
  obtain ⟨⟨a, b⟩, h⟩ := rateLoop_ok O (s := s) (List.range s.size) (O.ofInt 0) 0 (by
    intro i hi; simpa [StatDict.size, IntDict.size] using hi)
  exact ⟨O.div (O.div (O.add a (O.div (StatDict.xlogx O s.power) (O.log (O.ofInt 2)))) (O.ofInt 8)) (O.ofInt b),
    by simp only [Builder.compressionRate, h, ok_bind, pure_M]⟩

theorem newSymbols_spec {d : IntDict} (hd : d.parents.length = d.seqs.length) (A : Nat) :
    ∀ (l : List Nat) (k : Nat), (∀ i ∈ l, i < d.seqs.length) →
    ∃ ws, Builder.newSymbols d A l k = .ok ws ∧
      ws.length + max k (A + 1) =
        max (k + (l.filter fun n => match d.parents[n]? with | some (p : Int) => decide (p < 0) | none => false).length) (A + 1) := by
  intro l
  induction l with
  | nil => intro k _; exact ⟨[], rfl, by simp⟩
  | cons i l ih =>
    intro k h
    have hi : i < d.parents.length := by rw [hd]; exact h i (by simp)
    have hi' : i < d.seqs.length := h i (by simp)
    simp only [Builder.newSymbols, IntDict.parent, rd_of_lt hi, ok_bind, List.filter_cons, List.getElem?_eq_getElem hi]
    by_cases hp : d.parents[i] < 0
    · obtain ⟨ws, h1, h2⟩ := ih (k + 1) fun j hj => h j (by simp [hj])
      rw [if_pos hp]
      by_cases hA : A < k
      · rw [if_pos hA]
        refine ⟨d.seqs[i] :: ws, by simp only [IntDict.get, rd_of_lt hi', ok_bind, h1, pure_M], ?_⟩
        simp only [hp, decide_true, if_true, List.length_cons]
        omega
      · rw [if_neg hA]
        refine ⟨ws, h1, ?_⟩
        simp only [hp, decide_true, if_true, List.length_cons]
        omega
    · obtain ⟨ws, h1, h2⟩ := ih k fun j hj => h j (by simp [hj])
      rw [if_neg hp]
      refine ⟨ws, h1, ?_⟩
      simp only [hp, decide_false, if_false, Bool.false_eq_true]
      omega

theorem singles_eq {words : List IntSeq} (hnd : words.Nodup) {n : Nat} (h : ∀ x : Int, [x] ∈ words ↔ 0 ≤ x ∧ x < (n : Int)) :
    singles words = n := by
  have : (words.filter fun w => w.length == 1).Perm ((List.range n).map fun i : Nat => [(i : Int)]) := by
    rw [List.perm_ext_iff_of_nodup (hnd.filter _)]
    · intro w
      simp only [List.mem_filter, beq_iff_eq, List.mem_map, List.mem_range]
      constructor
      · rintro ⟨h1, h2⟩
        obtain ⟨x, rfl⟩ := List.length_eq_one_iff.1 h2
        have := (h x).1 h1
        exact ⟨x.toNat, by omega, by simp; omega⟩
      · rintro ⟨i, hi, rfl⟩
        exact ⟨(h _).2 ⟨by omega, by omega⟩, rfl⟩
    · refine (List.nodup_map_iff ?_).2 List.nodup_range
      intro a b hab
      simpa using hab
  unfold singles
  rw [this.length_eq]
  simp

/-- Words of a healthy dictionary with symbols `0 … n-1`. -/
theorem Healthy.symbols {s : StatDict F} (h : Healthy s) {n : Nat} (hn : ∀ x : Int, [x] ∈ s.dict.seqs ↔ 0 ≤ x ∧ x < (n : Int)) :
    ∀ w ∈ s.dict.seqs, ∀ x ∈ w, 0 ≤ x ∧ x < (n : Int) := fun w hw x hx => (hn x).1 (h.closed w hw x hx)

theorem Healthy.loose {s : StatDict F} (h : Healthy s) {n : Nat} (hn : ∀ x : Int, [x] ∈ s.dict.seqs ↔ 0 ≤ x ∧ x < (n : Int)) :
    Loose n s := ⟨h.inv.wf, h.symbols hn, h.inv.nonneg, h.full.le, h.closed, fun _ => h.sorted⟩

/-- `Arrive` is a special case of `Fits`. -/
theorem arrive_fits {n m : Nat} {seq : IntSeq} (h : Arrive n seq m) : ∀ {words : List IntSeq}, Closed words →
    (∀ w ∈ words, w ≠ []) → (∀ x : Int, [x] ∈ words ↔ 0 ≤ x ∧ x < (n : Int)) →
    ∃ out, Fits words seq out ∧ (∀ x : Int, [x] ∈ out ↔ 0 ≤ x ∧ x < (m : Int)) ∧
      (∀ w ∈ words, w ∈ out) ∧ out.length = words.length + (m - n) := by
  induction h with
  | nil => intro words _ _ hn; exact ⟨words, .nil, hn, fun w hw => hw, by simp⟩
  | known h0 h1 _ ih =>
    intro words hc hne hn
    obtain ⟨out, a, b, c, d⟩ := ih hc hne hn
    exact ⟨out, .known ((hn _).2 ⟨h0, h1⟩) a, b, c, d⟩
  | @fresh n m xs h2 ih =>
    intro words hc hne hn
    have hle : n + 1 ≤ m := by
      clear ih hn
      have : ∀ {a b : Nat} {l : IntSeq}, Arrive a l b → a ≤ b := by
        intro a b l h
        induction h with
        | nil => exact le_refl _
        | known _ _ _ ih => exact ih
        | fresh _ ih => omega
      exact this h2
    obtain ⟨out, a, b, c, d⟩ := ih (words := words ++ [[(n : Int)]]) (by
      intro w hw x hx
      rcases List.mem_append.1 hw with hw | hw
      · exact List.mem_append_left _ (hc w hw x hx)
      · simp at hw; subst hw; simp at hx; subst hx; simp) (by
      intro w hw
      rcases List.mem_append.1 hw with hw | hw
      · exact hne w hw
      · simp at hw; simp [hw]) (by
      intro x
      rw [List.mem_append, hn]
      simp
      omega)
    refine ⟨out, .fresh ?_ a, b, fun w hw => c w (List.mem_append_left _ hw), by rw [d]; simp; omega⟩
    intro w hw y hy
    obtain ⟨t, rfl⟩ : ∃ t, w = y :: t := by
      cases w with
      | nil => simp at hy
      | cons a t => simp at hy; exact ⟨t, by rw [hy]⟩
    exact ((hn y).1 (hc _ hw y (by simp))).2

theorem arrive_le {a b : Nat} {l : IntSeq} (h : Arrive a l b) : a ≤ b := by
  induction h with
  | nil => exact le_refl _
  | known _ _ _ ih => exact ih
  | fresh _ ih => omega

theorem noteRate_fields (O : FloatOps F) (b : Builder F) (r : F) : (b.noteRate O r).size = b.size ∧
    (b.noteRate O r).symbAlphabet = b.symbAlphabet ∧ (b.noteRate O r).stats = b.stats ∧ (b.noteRate O r).current = b.current ∧
    (b.noteRate O r).result = b.result ∧ (b.noteRate O r).populate = b.populate := by
  unfold Builder.noteRate
  split
  · exact ⟨rfl, rfl, rfl, rfl, rfl, rfl⟩
  · split <;> exact ⟨rfl, rfl, rfl, rfl, rfl, rfl⟩

/-- What an effective update did. -/
structure Updated (E : Env F) (b b' : Builder F) (s s' : StatDict F) (words : List IntSeq) (freqs : List Int) (mp : F) : Prop where
  cur : b.stats[b.current]? = some s
  work : b.rebuild E s = .ok (words, freqs, mp)
  made : StatDict.ofSeqs words mp (some freqs) = .ok s'
  stats : b'.stats = b.stats ++ [s']
  current : b'.current = b.stats.length
  result : b'.result = if b.populate = true then b.result else some b.stats.length
  populate : b'.populate = !b.populate
  size : b'.size = b.size
  alpha : ∃ fresh, b'.symbAlphabet = b.symbAlphabet ++ fresh ∧
    Builder.newSymbols s'.dict b.symbAlphabet.length (List.range s'.size) 0 = .ok fresh

/-- A successful update either does nothing or is described by `Updated`. -/
theorem update_cases {E : Env F} {b b' : Builder F} (h : b.update E = .ok b') :
    (b' = b ∧ ∃ s, b.stats[b.current]? = some s ∧ b.ready E.ops s = false) ∨
    ∃ s s' words freqs mp, b.ready E.ops s = true ∧ Updated E b b' s s' words freqs mp := by
  unfold Builder.update at h
  obtain ⟨s, hs, h⟩ := bind_ok.1 h
  have hs' : b.stats[b.current]? = some s := rd_nat_ok.1 hs
  dsimp only at h
  split at h
  · next hr =>
    cases h
    exact Or.inl ⟨rfl, s, hs', by simpa using hr⟩
  · next hr =>
    obtain ⟨rate, _, h⟩ := bind_ok.1 h
    obtain ⟨⟨words, freqs, mp⟩, hw, h⟩ := bind_ok.1 h
    obtain ⟨s', hs2, h⟩ := bind_ok.1 h
    obtain ⟨fresh, hf, h⟩ := bind_ok.1 h
    cases h
    obtain ⟨f1, f2, f3, f4, f5, f6⟩ := noteRate_fields E.ops b rate
    refine Or.inr ⟨s, s', words, freqs, mp, by simpa using hr, hs', hw, hs2, rfl, rfl, rfl, rfl, f1, fresh, rfl, hf⟩

theorem cur_eq {b : Builder F} {s : StatDict F} (h : b.stats[b.current]? = some s) : b.cur = .ok s := rd_nat_ok.2 h

/-- The update of an admissible training state succeeds and keeps the invariant. -/
theorem update_tinv {E : Env F} (L : EnvLaws E) (SL : ScoreLaws E.ops) {b : Builder F} {n : Nat} (h : TInv b n)
    (hn : (n : Int) ≤ b.size + 1) : ∃ b', b.update E = .ok b' ∧ TInv b' n ∧ b'.size = b.size ∧
      (b' = b ∨ (b'.symbAlphabet.length = max b.symbAlphabet.length (n - 1) ∧
        (b.populate = false → ∃ s', b'.stats[b.stats.length]? = some s' ∧ b'.result = some b.stats.length ∧
          (s'.dict.seqs.length : Int) ≤ b.size - (b.symbAlphabet.length : Int) + n))) := by
  obtain ⟨s, hs, hh, hsym⟩ := h.cur
  by_cases hr : b.ready E.ops s = true
  · obtain ⟨rate, hrate⟩ := compressionRate_ok E.ops s
    have hpf : prefixFree s.dict.seqs = n := by rw [hh.prefixFree, singles_eq hh.sorted.nodup hsym]
    have hal := h.alpha
    -- the new words
    have key : ∃ words freqs mp, b.rebuild E s = .ok (words, freqs, mp) ∧ words.Nodup ∧
        (∀ f ∈ freqs, 0 ≤ f) ∧ (∀ x, [x] ∈ s.dict.seqs → [x] ∈ words) ∧
        (∀ w ∈ words, w ≠ [] ∧ ∀ x ∈ w, [x] ∈ s.dict.seqs) ∧
        (b.populate = false → (words.length : Int) ≤ b.size - (b.symbAlphabet.length : Int) + n) := by
      by_cases hp : b.populate = true
      · obtain ⟨words, freqs, mp, e1, e2, e3, e4, e5, e6, e7⟩ := expand_spec L hh.expOk (b.expandSlots E.ops s)
        have hsl : 0 ≤ b.expandSlots E.ops s := by
          unfold Builder.expandSlots
          dsimp only
          split
          · omega
          · exact L.factor _
        refine ⟨words, freqs, mp, by rw [Builder.rebuild, if_pos hp]; exact e1, e2, e7, fun x hx => e4 hsl _ hx, ?_, fun hc => by rw [hp] at hc; cases hc⟩
        intro w hw
        rcases e5 w hw with hw | ⟨a, c, hk, rfl⟩
        · exact ⟨hh.sorted.nonempty w hw, fun x hx => hh.closed w hw x hx⟩
        · obtain ⟨e, he, hek⟩ := List.mem_map.1 hk
          have hpk := hh.pkey e he
          rw [hek] at hpk
          have ha := wordAt_mem hpk.1.1 hpk.1.2
          have hc := wordAt_mem hpk.2.1 hpk.2.2
          refine ⟨by simp [hh.sorted.nonempty _ ha], fun x hx => ?_⟩
          rcases List.mem_append.1 hx with hx | hx
          · exact hh.closed _ ha x hx
          · exact hh.closed _ hc x hx
      · obtain ⟨words, freqs, mp, e1, e2, e3, e4, e5, e6, e7, e8, _⟩ := reduce_spec L SL hh (b.size - (b.symbAlphabet.length : Int))
        have hsg : singles s.dict.seqs = n := singles_eq hh.sorted.nodup hsym
        refine ⟨words, freqs, mp, by rw [Builder.rebuild, if_neg hp]; exact e1, e2, e8, e5 (by rw [hpf, hsg]; omega), ?_, fun _ => ?_⟩
        · intro w hw
          exact ⟨hh.sorted.nonempty w (e4 w hw), fun x hx => hh.closed w (e4 w hw) x hx⟩
        · have := e7 (by omega)
          omega
    obtain ⟨words, freqs, mp, hw, hnd, hfr, hsing, hclosed, hlen⟩ := key
    obtain ⟨s', o1, o2, o3, o4, o5, o6⟩ := Healthy.ofSeqs hnd (fun w hw => (hclosed w hw).1)
      (fun w hw x hx => hsing x ((hclosed w hw).2 x hx)) mp (some freqs) (by
        intro l hl
        cases hl
        exact hfr)
    have hmem : ∀ w, w ∈ s'.dict.seqs ↔ w ∈ words := fun w => by rw [o3]; exact (sortSeqs_perm words).mem_iff
    have hsym' : ∀ x : Int, [x] ∈ s'.dict.seqs ↔ 0 ≤ x ∧ x < (n : Int) := by
      intro x
      rw [hmem, ← hsym]
      exact ⟨fun hx => (hclosed _ hx).2 x (by simp), hsing x⟩
    obtain ⟨fresh, n1, n2⟩ := newSymbols_spec o2.sorted.len b.symbAlphabet.length (List.range s'.size) 0 (by
      intro i hi; simpa [StatDict.size, IntDict.size] using hi)
    have hroots : ((List.range s'.size).filter (rootAt s')).length = n := by
      have hc := countRoots_eq o2.sorted (List.range s'.size) (by intro i hi; simpa [StatDict.size, IntDict.size] using hi)
      have : ((List.range s'.dict.seqs.length).filter (rootAt s')).length =
          (s'.dict.seqs.filter fun w => w.length == 1).length := by
        apply filter_range
        intro i w hw
        have hi := (List.getElem?_eq_some_iff.1 hw).1
        have hi' : i < s'.dict.parents.length := by rw [o2.sorted.len]; exact hi
        have h1 := isParent_root o2.sorted hw (o2.sorted.par i _ (List.getElem?_eq_getElem hi'))
        have h2 := root_single o2.sorted.nonempty o2.closed (List.mem_of_getElem? hw)
        unfold rootAt
        rw [List.getElem?_eq_getElem hi', Bool.eq_iff_iff]
        simp only [decide_eq_true_eq, beq_iff_eq]
        exact h1.trans h2
      show ((List.range s'.dict.seqs.length).filter (rootAt s')).length = n
      rw [this]
      exact singles_eq o2.sorted.nodup hsym'
    have hfl : fresh.length + max 0 (b.symbAlphabet.length + 1) = max (0 + n) (b.symbAlphabet.length + 1) := by
      rw [← hroots]; exact n2
    obtain ⟨f1, f2, f3, f4, f5, f6⟩ := noteRate_fields E.ops b rate
    refine ⟨{ b.noteRate E.ops rate with
        stats := b.stats ++ [s']
        current := b.stats.length
        result := if b.populate then b.result else some b.stats.length
        symbAlphabet := b.symbAlphabet ++ fresh
        populate := !b.populate }, by
      simp only [Builder.update, cur_eq hs, ok_bind, hr, Bool.not_true, Bool.false_eq_true, if_false, hrate, hw, o1, n1, pure_M],
      ⟨?_, ⟨s', by simp, o2, hsym'⟩, ?_, ?_⟩, f1, Or.inr ⟨?_, ?_⟩⟩
    · intro t ht
      rcases List.mem_append.1 ht with ht | ht
      · exact h.heap t ht
      · rw [List.mem_singleton] at ht
        exact ht ▸ o2.loose hsym'
    · intro i hi
      simp only at hi ⊢
      rw [List.length_append, List.length_singleton]
      split at hi
      · have := h.res i hi; omega
      · cases hi; omega
    · simp only [List.length_append, f1]
      push_cast
      omega
    · simp only [List.length_append]
      omega
    · intro hp
      refine ⟨s', by simp, by simp [hp], ?_⟩
      rw [o3, sortSeqs_length]
      exact hlen hp
  · refine ⟨b, ?_, h, rfl, Or.inl rfl⟩
    simp only [Builder.update, cur_eq hs, ok_bind, hr, Bool.not_false, if_true, pure_M]

/-- The parsing half of `accept`. -/
theorem accept_parse {E : Env F} (SL : ScoreLaws E.ops) {b : Builder F} {n m : Nat} (h : TInv b n) {seq : IntSeq}
    (hseq : Arrive n seq m) :
    ∃ s s' ids, b.stats[b.current]? = some s ∧ s.parse E.ops seq [] = .ok (s', ids, (ids.length : Int)) ∧
      TInv { b with stats := b.stats.set b.current s' } m ∧ (∀ w ∈ s.dict.seqs, w ∈ s'.dict.seqs) ∧
      s'.dict.seqs.length = s.dict.seqs.length + (m - n) := by
  obtain ⟨s, hs, hh, hsym⟩ := h.cur
  obtain ⟨out, f1, f2, f3, f4⟩ := arrive_fits hseq hh.closed hh.sorted.nonempty hsym
  obtain ⟨s', ids, p1, p2, p3, _⟩ := hh.parse SL f1
  have hc : b.current < b.stats.length := (List.getElem?_eq_some_iff.1 hs).1
  refine ⟨s, s', ids, hs, p1, ⟨?_, ⟨s', ?_, p2, by rw [p3]; exact f2⟩, ?_, h.alpha⟩, by rw [p3]; exact f3, by rw [p3]; exact f4⟩
  · intro t ht
    rcases List.mem_or_eq_of_mem_set ht with ht | rfl
    · exact (h.heap t ht).mono (arrive_le hseq)
    · exact p2.loose (by rw [p3]; exact f2)
  · simp [hc]
  · intro i hi
    simp only [List.length_set]
    exact h.res i hi

theorem accept_tinv {E : Env F} (L : EnvLaws E) (SL : ScoreLaws E.ops) {b : Builder F} {n m : Nat} (h : TInv b n)
    {seq : IntSeq} (hseq : Arrive n seq m) (hn : (m : Int) ≤ b.size + 1) :
    ∃ b', b.accept E seq = .ok b' ∧ TInv b' m ∧ b'.size = b.size := by
  obtain ⟨s, s', ids, hs, p, t, _⟩ := accept_parse SL h hseq
  by_cases hr : Builder.ready E.ops { b with stats := b.stats.set b.current s' } s' = true
  · obtain ⟨b', u1, u2, u3, _⟩ := update_tinv L SL t hn
    exact ⟨b', by simp only [Builder.accept, cur_eq hs, ok_bind, p, hr, if_true, u1], u2, u3⟩
  · exact ⟨_, by simp only [Builder.accept, cur_eq hs, ok_bind, p, hr, Bool.false_eq_true, if_false, pure_M], t, rfl⟩

theorem TInv.resultIdx_lt {b : Builder F} {n : Nat} (h : TInv b n) : b.resultIdx < b.stats.length := by
  unfold Builder.resultIdx
  cases hr : b.result with
  | some i => exact h.res i hr
  | none =>
    obtain ⟨s, hs, _⟩ := h.cur
    exact (List.getElem?_eq_some_iff.1 hs).1

theorem Healthy.pad {s : StatDict F} (h : Healthy s) : StatDict.padTo s.symbolFreqs s.size = s.symbolFreqs := by
  simp [StatDict.padTo, StatDict.size, IntDict.size, h.full]

/-- Replacing the frequencies of a dictionary object other than the working one. -/
theorem TInv.setLoose {b : Builder F} {n : Nat} (h : TInv b n) {i : Nat} {s : StatDict F} (hs : Loose n s)
    (hc : i = b.current → Healthy s ∧ ∀ x : Int, [x] ∈ s.dict.seqs ↔ 0 ≤ x ∧ x < (n : Int)) : TInv { b with stats := b.stats.set i s } n := by
  refine ⟨?_, ?_, fun j hj => by simp only [List.length_set]; exact h.res j hj, h.alpha⟩
  · intro t ht
    rcases List.mem_or_eq_of_mem_set ht with ht | rfl
    · exact h.heap t ht
    · exact hs
  · obtain ⟨t, ht, h1, h2⟩ := h.cur
    have hlt := (List.getElem?_eq_some_iff.1 ht).1
    by_cases he : i = b.current
    · obtain ⟨c1, c2⟩ := hc he
      exact ⟨s, by simp [he, hlt], c1, c2⟩
    · exact ⟨t, by simp only; rw [List.getElem?_set_ne he]; exact ht, h1, h2⟩

/-- Reading the frequencies of the published dictionary. -/
theorem resultFreqs_tinv {b : Builder F} {n : Nat} (h : TInv b n) (freqs : List Int) :
    ∃ s, b.stats[b.resultIdx]? = some s ∧
      b.resultFreqs freqs = .ok ({ b with stats := b.stats.set b.resultIdx { s with symbolFreqs := StatDict.padTo s.symbolFreqs s.size } },
        freqs ++ StatDict.padTo s.symbolFreqs s.size) ∧
      TInv { b with stats := b.stats.set b.resultIdx { s with symbolFreqs := StatDict.padTo s.symbolFreqs s.size } } n := by
  have hs : b.stats[b.resultIdx]? = some (b.stats[b.resultIdx]'h.resultIdx_lt) := List.getElem?_eq_getElem h.resultIdx_lt
  have hh := h.heap _ (List.mem_of_getElem? hs)
  refine ⟨_, hs, by simp only [Builder.resultFreqs, rd_nat_ok.2 hs, ok_bind, pure_M], ?_⟩
  refine h.setLoose ⟨hh.wf, hh.symbols, padTo_nonneg hh.freqs _, by have := hh.short; rw [padTo_length]; simp only [StatDict.size, IntDict.size]; omega, hh.closed, hh.sorted⟩ fun hi => ?_
  obtain ⟨t, ht, h1, h2⟩ := h.cur
  rw [← hi, hs] at ht
  cases ht
  rw [h1.pad]
  exact ⟨h1, h2⟩

end VGram
