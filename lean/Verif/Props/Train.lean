import Verif.Props.Builder
import Mathlib.Analysis.SpecialFunctions.Log.Basic

/-!
# Properties of training histories (C18, C23 – C26)

These hold for every starting state and every calls, admissible or not, as long as no call faults.
-/

namespace VGram.Props

open VGram Spec

variable {F : Type}

theorem train_append {E : Env F} : ∀ (xs ys : List Act) {b b' : Builder F}, train E b (xs ++ ys) = .ok b' ↔
    ∃ b1, train E b xs = .ok b1 ∧ train E b1 ys = .ok b' := by
  intro xs
  induction xs with
  | nil => intro ys b b'; simp [train]
  | cons a xs ih =>
    intro ys b b'
    rw [List.cons_append, train, train]
    rw [bind_ok]
    constructor
    · rintro ⟨b1, h1, h2⟩
      obtain ⟨b2, h3, h4⟩ := (ih ys).1 h2
      exact ⟨b2, bind_ok.2 ⟨b1, h1, h3⟩, h4⟩
    · rintro ⟨b2, h3, h4⟩
      obtain ⟨b1, h1, h2⟩ := bind_ok.1 h3
      exact ⟨b1, h1, (ih ys).2 ⟨b2, h2, h4⟩⟩

/-- A relation that holds across single calls and composes holds across training. -/
theorem train_rel {E : Env F} {I : Builder F → Prop} {R : Builder F → Builder F → Prop} (hrefl : ∀ b, R b b)
    (htrans : ∀ a b c, R a b → R b c → R a c) (hact : ∀ b b' a, I b → act E b a = .ok b' → I b' ∧ R b b') :
    ∀ (acts : List Act) {b b' : Builder F}, I b → train E b acts = .ok b' → I b' ∧ R b b' := by
  intro acts
  induction acts with
  | nil => intro b b' hb h; cases h; exact ⟨hb, hrefl b⟩
  | cons a acts ih =>
    intro b b' hb h
    obtain ⟨b1, h1, h2⟩ := bind_ok.1 h
    obtain ⟨i1, r1⟩ := hact b b1 a hb h1
    obtain ⟨i2, r2⟩ := ih i1 h2
    exact ⟨i2, htrans _ _ _ r1 r2⟩

/-! ## C18 -/

/-- The minimal-probability invariant of a builder. -/
structure BQ {O : FloatOps F} (P : ProbLaws O) (b : Builder F) : Prop where
  heap : ∀ s ∈ b.stats, QInv P s
  res : b.resultIdx < b.stats.length
  cur : b.current < b.stats.length

/-- Every minimal probability in the heap stays where it is, and the current one does not increase. -/
def MinLe (O : FloatOps F) (b b' : Builder F) : Prop :=
  ∀ s s', b.stats[b.current]? = some s → b'.stats[b'.current]? = some s' → O.lt s.minProb s'.minProb = false

theorem update_minle {E : Env F} (P : ProbLaws E.ops) (hsort : ∀ l, (E.sortItems l).Perm l) (hord : ∀ p, (E.pairOrder p).Perm p)
    {b b' : Builder F} (hb : BQ P b) (h : b.update E = .ok b') : BQ P b' ∧ MinLe E.ops b b' := by
  rcases update_cases h with ⟨rfl, _⟩ | ⟨s, s', words, freqs, mp, _, u⟩
  · refine ⟨hb, ?_⟩
    intro s s' h1 h2
    rw [h1] at h2
    cases h2
    exact ProbLaws.refl P (hb.heap s (List.mem_of_getElem? h1)).ok
  · have hq := hb.heap s (List.mem_of_getElem? u.cur)
    have hm : P.Ok mp ∧ E.ops.lt s.minProb mp = false := by
      have := u.work
      unfold Builder.rebuild at this
      split at this
      · exact expand_min P (fun l a ha => (hsort l).mem_iff.1 ha) (fun p e he => (hord p).mem_iff.1 he) hq this
      · exact reduce_min P (fun l a ha => (hsort l).mem_iff.1 ha) hq this
    obtain ⟨q1, q2⟩ := ofSeqs_qinv hm.1 u.made
    refine ⟨⟨?_, ?_, by rw [u.stats, u.current]; simp⟩, ?_⟩
    · rw [u.stats]
      intro t ht
      rcases List.mem_append.1 ht with ht | ht
      · exact hb.heap t ht
      · rw [List.mem_singleton] at ht
        exact ht ▸ q1
    · unfold Builder.resultIdx
      rw [u.result, u.stats, u.current]
      have := hb.res
      unfold Builder.resultIdx at this
      split
      · next i hi =>
        split at hi
        · rw [hi] at this; simp at this ⊢; omega
        · cases hi; simp
      · simp
    · intro t t' h1 h2
      rw [u.cur] at h1
      cases h1
      rw [u.stats, u.current] at h2
      simp at h2
      subst h2
      rw [q2]
      exact hm.2

theorem act_minle {E : Env F} (P : ProbLaws E.ops) (hsort : ∀ l, (E.sortItems l).Perm l) (hord : ∀ p, (E.pairOrder p).Perm p)
    {b b' : Builder F} (hb : BQ P b) {a : Act} (h : act E b a = .ok b') : BQ P b' ∧ MinLe E.ops b b' := by
  cases a with
  | update => exact update_minle P hsort hord hb h
  | accept seq =>
    simp only [act, Builder.accept] at h
    obtain ⟨s, hs, h⟩ := bind_ok.1 h
    obtain ⟨⟨s', r⟩, hp, h⟩ := bind_ok.1 h
    have hs' : b.stats[b.current]? = some s := rd_nat_ok.1 hs
    obtain ⟨q1, q2⟩ := parse_qinv (hb.heap s (List.mem_of_getElem? hs')) hp
    have hb1 : BQ P { b with stats := b.stats.set b.current s' } := by
      refine ⟨?_, ?_, ?_⟩
      · intro t ht
        rcases List.mem_or_eq_of_mem_set ht with ht | rfl
        · exact hb.heap t ht
        · exact q1
      · simp only [List.length_set]; exact hb.res
      · simp only [List.length_set]; exact hb.cur
    have hc := hb.cur
    have hm1 : MinLe E.ops b { b with stats := b.stats.set b.current s' } := by
      intro t t' h1 h2
      rw [hs'] at h1
      cases h1
      simp [hc] at h2
      subst h2
      rw [q2]
      exact ProbLaws.refl P (hb.heap s (List.mem_of_getElem? hs')).ok
    dsimp only at h
    split at h
    · obtain ⟨r1, r2⟩ := update_minle P hsort hord hb1 h
      refine ⟨r1, ?_⟩
      intro t t' h1 h2
      rw [hs'] at h1
      cases h1
      have := r2 s' t' (by simp [hc]) h2
      rw [← q2]
      exact this
    · cases h
      exact ⟨hb1, hm1⟩
  | freqs =>
    simp only [act, Builder.resultFreqs] at h
    obtain ⟨⟨b1, _⟩, h1, h⟩ := bind_ok.1 h
    obtain ⟨s, hs, h1⟩ := bind_ok.1 h1
    cases h
    cases h1
    have hs' : b.stats[b.resultIdx]? = some s := rd_nat_ok.1 hs
    have hq := hb.heap s (List.mem_of_getElem? hs')
    refine ⟨⟨?_, ?_, ?_⟩, ?_⟩
    · intro t ht
      rcases List.mem_or_eq_of_mem_set ht with ht | rfl
      · exact hb.heap t ht
      · refine ⟨?_, hq.pairs, hq.ok⟩
        intro f hf
        rcases List.mem_append.1 hf with hf | hf
        · exact hq.freqs f hf
        · rw [(List.mem_replicate.1 hf).2]
    · simp only [List.length_set]; exact hb.res
    · simp only [List.length_set]; exact hb.cur
    · intro t t' h1 h2
      simp only [List.getElem?_set] at h2
      split at h2
      · next he =>
        rw [he] at hs'
        rw [h1] at hs'
        cases hs'
        split at h2
        · cases h2
          exact ProbLaws.refl P hq.ok
        · cases h2
      · rw [h1] at h2
        cases h2
        exact ProbLaws.refl P (hb.heap t (List.mem_of_getElem? h1)).ok

/-- The states a constructor of the builder can produce (with any arguments for which it does not fault). -/
inductive Built (O : FloatOps F) (Ok : F → Prop) : Builder F → Prop
  | fresh (size : Int) : Built O Ok (Builder.new O size)
  | alphabet {d : IntDict} {size : Int} {b : Builder F} (h : Builder.ofAlphabet O d size = .ok b) : Built O Ok b
  | symbols {l : IntSeq} {size : Int} {b : Builder F} (h : Builder.ofSymbols O l size = .ok b) : Built O Ok b
  | saved {d : IntDict} {freqs : List Int} {alphabet : List IntSeq} {mp : F} {b : Builder F} (hmp : Ok mp)
      (h : Builder.ofSaved O d freqs alphabet mp = .ok b) : Built O Ok b

theorem ofAlphabet_one {O : FloatOps F} {d : IntDict} {size : Int} {b : Builder F} (h : Builder.ofAlphabet O d size = .ok b) :
    ∃ s, StatDict.ofSeqs d.seqs (Builder.kMaxMinProbability O) none = .ok s ∧
      b = ⟨size, d.seqs, [s], 0, none, true, O.lit 1 1, O.ofInt 1, 0⟩ := by
  obtain ⟨s, h1, h2⟩ := bind_ok.1 h
  cases h2
  exact ⟨s, h1, rfl⟩

theorem Built.bq {O : FloatOps F} (P : ProbLaws O) {b : Builder F} (h : Built O P.Ok b) : BQ P b := by
  have one : ∀ {b : Builder F} {s : StatDict F}, QInv P s → b.stats = [s] → b.current = 0 → b.resultIdx = 0 → BQ P b := by
    intro b s hs h1 h2 h3
    refine ⟨?_, by rw [h1, h3]; simp, by rw [h1, h2]; simp⟩
    intro t ht
    rw [h1, List.mem_singleton] at ht
    exact ht ▸ hs
  cases h with
  | fresh size =>
    exact one (s := StatDict.new (Builder.kMaxMinProbability O)) ⟨by simp [StatDict.new], by simp [StatDict.new], P.lit _ _⟩ rfl rfl rfl
  | alphabet h =>
    obtain ⟨s, h1, rfl⟩ := ofAlphabet_one h
    exact one (ofSeqs_qinv (P := P) (P.lit _ _) h1).1 rfl rfl rfl
  | symbols h =>
    obtain ⟨d, _, h⟩ := bind_ok.1 h
    obtain ⟨s, h1, rfl⟩ := ofAlphabet_one h
    exact one (ofSeqs_qinv (P := P) (P.lit _ _) h1).1 rfl rfl rfl
  | saved hmp h =>
    obtain ⟨s, h1, h2⟩ := bind_ok.1 h
    cases h2
    exact one (ofSeqs_qinv (P := P) hmp h1).1 rfl rfl rfl

/-- C18: along any training run from any constructed builder the minimal probability of the working dictionary never
increases, whatever permutations sorting and hash iteration produce and whatever is drawn at random. -/
theorem C18_min_prob_nonincreasing (E : Env F) (P : ProbLaws E.ops) (hsort : ∀ l, (E.sortItems l).Perm l)
    (hord : ∀ p, (E.pairOrder p).Perm p) (b0 b1 b2 : Builder F) (h0 : Built E.ops P.Ok b0) (before after : List Act)
    (h1 : train E b0 before = .ok b1) (h2 : train E b1 after = .ok b2) (s1 s2 : StatDict F)
    (hs1 : b1.cur = .ok s1) (hs2 : b2.cur = .ok s2) : E.ops.lt s1.minProb s2.minProb = false := by
  have key : ∀ (acts : List Act) {b b' : Builder F}, BQ P b → train E b acts = .ok b' → BQ P b' ∧ MinLe E.ops b b' := by
    intro acts
    induction acts with
    | nil =>
      intro b b' hb h
      cases h
      refine ⟨hb, ?_⟩
      intro s s' h1 h2
      rw [h1] at h2
      cases h2
      exact ProbLaws.refl P (hb.heap s (List.mem_of_getElem? h1)).ok
    | cons a acts ih =>
      intro b b' hb h
      obtain ⟨c, g1, g2⟩ := bind_ok.1 h
      obtain ⟨i1, m1⟩ := act_minle P hsort hord hb g1
      obtain ⟨i2, m2⟩ := ih i1 g2
      refine ⟨i2, ?_⟩
      intro s s' e1 e2
      have e3 : c.stats[c.current]? = some (c.stats[c.current]'i1.cur) := List.getElem?_eq_getElem i1.cur
      exact P.leTrans _ _ _ (i2.heap _ (List.mem_of_getElem? e2)).ok (i1.heap _ (List.mem_of_getElem? e3)).ok
        (hb.heap _ (List.mem_of_getElem? e1)).ok (m2 _ _ e3 e2) (m1 _ _ e1 e3)
  obtain ⟨i1, _⟩ := key before h0.bq h1
  obtain ⟨_, m⟩ := key after i1 h2
  exact m s1 s2 (rd_nat_ok.1 hs1) (rd_nat_ok.1 hs2)

/-- A run in which the minimal probability strictly decreases. -/
example : (match (do
      let b ← Builder.ofSaved quickEnv.ops ⟨[[0], [1], [2]], [-1, -1, -1]⟩ [1, 1, 1] [[0]] (.fin 1)
      train quickEnv b [.accept [0, 1, 0, 1, 2], .accept [0, 1, 2], .accept [2, 0, 1]] : M (Builder (Ext Rat))) with
    | .ok b => b.stats.map (fun s : StatDict (Ext Rat) => s.minProb) | .error _ => []) = [.fin 1, .fin (1 / 4), .fin (1 / 5), .fin (1 / 5)] := by decide +kernel

/-! ## C23 -/

theorem forward_ok_grow {O : FloatOps F} {freqs : List Int} {total : Int} {ex : Option (List Int)} :
    ∀ (seq : IntSeq) {pos : Nat} {d d' : IntDict} {t t' : DP F},
    IntDict.forward O freqs total ex pos seq d t = .ok (d', t') → Grow d d' seq := by
  intro seq
  induction seq with
  | nil => intro pos d d' t t' h; cases h; exact Grow.refl _ _
  | cons x xs ih =>
    intro pos d d' t t' h
    simp only [IntDict.forward] at h
    obtain ⟨⟨d1, sym⟩, h1, h⟩ := bind_ok.1 h
    have hd1 : Grow d d1 (x :: xs) := by
      rcases search_ok h1 with rfl | ⟨y, _, hy, rfl⟩
      · exact Grow.refl _ _
      · cases hy
        exact ⟨[x], rfl, rfl, by simp⟩
    refine hd1.trans ((?_ : Grow d1 d' xs).weaken fun y hy => by simp [hy])
    dsimp only at h
    split at h
    · exact ih h
    · obtain ⟨w, _, h⟩ := bind_ok.1 h
      exact ih h

theorem tally_dict : ∀ (l : List Int) (prev : Int) {s s' : StatDict F}, s.tally prev l = .ok s' → s'.dict = s.dict := by
  intro l
  induction l with
  | nil => intro prev s s' h; cases h; rfl
  | cons x l ih =>
    intro prev s s' h
    simp only [StatDict.tally] at h
    obtain ⟨s1, h1, h⟩ := bind_ok.1 h
    have : s1.dict = s.dict := by
      unfold StatDict.updateSymbol at h1
      obtain ⟨_, _, h1⟩ := bind_ok.1 h1
      obtain ⟨_, _, h1⟩ := bind_ok.1 h1
      obtain ⟨_, _, h1⟩ := bind_ok.1 h1
      obtain ⟨_, _, h1⟩ := bind_ok.1 h1
      cases h1
      rfl
    rw [ih _ h]
    split
    · exact this
    · exact this

theorem parse_ok_grow {O : FloatOps F} {s s' : StatDict F} {seq : IntSeq} {out : List Int} {r : List Int × Int}
    (h : s.parse O seq out = .ok (s', r)) : Grow s.dict s'.dict seq := by
  unfold StatDict.parse at h
  obtain ⟨⟨d, o, n⟩, h1, h⟩ := bind_ok.1 h
  obtain ⟨s2, ht, h⟩ := bind_ok.1 h
  cases h
  rw [tally_dict _ _ ht]
  unfold IntDict.parse IntDict.weightedParse at h1
  obtain ⟨⟨d', o', sc⟩, h2, h1⟩ := bind_ok.1 h1
  cases h1
  obtain ⟨⟨d2, t⟩, h3, h2⟩ := bind_ok.1 h2
  obtain ⟨_, _, h2⟩ := bind_ok.1 h2
  obtain ⟨_, _, h2⟩ := bind_ok.1 h2
  cases h2
  exact forward_ok_grow _ h3

/-- The words of a dictionary object after some calls: appended one-symbol words only, and only of accepted symbols. -/
def Extends (acts : List Act) (old new : List IntSeq) : Prop :=
  ∃ syms : List Int, new = old ++ syms.map (fun x => [x]) ∧ ∀ x ∈ syms, Occurs x acts

theorem Extends.refl (acts : List Act) (old : List IntSeq) : Extends acts old old := ⟨[], by simp, by simp⟩

theorem Extends.trans {a : Act} {acts : List Act} {x y z : List IntSeq} (h : Extends [a] x y) (h' : Extends acts y z) :
    Extends (a :: acts) x z := by
  obtain ⟨s, h1, h2⟩ := h
  obtain ⟨t, h3, h4⟩ := h'
  refine ⟨s ++ t, by rw [h3, h1]; simp, ?_⟩
  intro v hv
  rcases List.mem_append.1 hv with hv | hv
  · obtain ⟨q, hq, hx⟩ := h2 v hv
    rw [List.mem_singleton] at hq
    exact ⟨q, by simp [hq], hx⟩
  · obtain ⟨q, hq, hx⟩ := h4 v hv
    exact ⟨q, by simp [hq], hx⟩

theorem update_heap {E : Env F} {b b' : Builder F} (h : b.update E = .ok b') :
    (∀ i : Nat, i < b.stats.length → b'.stats[i]? = b.stats[i]?) ∧ (b'.current = b.current ∨ b.stats.length ≤ b'.current) ∧
      b.stats.length ≤ b'.stats.length := by
  rcases update_cases h with ⟨rfl, _⟩ | ⟨s, s', words, freqs, mp, _, u⟩
  · exact ⟨fun _ _ => rfl, Or.inl rfl, le_refl _⟩
  · refine ⟨fun i hi => ?_, Or.inr (by rw [u.current]), by rw [u.stats]; simp⟩
    rw [u.stats, List.getElem?_append_left hi]

theorem act_heap {E : Env F} {b b' : Builder F} {a : Act} (h : act E b a = .ok b') :
    (∀ (i : Nat) (s : StatDict F), b.stats[i]? = some s → ∃ s', b'.stats[i]? = some s' ∧ Extends [a] s.dict.seqs s'.dict.seqs ∧
      (i ≠ b.current → s'.dict = s.dict)) ∧ (b'.current = b.current ∨ b.stats.length ≤ b'.current) ∧
      b.stats.length ≤ b'.stats.length := by
  cases a with
  | update =>
    obtain ⟨h1, h2, h3⟩ := update_heap (b := b) h
    exact ⟨fun i s hs => ⟨s, by rw [h1 i (List.getElem?_eq_some_iff.1 hs).1]; exact hs, Extends.refl _ _, fun _ => rfl⟩, h2, h3⟩
  | accept seq =>
    simp only [act, Builder.accept] at h
    obtain ⟨s, hs, h⟩ := bind_ok.1 h
    obtain ⟨⟨s', r⟩, hp, h⟩ := bind_ok.1 h
    have hs' : b.stats[b.current]? = some s := rd_nat_ok.1 hs
    have hc := (List.getElem?_eq_some_iff.1 hs').1
    have hg : Extends [.accept seq] s.dict.seqs s'.dict.seqs := by
      obtain ⟨syms, g1, _, g2⟩ := parse_ok_grow hp
      exact ⟨syms, g1, fun x hx => ⟨seq, by simp, g2 x hx⟩⟩
    have hset : ∀ (i : Nat) (t : StatDict F), b.stats[i]? = some t → ∃ t', (b.stats.set b.current s')[i]? = some t' ∧
        Extends [.accept seq] t.dict.seqs t'.dict.seqs ∧ (i ≠ b.current → t'.dict = t.dict) := by
      intro i t ht
      by_cases he : i = b.current
      · subst he
        rw [hs'] at ht
        cases ht
        exact ⟨s', by simp [hc], hg, fun h => absurd rfl h⟩
      · exact ⟨t, by rw [List.getElem?_set_ne (fun h => he h.symm)]; exact ht, Extends.refl _ _, fun _ => rfl⟩
    dsimp only at h
    split at h
    · obtain ⟨h1, h2, h3⟩ := update_heap h
      simp only [List.length_set] at h1 h2 h3
      refine ⟨fun i t ht => ?_, h2, h3⟩
      rw [h1 i (List.getElem?_eq_some_iff.1 ht).1]
      exact hset i t ht
    · cases h
      exact ⟨hset, Or.inl rfl, by simp⟩
  | freqs =>
    simp only [act, Builder.resultFreqs] at h
    obtain ⟨⟨b1, _⟩, h1, h⟩ := bind_ok.1 h
    obtain ⟨s, hs, h1⟩ := bind_ok.1 h1
    cases h
    cases h1
    have hs' : b.stats[b.resultIdx]? = some s := rd_nat_ok.1 hs
    have hc := (List.getElem?_eq_some_iff.1 hs').1
    refine ⟨fun i t ht => ?_, Or.inl rfl, by simp⟩
    by_cases he : i = b.resultIdx
    · subst he
      rw [hs'] at ht
      cases ht
      exact ⟨{ s with symbolFreqs := StatDict.padTo s.symbolFreqs s.size }, List.getElem?_set_self hc, Extends.refl _ _, fun _ => rfl⟩
    · exact ⟨t, by simp only; rw [List.getElem?_set_ne (fun h => he h.symm)]; exact ht, Extends.refl _ _, fun _ => rfl⟩

/-- The heap along any training: objects keep their ids; only the working one is extended. -/
theorem train_heap {E : Env F} : ∀ (acts : List Act) {b b' : Builder F} (i : Nat) (s : StatDict F), train E b acts = .ok b' →
    b.stats[i]? = some s →
    ∃ s', b'.stats[i]? = some s' ∧ Extends acts s.dict.seqs s'.dict.seqs ∧ (i ≠ b.current → s'.dict = s.dict) := by
  intro acts
  induction acts with
  | nil => intro b b' i s h hs; cases h; exact ⟨s, hs, Extends.refl _ _, fun _ => rfl⟩
  | cons a acts ih =>
    intro b b' i s h hs
    obtain ⟨b1, g1, g2⟩ := bind_ok.1 h
    obtain ⟨k1, k2, k3⟩ := act_heap g1
    obtain ⟨s1, m1, m2, m3⟩ := k1 i s hs
    obtain ⟨s2, n1, n2, n3⟩ := ih i s1 g2 m1
    have hi := (List.getElem?_eq_some_iff.1 hs).1
    refine ⟨s2, n1, m2.trans n2, fun hne => ?_⟩
    rw [n3 (by rcases k2 with e | e <;> omega), m3 hne]

/-- C23: for any builder state and any later calls that do not fault, the published dictionary object keeps the word of
every id; it can only get one-symbol words of accepted symbols appended, and not even that once the builder works on
another object. -/
theorem C23_published_ids_stable (E : Env F) (b b' : Builder F) (acts : List Act) (h : train E b acts = .ok b')
    (i : Nat) (_hi : b.result = some i) (s : StatDict F) (hs : b.stats[i]? = some s) :
    ∃ s', b'.stats[i]? = some s' ∧
      (∀ (id : Nat) (w : IntSeq), s.dict.seqs[id]? = some w → s'.dict.seqs[id]? = some w) ∧
      (∀ (id : Nat) (w : IntSeq), s.dict.seqs.length ≤ id → s'.dict.seqs[id]? = some w → ∃ x, w = [x] ∧ Occurs x acts) ∧
      (i ≠ b.current → s'.dict = s.dict) := by
  obtain ⟨s', h1, ⟨syms, h2, h3⟩, h4⟩ := train_heap acts i s h hs
  refine ⟨s', h1, ?_, ?_, h4⟩
  · intro id w hw
    rw [h2, List.getElem?_append_left (List.getElem?_eq_some_iff.1 hw).1]
    exact hw
  · intro id w hid hw
    rw [h2, List.getElem?_append_right hid, List.getElem?_map] at hw
    obtain ⟨x, hx, rfl⟩ := Option.map_eq_some_iff.1 hw
    exact ⟨x, rfl, h3 x (List.mem_of_getElem? hx)⟩

/-- The published object does get extended: a new symbol accepted while the published object is still the working one. -/
example : (match (do
      let b ← train quickEnv (Builder.new quickEnv.ops 3) [.accept [0, 1], .accept [0, 1]]
      let b' ← train quickEnv b [.accept [2]]
      pure (published b, b.stats.length, b'.stats.map (fun s => s.dict.seqs)) : M (Option (List IntSeq) × Nat × List (List IntSeq))) with
    | .ok r => r | .error _ => (none, 0, [])) =
    (some [[0], [0, 1], [1]], 3, [[[0], [1]], [[0], [0, 1], [1]], [[0], [0, 1], [1], [2]], [[0], [0, 1], [1], [2]]]) := by decide +kernel

/-! ## C24 -/

/-- The two kinds of rebuilding. -/
inductive Kind where
  | expansion
  | reduction
  deriving DecidableEq

/-- `s` is the working statistics at the end of the parsing part of the call `a` made in state `b`. -/
def Working (E : Env F) (b : Builder F) (s : StatDict F) : Act → Prop
  | .accept seq => ∃ s0 r, b.cur = .ok s0 ∧ s0.parse E.ops seq [] = .ok (s, r)
  | .update => b.cur = .ok s
  | .freqs => False

/-- What a call did, seen from outside: nothing was built, or a dictionary made by `expand` became the working one, or a
dictionary made by `reduce` became the working and the published one. -/
inductive Did (E : Env F) (b : Builder F) (a : Act) (b' : Builder F) : Option Kind → Prop
  | quiet (h1 : b'.stats.length = b.stats.length) (h2 : b'.current = b.current) (h3 : b'.result = b.result) : Did E b a b' none
  | expansion {s s' : StatDict F} {slots : Int} {words : List IntSeq} {freqs : List Int} {mp : F} (h1 : Working E b s a)
      (h2 : s.expand E slots = .ok (words, freqs, mp)) (h3 : StatDict.ofSeqs words mp (some freqs) = .ok s')
      (h4 : b'.cur = .ok s') (h5 : b'.current = b.stats.length) (h6 : b'.result = b.result) : Did E b a b' (some .expansion)
  | reduction {s s' : StatDict F} {slots : Int} {words : List IntSeq} {freqs : List Int} {mp : F} (h1 : Working E b s a)
      (h2 : s.reduce E slots = .ok (words, freqs, mp)) (h3 : StatDict.ofSeqs words mp (some freqs) = .ok s')
      (h4 : b'.cur = .ok s') (h5 : b'.current = b.stats.length) (h6 : b'.result = some b.stats.length) :
      Did E b a b' (some .reduction)

/-- A training run with the list of its rebuildings. -/
inductive Trace (E : Env F) : Builder F → List Act → List Kind → Builder F → Prop
  | nil {b : Builder F} : Trace E b [] [] b
  | cons {b b1 b2 : Builder F} {a : Act} {acts : List Act} {k : Option Kind} {ks : List Kind} (h1 : act E b a = .ok b1)
      (h2 : Did E b a b1 k) (h3 : Trace E b1 acts ks b2) : Trace E b (a :: acts) (k.toList ++ ks) b2

/-- The alternating sequence starting with `k`. -/
def alternate (k : Kind) : Nat → List Kind
  | 0 => []
  | n + 1 => k :: alternate (match k with | .expansion => .reduction | .reduction => .expansion) n

theorem update_did {E : Env F} {b b' c : Builder F} {a : Act} (h : b.update E = .ok b')
    (hl : b.stats.length = c.stats.length) (hc : b.current = c.current) (hr : b.result = c.result)
    (hw : ∀ s, b.cur = .ok s → Working E c s a) :
    ∃ k, Did E c a b' k ∧ (k = none ∧ b'.populate = b.populate ∨
      k = some (if b.populate = true then .expansion else .reduction) ∧ b'.populate = !b.populate) := by
  rcases update_cases h with ⟨rfl, _⟩ | ⟨s, s', words, freqs, mp, _, u⟩
  · exact ⟨none, .quiet hl hc hr, Or.inl ⟨rfl, rfl⟩⟩
  · refine ⟨_, ?_, Or.inr ⟨rfl, u.populate⟩⟩
    have hcur : b'.cur = .ok s' := cur_eq (by rw [u.stats, u.current]; simp)
    have hwork := u.work
    unfold Builder.rebuild at hwork
    have hres := u.result
    split
    · next hp =>
      rw [if_pos hp] at hwork hres
      exact .expansion (hw s (cur_eq u.cur)) hwork u.made hcur (by rw [u.current, hl]) (by rw [hres, hr])
    · next hp =>
      rw [if_neg hp] at hwork hres
      exact .reduction (hw s (cur_eq u.cur)) hwork u.made hcur (by rw [u.current, hl]) (by rw [hres, hl])

theorem act_did {E : Env F} {b b' : Builder F} {a : Act} (h : act E b a = .ok b') :
    ∃ k, Did E b a b' k ∧ (k = none ∧ b'.populate = b.populate ∨
      k = some (if b.populate = true then .expansion else .reduction) ∧ b'.populate = !b.populate) := by
  cases a with
  | update => exact update_did (a := .update) h rfl rfl rfl fun s hs => hs
  | accept seq =>
    simp only [act, Builder.accept] at h
    obtain ⟨s, hs, h⟩ := bind_ok.1 h
    obtain ⟨⟨s', r⟩, hp, h⟩ := bind_ok.1 h
    have hc := (List.getElem?_eq_some_iff.1 (rd_nat_ok.1 hs)).1
    dsimp only at h
    split at h
    · refine update_did (b := { b with stats := b.stats.set b.current s' }) (c := b) (a := .accept seq) h (by simp) rfl rfl fun t ht => ?_
      have : t = s' := by
        rw [cur_eq (s := s') (by simp [hc])] at ht
        cases ht
        rfl
      subst this
      exact ⟨s, r, hs, hp⟩
    · cases h
      exact ⟨none, .quiet (by simp) rfl rfl, Or.inl ⟨rfl, rfl⟩⟩
  | freqs =>
    simp only [act, Builder.resultFreqs] at h
    obtain ⟨⟨b1, _⟩, h1, h⟩ := bind_ok.1 h
    obtain ⟨s, hs, h1⟩ := bind_ok.1 h1
    cases h
    cases h1
    exact ⟨none, .quiet (by simp) rfl rfl, Or.inl ⟨rfl, rfl⟩⟩

/-- C24: in every run from a constructed builder the rebuildings are expansion, reduction, expansion, … and a dictionary
is published exactly by the reductions. -/
theorem C24_alternation (E : Env F) (b0 b : Builder F) (h0 : Built E.ops (fun _ => True) b0) (acts : List Act)
    (h : train E b0 acts = .ok b) : ∃ n, Trace E b0 acts (alternate .expansion n) b := by
  have hp : b0.populate = true := by
    cases h0 with
    | fresh size => rfl
    | alphabet h => obtain ⟨s, _, rfl⟩ := ofAlphabet_one h; rfl
    | symbols h =>
      obtain ⟨d, _, h⟩ := bind_ok.1 h
      obtain ⟨s, _, rfl⟩ := ofAlphabet_one h
      rfl
    | saved _ h =>
      obtain ⟨s, _, h2⟩ := bind_ok.1 h
      cases h2
      rfl
  have key : ∀ (acts : List Act) (b0 b : Builder F), train E b0 acts = .ok b →
      ∃ n, Trace E b0 acts (alternate (if b0.populate = true then .expansion else .reduction) n) b := by
    intro acts
    induction acts with
    | nil => intro b0 b h; cases h; exact ⟨0, .nil⟩
    | cons a acts ih =>
      intro b0 b h
      obtain ⟨b1, h1, h2⟩ := bind_ok.1 h
      obtain ⟨k, d, hk⟩ := act_did h1
      obtain ⟨n, t⟩ := ih b1 b h2
      rcases hk with ⟨rfl, he⟩ | ⟨rfl, he⟩
      · rw [he] at t
        exact ⟨n, .cons (k := none) h1 d t⟩
      · refine ⟨n + 1, ?_⟩
        have : alternate (if b0.populate = true then .expansion else .reduction) (n + 1) =
            (some (if b0.populate = true then Kind.expansion else .reduction)).toList ++
              alternate (if b1.populate = true then .expansion else .reduction) n := by
          rw [he]
          cases b0.populate <;> simp [alternate]
        rw [this]
        exact .cons h1 d t
  obtain ⟨n, t⟩ := key acts b0 b h
  rw [if_pos hp] at t
  exact ⟨n, t⟩

/-- Three effective updates in four calls. -/
example : (match train quickEnv (Builder.new quickEnv.ops 3) [.accept [0], .accept [0, 1], .update, .accept [1, 0]] with
    | .ok b => (b.stats.length, b.result) | .error _ => (0, none)) = (4, some 2) := by decide +kernel

/-! ## C25 -/

theorem singles_all {words : List IntSeq} {n : Nat} (h : Proper words n) (hl : words.length ≤ n) :
    ∀ w ∈ words, ∃ x, w = [x] := by
  have h1 : singles words = n := singles_eq h.nodup h.singles
  have h2 : (words.filter fun w => w.length == 1) = words := by
    apply List.Sublist.eq_of_length_le List.filter_sublist
    unfold singles at h1
    omega
  intro w hw
  rw [← h2] at hw
  have := (List.mem_filter.1 hw).2
  exact List.length_eq_one_iff.1 (by simpa using this)

/-- The state of a builder that was loaded with as many alphabet entries as words. -/
structure Loaded (b : Builder F) (n : Nat) : Prop where
  tinv : TInv b n
  full : b.size ≤ (b.symbAlphabet.length : Int)
  pub : ∃ i s, b.result = some i ∧ b.stats[i]? = some s ∧ (i = 0 ∨ ∀ w ∈ s.dict.seqs, ∃ x, w = [x])

theorem Extends.singles {acts : List Act} {old new : List IntSeq} (h : Extends acts old new) (ho : ∀ w ∈ old, ∃ x, w = [x]) :
    ∀ w ∈ new, ∃ x, w = [x] := by
  obtain ⟨syms, rfl, _⟩ := h
  intro w hw
  rcases List.mem_append.1 hw with hw | hw
  · exact ho w hw
  · obtain ⟨x, _, rfl⟩ := List.mem_map.1 hw
    exact ⟨x, rfl⟩

theorem act_loaded {E : Env F} (L : EnvLaws E) (SL : ScoreLaws E.ops) {b b' : Builder F} {n m : Nat} {a : Act} (hb : Loaded b n)
    (ha : ActsArrive n [a] m) (hs : (m : Int) ≤ b.size + 1) (h : act E b a = .ok b') : Loaded b' m ∧ b'.size = b.size := by
  obtain ⟨t, e1, e2, e3, e4⟩ := act_effect L SL hb.tinv ha hs h
  refine ⟨⟨t, by have := hb.full; omega, ?_⟩, e1⟩
  obtain ⟨i, s, p1, p2, p3⟩ := hb.pub
  by_cases hr : b'.result = b.result
  · obtain ⟨k, _⟩ := act_heap h
    obtain ⟨s', m1, m2, _⟩ := k i s p2
    refine ⟨i, s', by rw [hr, p1], m1, ?_⟩
    rcases p3 with p3 | p3
    · exact Or.inl p3
    · exact Or.inr (m2.singles p3)
  · obtain ⟨j, s', r1, r2, r3⟩ := e4 hr
    refine ⟨j, s', r1, r2, Or.inr ?_⟩
    -- the published object is the working one
    have hcur : b'.current = j := by
      obtain ⟨k, d, _⟩ := act_did h
      cases d with
      | quiet _ _ h3 => exact absurd h3 hr
      | expansion _ _ _ _ _ h6 => exact absurd h6 hr
      | reduction _ _ _ _ h5 h6 =>
        rw [r1] at h6
        cases h6
        exact h5
    obtain ⟨s2, c1, hh, c2⟩ := t.cur
    rw [hcur, r2] at c1
    cases c1
    have hp : Proper s'.dict.seqs m := ⟨hh.sorted.nodup, fun hm => hh.sorted.nonempty _ hm rfl, hh.symbols c2,
      fun x h1 h2 => (c2 x).2 ⟨h1, h2⟩⟩
    refine singles_all hp ?_
    have := hb.full
    omega

theorem train_loaded {E : Env F} (L : EnvLaws E) (SL : ScoreLaws E.ops) : ∀ (acts : List Act) {b b' : Builder F} {n m : Nat},
    Loaded b n → ActsArrive n acts m → (m : Int) ≤ b.size + 1 → train E b acts = .ok b' → Loaded b' m := by
  intro acts
  induction acts with
  | nil => intro b b' n m t ha _ h; cases ha; cases h; exact t
  | cons a acts ih =>
    intro b b' n m t ha hs h
    obtain ⟨b1, h1, h⟩ := bind_ok.1 h
    have : ∃ k, ActsArrive n [a] k ∧ ActsArrive k acts m := by
      cases ha with
      | accept g1 h2 => exact ⟨_, .accept g1 .nil, h2⟩
      | update h2 => exact ⟨_, .update .nil, h2⟩
      | freqs h2 => exact ⟨_, .freqs .nil, h2⟩
    obtain ⟨k, k1, k2⟩ := this
    have := actsArrive_le k2
    obtain ⟨r1, r2⟩ := act_loaded L SL t k1 (by omega) h1
    exact ih r1 k2 (by omega) h

/-- C25 is false: a builder restored from a saved dictionary with as many alphabet entries as words (this is what the
loader passes) loses all its words of two and more symbols at the first publication and never publishes one again,
whatever is accepted and whatever the random, hash and sort outcomes. -/
theorem C25_loaded_words_lost_false (E : Env F) (L : EnvLaws E) (SL : ScoreLaws E.ops) (words : List IntSeq) (n m : Nat) (d : IntDict)
    (freqs : List Int) (alphabet : List IntSeq) (mp : F) (b0 b : Builder F) (hw : Proper words n) (hd : IntDict.init words = .ok d)
    (hal : alphabet.length = words.length) (hf : ∀ f ∈ freqs, 0 ≤ f) (hb : Builder.ofSaved E.ops d freqs alphabet mp = .ok b0)
    (acts : List Act) (ha : ActsArrive n acts m) (hm : m ≤ words.length + 1) (h : train E b0 acts = .ok b)
    (hpub : b.result ≠ b0.result) : ∃ ws, published b = some ws ∧ ∀ w ∈ ws, ∃ x, w = [x] := by
  have hst : Start E.ops b0 n := .saved hw hd (by omega) hf hb
  have hseqs := init_seqs hw hd
  have hsize : b0.size = (words.length : Int) ∧ b0.symbAlphabet = alphabet ∧ b0.result = some 0 := by
    obtain ⟨s, _, h2⟩ := bind_ok.1 hb
    cases h2
    exact ⟨by simp only [IntDict.size]; rw [hseqs, sortSeqs_length], rfl, rfl⟩
  have hl : Loaded b0 n := by
    refine ⟨hst.tinv, by rw [hsize.1, hsize.2.1, hal], 0, ?_⟩
    obtain ⟨s, _, h2⟩ := bind_ok.1 hb
    cases h2
    exact ⟨s, rfl, rfl, Or.inl rfl⟩
  have hb' := train_loaded L SL acts hl ha (by rw [hsize.1]; omega) h
  obtain ⟨i, s, p1, p2, p3⟩ := hb'.pub
  rw [hsize.2.2, p1] at hpub
  refine ⟨s.dict.seqs, by simp [published, p1, p2], p3.resolve_left fun hi => hpub (by rw [hi])⟩

/-- A concrete loss: the dictionary `0, 01, 1` is loaded with its own words as alphabet; after two accepts of the word
`01` only the symbols remain. -/
example : (match (do
      let b ← Builder.ofSaved quickEnv.ops ⟨[[0], [0, 1], [1]], [-1, 0, -1]⟩ [0, 5, 0] [[0], [0, 1], [1]] (.fin 1)
      let b' ← train quickEnv b [.accept [0, 1], .accept [0, 1]]
      pure (published b, published b') : M (Option (List IntSeq) × Option (List IntSeq))) with
    | .ok r => r | .error _ => (none, none)) = (some [[0], [0, 1], [1]], some [[0], [1]]) := by decide +kernel

theorem ofSeqs_words {words : List IntSeq} {mp : F} {fr : Option (List Int)} {s : StatDict F}
    (h : StatDict.ofSeqs words mp fr = .ok s) : s.dict.seqs.Perm words := by
  unfold StatDict.ofSeqs at h
  obtain ⟨d, hd, h⟩ := bind_ok.1 h
  have : d.seqs.Perm words := by
    obtain ⟨ps, h1, _⟩ := init_spec words
    rw [hd] at h1
    cases h1
    exact sortSeqs_perm words
  cases fr with
  | none => cases h; exact this
  | some l => cases h; exact this

theorem update_keeps {E : Env F} (L : EnvLaws E) {b b' : Builder F} {n : Nat} (t : TInv b n) (hp : b.populate = true)
    (h : b.update E = .ok b') {s : StatDict F} (hs : b.cur = .ok s) : ∃ s', b'.cur = .ok s' ∧ ∀ w ∈ s.dict.seqs, w ∈ s'.dict.seqs := by
  rcases update_cases h with ⟨rfl, _⟩ | ⟨s1, s', words, freqs, mp, _, u⟩
  · exact ⟨s, hs, fun w hw => hw⟩
  · have : s1 = s := by
      rw [cur_eq u.cur] at hs
      cases hs
      rfl
    subst this
    refine ⟨s', cur_eq (by rw [u.stats, u.current]; simp), fun w hw => (ofSeqs_words u.made).mem_iff.2 ?_⟩
    obtain ⟨s2, c1, hh, _⟩ := t.cur
    rw [u.cur] at c1
    cases c1
    obtain ⟨words', freqs', mp', e1, e2, e3, e4, _⟩ := expand_spec L hh.expOk (b.expandSlots E.ops s1)
    have hal := t.alpha
    have hsl : 0 ≤ b.expandSlots E.ops s1 := by
      unfold Builder.expandSlots
      dsimp only
      split
      · omega
      · exact L.factor _
    have hw' := u.work
    rw [Builder.rebuild, if_pos hp, e1] at hw'
    cases hw'
    exact e4 hsl w hw

/-- C25, the part that holds: the call that does the first rebuilding after loading keeps all the loaded words (it is an
expansion); the loss comes with the second one. -/
theorem C25_first_update_keeps_partial (E : Env F) (L : EnvLaws E) (SL : ScoreLaws E.ops) (words : List IntSeq) (n m : Nat) (d : IntDict)
    (freqs : List Int) (alphabet : List IntSeq) (mp : F) (b0 b : Builder F) (hw : Proper words n) (hd : IntDict.init words = .ok d)
    (hal : alphabet.length ≤ words.length) (hf : ∀ f ∈ freqs, 0 ≤ f) (hb : Builder.ofSaved E.ops d freqs alphabet mp = .ok b0)
    (a : Act) (ha : ActsArrive n [a] m) (h : act E b0 a = .ok b) :
    ∃ s, b.cur = .ok s ∧ ∀ w ∈ words, w ∈ s.dict.seqs := by
  have hst : Start E.ops b0 n := .saved hw hd hal hf hb
  have t := hst.tinv
  have hpop : b0.populate = true ∧ ∃ s, b0.cur = .ok s ∧ ∀ w ∈ words, w ∈ s.dict.seqs := by
    obtain ⟨s, h1, h2⟩ := bind_ok.1 hb
    cases h2
    refine ⟨rfl, s, rfl, fun w hw' => (ofSeqs_words h1).mem_iff.2 ?_⟩
    rw [init_seqs hw hd]
    exact (sortSeqs_perm words).mem_iff.2 hw'
  obtain ⟨hp, s, hs, hk⟩ := hpop
  cases ha with
  | accept g1 g2 =>
    cases g2
    obtain ⟨s1, s', ids, e1, e2, e3, e4, _⟩ := accept_parse SL t g1
    rw [cur_eq e1] at hs
    cases hs
    rcases ready_update e1 e2 h with rfl | hu
    · exact ⟨s', cur_eq (by simp [(List.getElem?_eq_some_iff.1 e1).1]), fun w hw => e4 w (hk w hw)⟩
    · obtain ⟨s2, r1, r2⟩ := update_keeps L e3 hp hu (cur_eq (s := s') (by simp [(List.getElem?_eq_some_iff.1 e1).1]))
      exact ⟨s2, r1, fun w hw => r2 w (e4 w (hk w hw))⟩
  | update g2 =>
    cases g2
    obtain ⟨s2, r1, r2⟩ := update_keeps L t hp h hs
    exact ⟨s2, r1, fun w hw => r2 w (hk w hw)⟩
  | freqs g2 =>
    cases g2
    obtain ⟨k, _⟩ := act_heap h
    obtain ⟨s', k1, ⟨syms, k2, _⟩, _⟩ := k _ s (rd_nat_ok.1 hs)
    have hc : b.current = b0.current := by
      obtain ⟨s2, _, a1, _⟩ := resultFreqs_tinv t []
      simp only [act, a1, ok_bind, pure_M] at h
      cases h
      rfl
    refine ⟨s', cur_eq (by rw [hc]; exact k1), fun w hw => ?_⟩
    rw [k2]
    exact List.mem_append_left _ (hk w hw)

/-! ## C26 -/

/-- Environments with exact real arithmetic and the natural logarithm. -/
noncomputable def realEnv (srt : List (StatItem (Ext ℝ)) → List (StatItem (Ext ℝ))) (ord : PairMap → PairMap)
    (gam : List (Ext ℝ) → Nat → Ext ℝ) : Env (Ext ℝ) := ⟨Ext.ops ℝ Real.log, srt, ord, gam⟩

theorem enough_real {s : StatDict (Ext ℝ)} {p q : ℝ} (hp : 0 < p) (hq : q ≠ 0) (hs : s.minProb = .fin q) :
    s.enough (Ext.ops ℝ Real.log) (.fin p) = decide (-Real.log p / q < (s.power : ℝ)) := by
  simp only [StatDict.enough, hs, Ext.ops, Ext.log, if_pos hp, Ext.neg, Ext.div, if_neg hq, Ext.lt]

theorem tally_power : ∀ (l : List Int) (prev : Int) {s s' : StatDict F}, s.tally prev l = .ok s' → s'.power = s.power + l.length := by
  intro l
  induction l with
  | nil => intro prev s s' h; cases h; simp
  | cons x l ih =>
    intro prev s s' h
    simp only [StatDict.tally] at h
    obtain ⟨s1, h1, h⟩ := bind_ok.1 h
    have : s1.power = s.power + 1 := by
      unfold StatDict.updateSymbol at h1
      obtain ⟨_, _, h1⟩ := bind_ok.1 h1
      obtain ⟨_, _, h1⟩ := bind_ok.1 h1
      obtain ⟨_, _, h1⟩ := bind_ok.1 h1
      obtain ⟨_, _, h1⟩ := bind_ok.1 h1
      cases h1
      rfl
    rw [ih _ h]
    simp only [List.length_cons]
    split
    · simp only; rw [this]; push_cast; omega
    · rw [this]; push_cast; omega

theorem parse_power {O : FloatOps F} {s s' : StatDict F} {seq : IntSeq} {r : List Int × Int}
    (h : s.parse O seq [] = .ok (s', r)) : s'.power = s.power + r.1.length := by
  unfold StatDict.parse at h
  obtain ⟨⟨d, o, n⟩, h1, h⟩ := bind_ok.1 h
  obtain ⟨s2, ht, h⟩ := bind_ok.1 h
  cases h
  have := tally_power _ _ ht
  exact this

/-- Invariant of a builder loaded with the marker. -/
structure Marked (b : Builder (Ext ℝ)) : Prop where
  bq : BQ (Ext.probLaws Real.log) b
  heap : ∀ s ∈ b.stats, 0 ≤ s.power ∧ ∃ q : ℝ, s.minProb = .fin q ∧ q < 0
  prob : ∃ p : ℝ, b.probFound = .fin p ∧ 0 < p ∧ p < 1

theorem Marked.ready {b : Builder (Ext ℝ)} (h : Marked b) {s : StatDict (Ext ℝ)} (h0 : 0 ≤ s.power)
    (hs : ∃ q : ℝ, s.minProb = .fin q ∧ q < 0) : b.ready (Ext.ops ℝ Real.log) s = true := by
  obtain ⟨q, hq, hneg⟩ := hs
  obtain ⟨p, hp, hp0, hp1⟩ := h.prob
  have : s.enough (Ext.ops ℝ Real.log) b.probFound = true := by
    rw [hp, enough_real hp0 hneg.ne hq]
    have h1 : 0 < -Real.log p := by
      have := Real.log_neg hp0 hp1
      linarith
    have h2 : -Real.log p / q < 0 := div_neg_of_pos_of_neg h1 hneg
    have h3 : (0 : ℝ) ≤ (s.power : ℝ) := by exact_mod_cast h0
    simp only [decide_eq_true_eq]
    linarith
  simp [Builder.ready, this]

theorem noteRate_prob {b : Builder (Ext ℝ)} {r : Ext ℝ} (h : ∃ p : ℝ, b.probFound = .fin p ∧ 0 < p ∧ p < 1) :
    ∃ p : ℝ, (b.noteRate (Ext.ops ℝ Real.log) r).probFound = .fin p ∧ 0 < p ∧ p < 1 := by
  obtain ⟨p, h1, h2, h3⟩ := h
  unfold Builder.noteRate
  split
  · exact ⟨p, h1, h2, h3⟩
  · split
    · refine ⟨p * ((8 : Int) / (10 : ℝ) ^ 1), ?_, by positivity, ?_⟩
      · simp only [h1, Ext.ops, Ext.mul]
      · norm_num
        linarith
    · exact ⟨p, h1, h2, h3⟩

theorem update_marked {srt : List (StatItem (Ext ℝ)) → List (StatItem (Ext ℝ))} {ord : PairMap → PairMap}
    {gam : List (Ext ℝ) → Nat → Ext ℝ} (hsort : ∀ l, (srt l).Perm l) (hord : ∀ p, (ord p).Perm p) {b b' : Builder (Ext ℝ)}
    (hb : Marked b) (h : b.update (realEnv srt ord gam) = .ok b') : Marked b' ∧ b'.stats.length = b.stats.length + 1 := by
  obtain ⟨bq', mle⟩ := update_minle (E := realEnv srt ord gam) (Ext.probLaws Real.log) hsort hord hb.bq h
  have hpf : ∃ p : ℝ, b'.probFound = .fin p ∧ 0 < p ∧ p < 1 := by
    unfold Builder.update at h
    obtain ⟨s, hs, h⟩ := bind_ok.1 h
    dsimp only at h
    split at h
    · cases h; exact hb.prob
    · obtain ⟨rate, _, h⟩ := bind_ok.1 h
      obtain ⟨⟨words, freqs, mp⟩, hw, h⟩ := bind_ok.1 h
      obtain ⟨s', hs2, h⟩ := bind_ok.1 h
      obtain ⟨fresh, hf, h⟩ := bind_ok.1 h
      cases h
      exact noteRate_prob hb.prob
  rcases update_cases h with ⟨rfl, s, hs, hr⟩ | ⟨s, s', words, freqs, mp, _, u⟩
  · exfalso
    obtain ⟨g1, g2⟩ := hb.heap s (List.mem_of_getElem? hs)
    have := hb.ready g1 g2
    rw [show (realEnv srt ord gam).ops = Ext.ops ℝ Real.log from rfl] at hr
    rw [hr] at this
    cases this
  · refine ⟨⟨bq', ?_, hpf⟩, by rw [u.stats]; simp⟩
    intro t ht
    rw [u.stats] at ht
    rcases List.mem_append.1 ht with ht | ht
    · exact hb.heap t ht
    · rw [List.mem_singleton] at ht
      subst ht
      constructor
      · have := u.made
        unfold StatDict.ofSeqs at this
        obtain ⟨d, _, this⟩ := bind_ok.1 this
        cases this
        exact le_refl _
      · have hcur : b'.stats[b'.current]? = some t := by rw [u.stats, u.current]; simp
        have h1 := mle s t u.cur hcur
        obtain ⟨_, q, hq, hneg⟩ := hb.heap s (List.mem_of_getElem? u.cur)
        rcases (bq'.heap t (List.mem_of_getElem? hcur)).ok with e | ⟨y, e⟩
        · rw [hq, e] at h1
          simp [realEnv, Ext.ops, Ext.lt] at h1
        · refine ⟨y, e, ?_⟩
          rw [hq, e] at h1
          simp [realEnv, Ext.ops, Ext.lt] at h1
          linarith

theorem act_marked {srt : List (StatItem (Ext ℝ)) → List (StatItem (Ext ℝ))} {ord : PairMap → PairMap}
    {gam : List (Ext ℝ) → Nat → Ext ℝ} (hsort : ∀ l, (srt l).Perm l) (hord : ∀ p, (ord p).Perm p) {b b' : Builder (Ext ℝ)} {a : Act}
    (hb : Marked b) (h : act (realEnv srt ord gam) b a = .ok b') :
    Marked b' ∧ ((∃ seq, a = .accept seq) → b'.stats.length = b.stats.length + 1) := by
  cases a with
  | update => exact ⟨(update_marked hsort hord hb h).1, fun ⟨_, e⟩ => by cases e⟩
  | accept seq =>
    simp only [act, Builder.accept] at h
    obtain ⟨s, hs, h⟩ := bind_ok.1 h
    obtain ⟨⟨s', r⟩, hp, h⟩ := bind_ok.1 h
    have hs' : b.stats[b.current]? = some s := rd_nat_ok.1 hs
    obtain ⟨q1, q2⟩ := parse_qinv (P := Ext.probLaws Real.log) (hb.bq.heap s (List.mem_of_getElem? hs')) hp
    obtain ⟨g1, g2⟩ := hb.heap s (List.mem_of_getElem? hs')
    have hpw := parse_power hp
    have g1' : 0 ≤ s'.power := by omega
    have g2' : ∃ q : ℝ, s'.minProb = .fin q ∧ q < 0 := by rw [q2]; exact g2
    have hb1 : Marked { b with stats := b.stats.set b.current s' } := by
      refine ⟨⟨?_, ?_, ?_⟩, ?_, hb.prob⟩
      · intro t ht
        rcases List.mem_or_eq_of_mem_set ht with ht | rfl
        · exact hb.bq.heap t ht
        · exact q1
      · simp only [List.length_set]; exact hb.bq.res
      · simp only [List.length_set]; exact hb.bq.cur
      · intro t ht
        rcases List.mem_or_eq_of_mem_set ht with ht | rfl
        · exact hb.heap t ht
        · exact ⟨g1', g2'⟩
    dsimp only at h
    rw [show (realEnv srt ord gam).ops = Ext.ops ℝ Real.log from rfl, if_pos (hb1.ready g1' g2')] at h
    obtain ⟨r1, r2⟩ := update_marked hsort hord hb1 h
    exact ⟨r1, fun _ => by rw [r2]; simp⟩
  | freqs =>
    obtain ⟨bq', _⟩ := act_minle (E := realEnv srt ord gam) (Ext.probLaws Real.log) hsort hord hb.bq h
    simp only [act, Builder.resultFreqs] at h
    obtain ⟨⟨b1, _⟩, h1, h⟩ := bind_ok.1 h
    obtain ⟨s, hs, h1⟩ := bind_ok.1 h1
    cases h
    cases h1
    have hs' : b.stats[b.resultIdx]? = some s := rd_nat_ok.1 hs
    refine ⟨⟨bq', ?_, hb.prob⟩, fun ⟨_, e⟩ => by cases e⟩
    intro t ht
    rcases List.mem_or_eq_of_mem_set ht with ht | rfl
    · exact hb.heap t ht
    · exact hb.heap s (List.mem_of_getElem? hs')

/-- C26 is false: a model saved before its first publication carries the minimal probability −1, and a builder restored
from it rebuilds its dictionary at every single accept call, now and forever (real arithmetic, every order of sorting
and hashing, every random outcome). -/
theorem C26_marker_false (srt : List (StatItem (Ext ℝ)) → List (StatItem (Ext ℝ))) (ord : PairMap → PairMap)
    (gam : List (Ext ℝ) → Nat → Ext ℝ) (hsort : ∀ l, (srt l).Perm l) (hord : ∀ p, (ord p).Perm p)
    (saved b0 : Builder (Ext ℝ)) (hnone : saved.result = none) (mp : Ext ℝ)
    (hmp : saved.getMinProbability (Ext.ops ℝ Real.log) = .ok mp)
    (d : IntDict) (freqs : List Int) (alphabet : List IntSeq)
    (hb : Builder.ofSaved (Ext.ops ℝ Real.log) d freqs alphabet mp = .ok b0)
    (acts : List Act) (seq : IntSeq) (b b' : Builder (Ext ℝ)) (h : train (realEnv srt ord gam) b0 acts = .ok b)
    (h' : b.accept (realEnv srt ord gam) seq = .ok b') : b'.stats.length = b.stats.length + 1 := by
  have hmp' : mp = .fin (-1) := by
    unfold Builder.getMinProbability at hmp
    rw [hnone] at hmp
    cases hmp
    simp [Ext.ops]
  subst hmp'
  have hm : Marked b0 := by
    have hq := Built.bq (Ext.probLaws Real.log) (.saved (Or.inr ⟨_, rfl⟩) hb)
    obtain ⟨s, h1, h2⟩ := bind_ok.1 hb
    cases h2
    refine ⟨hq, ?_, ⟨((1 : Int) : ℝ) / (10 : ℝ) ^ 1, rfl, by positivity, by norm_num⟩⟩
    intro t ht
    simp only [List.mem_singleton] at ht
    subst ht
    have e := (ofSeqs_qinv (P := Ext.probLaws Real.log) (Or.inr ⟨_, rfl⟩) h1).2
    refine ⟨?_, -1, e, by norm_num⟩
    unfold StatDict.ofSeqs at h1
    obtain ⟨d, _, h1⟩ := bind_ok.1 h1
    cases h1
    exact le_refl _
  have hb1 : Marked b := (train_rel (E := realEnv srt ord gam) (I := Marked) (R := fun _ _ => True) (fun _ => trivial)
    (fun _ _ _ _ _ => trivial) (fun b b' a hb h => ⟨(act_marked hsort hord hb h).1, trivial⟩) acts hm h).1
  exact (act_marked (a := .accept seq) hsort hord hb1 h').2 ⟨seq, rfl⟩

/-- C26, the part that holds: with a positive minimal probability `q` an accept call rebuilds the dictionary exactly when
the tokens emitted so far exceed `-log(prob_found)/q` (or 20 million). -/
theorem C26_positive_waits_partial (srt : List (StatItem (Ext ℝ)) → List (StatItem (Ext ℝ))) (ord : PairMap → PairMap)
    (gam : List (Ext ℝ) → Nat → Ext ℝ) (b b' : Builder (Ext ℝ)) (s s' : StatDict (Ext ℝ)) (r : List Int × Int) (seq : IntSeq) (p q : ℝ)
    (hs : b.cur = .ok s) (hp : b.probFound = .fin p) (hp0 : 0 < p) (hq : s.minProb = .fin q) (hq0 : 0 < q)
    (hparse : s.parse (Ext.ops ℝ Real.log) seq [] = .ok (s', r)) (h : b.accept (realEnv srt ord gam) seq = .ok b') :
    b'.stats.length = b.stats.length + 1 ↔ (-Real.log p / q < ((s.power + r.1.length : Int) : ℝ) ∨ 20000000 < s.power + r.1.length) := by
  have hpw := parse_power hparse
  have hmin : s'.minProb = .fin q := by
    rw [← hq]
    unfold StatDict.parse at hparse
    obtain ⟨⟨d, o, n⟩, h1, hparse⟩ := bind_ok.1 hparse
    obtain ⟨s2, ht, hparse⟩ := bind_ok.1 hparse
    cases hparse
    have : ∀ (l : List Int) (prev : Int) {s s' : StatDict (Ext ℝ)}, s.tally prev l = .ok s' → s'.minProb = s.minProb := by
      intro l
      induction l with
      | nil => intro prev s s' h; cases h; rfl
      | cons x l ih =>
        intro prev s s' h
        simp only [StatDict.tally] at h
        obtain ⟨s1, h1, h⟩ := bind_ok.1 h
        have : s1.minProb = s.minProb := by
          unfold StatDict.updateSymbol at h1
          obtain ⟨_, _, h1⟩ := bind_ok.1 h1
          obtain ⟨_, _, h1⟩ := bind_ok.1 h1
          obtain ⟨_, _, h1⟩ := bind_ok.1 h1
          obtain ⟨_, _, h1⟩ := bind_ok.1 h1
          cases h1
          rfl
        rw [ih _ h]
        split
        · exact this
        · exact this
    have := this _ _ ht
    exact this
  have hr : ({ b with stats := b.stats.set b.current s' } : Builder (Ext ℝ)).ready (Ext.ops ℝ Real.log) s' = true ↔
      (-Real.log p / q < ((s.power + r.1.length : Int) : ℝ) ∨ 20000000 < s.power + r.1.length) := by
    simp only [Builder.ready, hp, enough_real hp0 hq0.ne' hmin, hpw, Bool.or_eq_true, decide_eq_true_eq]
  rw [← hr]
  unfold Builder.accept at h
  simp only [hs, ok_bind] at h
  rw [show (realEnv srt ord gam).ops = Ext.ops ℝ Real.log from rfl, hparse] at h
  simp only [ok_bind] at h
  constructor
  · intro hl
    by_contra hc
    rw [if_neg hc] at h
    cases h
    simp at hl
  · intro hc
    rw [if_pos hc] at h
    rcases update_cases h with ⟨rfl, t, ht, hr⟩ | ⟨t, t', words, freqs, mp, _, u⟩
    · exfalso
      have hcur := (List.getElem?_eq_some_iff.1 (rd_nat_ok.1 hs)).1
      simp only [List.getElem?_set_self hcur] at ht
      cases ht
      rw [show (realEnv srt ord gam).ops = Ext.ops ℝ Real.log from rfl, hc] at hr
      cases hr
    · rw [u.stats]; simp

/-- The rational counterpart of the marker run: three accepts of one symbol each make three rebuildings. -/
example : (match (do
      let b ← Builder.ofSaved ratEnv.ops ⟨[[0], [1]], [-1, -1]⟩ [1, 1] [[0], [1]] (.fin (-1))
      train ratEnv b [.accept [0], .accept [1], .accept [0]] : M (Builder (Ext Rat))) with
    | .ok b => b.stats.length | .error _ => 0) = 4 := by decide +kernel

end VGram.Props
