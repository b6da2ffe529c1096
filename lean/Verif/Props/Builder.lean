import Verif.Proofs.Builder
import Verif.Proofs.MinProb

/-!
# Properties of training (C18, C20 – C26)
-/

namespace VGram.Props

open VGram Spec

variable {F : Type}

/-- A client's call on a builder that may change it. -/
inductive Act where
  | accept (seq : IntSeq)
  | update
  | freqs

/-- Perform one call (`result_freqs` with an empty vector). -/
def act (E : Env F) (b : Builder F) : Act → M (Builder F)
  | .accept seq => b.accept E seq
  | .update => b.update E
  | .freqs => do
    let (b', _) ← b.resultFreqs []
    pure b'

/-- Perform the calls one after the other. -/
def train (E : Env F) (b : Builder F) : List Act → M (Builder F)
  | [] => .ok b
  | a :: rest => do
    let b' ← act E b a
    train E b' rest

/-- The symbols of the accepted sequences are numbered in order of first occurrence: `n` before, `m` afterwards. -/
inductive ActsArrive : Nat → List Act → Nat → Prop
  | nil {n : Nat} : ActsArrive n [] n
  | accept {n k m : Nat} {seq : IntSeq} {rest : List Act} (h1 : Arrive n seq k) (h2 : ActsArrive k rest m) :
      ActsArrive n (.accept seq :: rest) m
  | update {n m : Nat} {rest : List Act} (h : ActsArrive n rest m) : ActsArrive n (.update :: rest) m
  | freqs {n m : Nat} {rest : List Act} (h : ActsArrive n rest m) : ActsArrive n (.freqs :: rest) m

/-- A dictionary of non-empty words over exactly the symbols `0 … n-1`, all present as one-symbol words, without duplicates. -/
structure Proper (words : List IntSeq) (n : Nat) : Prop where
  nodup : words.Nodup
  nonempty : [] ∉ words
  symbols : ∀ w ∈ words, ∀ x ∈ w, 0 ≤ x ∧ x < (n : Int)
  covers : ∀ x : Int, 0 ≤ x → x < (n : Int) → [x] ∈ words

/-- Admissible starting points, with the number of known symbols. -/
inductive Start (O : FloatOps F) : Builder F → Nat → Prop
  | fresh {size : Int} (h : 0 ≤ size) : Start O (Builder.new O size) 0
  | alphabet {words : List IntSeq} {n : Nat} {d : IntDict} {size : Int} {b : Builder F} (h1 : Proper words n)
      (h2 : IntDict.init words = .ok d) (h3 : (words.length : Int) ≤ size) (h4 : Builder.ofAlphabet O d size = .ok b) : Start O b n
  | saved {words : List IntSeq} {n : Nat} {d : IntDict} {freqs : List Int} {alphabet : List IntSeq} {mp : F} {b : Builder F}
      (h1 : Proper words n) (h2 : IntDict.init words = .ok d) (h3 : alphabet.length ≤ words.length) (h4 : ∀ f ∈ freqs, 0 ≤ f)
      (h5 : Builder.ofSaved O d freqs alphabet mp = .ok b) : Start O b n

theorem Proper.closed {words : List IntSeq} {n : Nat} (h : Proper words n) : Closed words := fun w hw x hx =>
  h.covers x (h.symbols w hw x hx).1 (h.symbols w hw x hx).2

theorem Proper.singles {words : List IntSeq} {n : Nat} (h : Proper words n) (x : Int) : [x] ∈ words ↔ 0 ≤ x ∧ x < (n : Int) :=
  ⟨fun hx => h.symbols _ hx x (by simp), fun hx => h.covers x hx.1 hx.2⟩

theorem proper_sort {words : List IntSeq} {n : Nat} (h : Proper words n) : Proper (sortSeqs words) n := by
  have hp := sortSeqs_perm words
  exact ⟨hp.nodup_iff.2 h.nodup, fun hm => h.nonempty (hp.mem_iff.1 hm), fun w hw => h.symbols w (hp.mem_iff.1 hw),
    fun x h0 h1 => hp.mem_iff.2 (h.covers x h0 h1)⟩

theorem init_seqs {words : List IntSeq} {n : Nat} (h : Proper words n) {d : IntDict} (hd : IntDict.init words = .ok d) :
    d.seqs = sortSeqs words := by
  obtain ⟨d', h1, h2, _⟩ := init_sorted h.nodup (fun w hw e => h.nonempty (e ▸ hw))
  rw [hd] at h1
  cases h1
  exact h2

theorem Start.tinv {O : FloatOps F} {b : Builder F} {n : Nat} (h : Start O b n) : TInv b n := by
  cases h with
  | fresh h =>
    have hsym : ∀ x : Int, [x] ∈ (StatDict.new (Builder.kMaxMinProbability O)).dict.seqs ↔ 0 ≤ x ∧ x < ((0 : Nat) : Int) := by
      intro x
      simp [StatDict.new, IntDict.empty]
    refine ⟨?_, ⟨_, rfl, Healthy.new _, hsym⟩, by simp [Builder.new], by simpa [Builder.new] using h⟩
    intro s hs
    simp only [Builder.new, List.mem_singleton] at hs
    exact hs ▸ (Healthy.new _).loose hsym
  | @alphabet words n d size b h1 h2 h3 h4 =>
    have hd := init_seqs h1 h2
    have hp := proper_sort h1
    obtain ⟨s, e1, e2, e3, _⟩ := Healthy.ofSeqs (words := d.seqs) (hd ▸ hp.nodup) (fun w hw e => hp.nonempty (by rw [← hd, ← e]; exact hw))
      (hd ▸ hp.closed) (Builder.kMaxMinProbability O) none (by simp)
    rw [Builder.ofAlphabet, e1] at h4
    cases h4
    have hsym : ∀ x : Int, [x] ∈ s.dict.seqs ↔ 0 ≤ x ∧ x < (n : Int) := by
      intro x
      rw [e3, hd]
      exact (proper_sort hp).singles x
    refine ⟨by simpa using e2.loose hsym, ⟨s, rfl, e2, hsym⟩, by simp, ?_⟩
    simp only
    rw [hd, sortSeqs_length]
    exact h3
  | @saved words n d freqs alphabet mp b h1 h2 h3 h4 h5 =>
    have hd := init_seqs h1 h2
    have hp := proper_sort h1
    obtain ⟨s, e1, e2, e3, _⟩ := Healthy.ofSeqs (words := d.seqs) (hd ▸ hp.nodup) (fun w hw e => hp.nonempty (by rw [← hd, ← e]; exact hw))
      (hd ▸ hp.closed) mp (some freqs) (by intro l hl; cases hl; exact h4)
    rw [Builder.ofSaved, e1] at h5
    cases h5
    have hsym : ∀ x : Int, [x] ∈ s.dict.seqs ↔ 0 ≤ x ∧ x < (n : Int) := by
      intro x
      rw [e3, hd]
      exact (proper_sort hp).singles x
    refine ⟨by simpa using e2.loose hsym, ⟨s, rfl, e2, hsym⟩, by simp, ?_⟩
    simp only [IntDict.size]
    rw [hd, sortSeqs_length]
    exact_mod_cast h3

theorem actsArrive_le {n m : Nat} {acts : List Act} (h : ActsArrive n acts m) : n ≤ m := by
  induction h with
  | nil => exact le_refl _
  | accept h1 _ ih => exact (arrive_le h1).trans ih
  | update _ ih => exact ih
  | freqs _ ih => exact ih

theorem train_tinv {E : Env F} (L : EnvLaws E) (SL : ScoreLaws E.ops) {acts : List Act} {n m : Nat} (h : ActsArrive n acts m) :
    ∀ {b : Builder F}, TInv b n → (m : Int) ≤ b.size + 1 → ∃ b', train E b acts = .ok b' ∧ TInv b' m ∧ b'.size = b.size := by
  induction h with
  | nil => intro b hb _; exact ⟨b, rfl, hb, rfl⟩
  | @accept n k m seq rest h1 h2 ih =>
    intro b hb hs
    have := actsArrive_le h2
    obtain ⟨b1, a1, a2, a3⟩ := accept_tinv L SL hb h1 (by omega)
    obtain ⟨b2, c1, c2, c3⟩ := ih a2 (by omega)
    exact ⟨b2, by simp only [train, act, a1, ok_bind, c1], c2, c3.trans a3⟩
  | update h ih =>
    intro b hb hs
    have := actsArrive_le h
    obtain ⟨b1, a1, a2, a3, _⟩ := update_tinv L SL hb (by omega)
    obtain ⟨b2, c1, c2, c3⟩ := ih a2 (by omega)
    exact ⟨b2, by simp only [train, act, a1, ok_bind, c1], c2, c3.trans a3⟩
  | freqs h ih =>
    intro b hb hs
    obtain ⟨s, _, a1, a2⟩ := resultFreqs_tinv hb []
    obtain ⟨b2, c1, c2, c3⟩ := ih a2 hs
    exact ⟨b2, by simp only [train, act, a1, ok_bind, pure_M, c1], c2, c3⟩

/-! ## C20, C21 -/

/-- C20: if the requested size is at least the number of symbols minus one, no call ever faults (out-of-range access,
invalidated iterator, endless loop, exception), whatever the random, hash and sort outcomes. -/
theorem C20_training_safe (E : Env F) (L : EnvLaws E) (SL : ScoreLaws E.ops) (b0 : Builder F) (n m : Nat) (h0 : Start E.ops b0 n)
    (acts : List Act) (ha : ActsArrive n acts m) (hsize : (m : Int) ≤ b0.size + 1) : ∃ b, train E b0 acts = .ok b := by
  obtain ⟨b, h, _⟩ := train_tinv L SL ha h0.tinv hsize
  exact ⟨b, h⟩

/-- C21: the working dictionary is always strictly sorted, its words are non-empty, consist of seen symbols and
every seen symbol is a word. -/
theorem C21_training_covers (E : Env F) (L : EnvLaws E) (SL : ScoreLaws E.ops) (b0 : Builder F) (n m : Nat) (h0 : Start E.ops b0 n)
    (acts : List Act) (ha : ActsArrive n acts m) (hsize : (m : Int) ≤ b0.size + 1) (b : Builder F) (h : train E b0 acts = .ok b) :
    ∃ s, b.cur = .ok s ∧ s.dict.seqs.Pairwise (· < ·) ∧ Proper s.dict.seqs m := by
  obtain ⟨b', h', t, _⟩ := train_tinv L SL ha h0.tinv hsize
  rw [h] at h'
  cases h'
  obtain ⟨s, hs, hh, hsym⟩ := t.cur
  exact ⟨s, cur_eq hs, hh.sorted.sorted, hh.sorted.nodup, fun hm => hh.sorted.nonempty _ hm rfl, hh.symbols hsym,
    fun x h1 h2 => (hsym x).2 ⟨h1, h2⟩⟩

/-- Which symbols occur in the accepted sequences. -/
def Occurs (x : Int) (acts : List Act) : Prop := ∃ seq, Act.accept seq ∈ acts ∧ x ∈ seq

theorem arrive_mem {n m : Nat} {seq : IntSeq} (h : Arrive n seq m) (x : Int) :
    ((0 ≤ x ∧ x < (n : Int)) ∨ x ∈ seq) ↔ (0 ≤ x ∧ x < (m : Int)) := by
  induction h with
  | nil => simp
  | @known n m y xs h0 h1 h2 ih =>
    rw [← ih, List.mem_cons]
    constructor
    · rintro (h | rfl | h)
      · exact Or.inl h
      · exact Or.inl ⟨h0, h1⟩
      · exact Or.inr h
    · rintro (h | h)
      · exact Or.inl h
      · exact Or.inr (Or.inr h)
  | @fresh n m xs h2 ih =>
    rw [← ih, List.mem_cons]
    push_cast
    constructor
    · rintro (h | rfl | h)
      · exact Or.inl ⟨h.1, by omega⟩
      · exact Or.inl ⟨by omega, by omega⟩
      · exact Or.inr h
    · rintro (h | h)
      · by_cases e : x = (n : Int)
        · exact Or.inr (Or.inl e)
        · exact Or.inl ⟨h.1, by omega⟩
      · exact Or.inr (Or.inr h)

theorem actsArrive_mem {n m : Nat} {acts : List Act} (h : ActsArrive n acts m) (x : Int) :
    ((0 ≤ x ∧ x < (n : Int)) ∨ Occurs x acts) ↔ (0 ≤ x ∧ x < (m : Int)) := by
  induction h with
  | nil => simp [Occurs]
  | @accept n k m seq rest h1 h2 ih =>
    rw [← ih, ← arrive_mem h1]
    simp only [Occurs, List.mem_cons, Act.accept.injEq]
    constructor
    · rintro (h | ⟨s, rfl | hs, hx⟩)
      · exact Or.inl (Or.inl h)
      · exact Or.inl (Or.inr hx)
      · exact Or.inr ⟨s, hs, hx⟩
    · rintro ((h | h) | ⟨s, hs, hx⟩)
      · exact Or.inl h
      · exact Or.inr ⟨seq, Or.inl rfl, h⟩
      · exact Or.inr ⟨s, Or.inr hs, hx⟩
  | update h ih => rw [← ih]; simp [Occurs]
  | freqs h ih => rw [← ih]; simp [Occurs]

/-- C21 for a fresh builder, in terms of the accepted sequences only: the one-symbol words are exactly the symbols that
occurred, and no word uses another symbol. -/
theorem C21_exactly_seen (E : Env F) (L : EnvLaws E) (SL : ScoreLaws E.ops) (size : Int) (m : Nat)
    (acts : List Act) (ha : ActsArrive 0 acts m) (hm : (m : Int) ≤ size + 1) (hs : 0 ≤ size) (b : Builder F)
    (h : train E (Builder.new E.ops size) acts = .ok b) :
    ∃ s, b.cur = .ok s ∧ (∀ x, [x] ∈ s.dict.seqs ↔ Occurs x acts) ∧ ∀ w ∈ s.dict.seqs, ∀ x ∈ w, Occurs x acts := by
  obtain ⟨s, h1, _, hp⟩ := C21_training_covers E L SL _ 0 m (.fresh hs) acts ha hm b h
  have key : ∀ x, Occurs x acts ↔ (0 ≤ x ∧ x < (m : Int)) := by
    intro x
    have := actsArrive_mem ha x
    simp only [Nat.cast_zero] at this
    constructor
    · exact fun hx => this.1 (Or.inr hx)
    · intro hx
      rcases this.2 hx with h | h
      · omega
      · exact h
  exact ⟨s, h1, fun x => by rw [key]; exact hp.singles x, fun w hw x hx => (key x).2 (hp.symbols w hw x hx)⟩

/-! ## C22 the size of the published dictionary -/

theorem ready_update {E : Env F} {b : Builder F} {s : StatDict F} (hs : b.stats[b.current]? = some s) {seq : IntSeq}
    {s' : StatDict F} {r : List Int × Int} (hp : s.parse E.ops seq [] = .ok (s', r)) {b' : Builder F} (h : b.accept E seq = .ok b') :
    b' = { b with stats := b.stats.set b.current s' } ∨
      Builder.update E { b with stats := b.stats.set b.current s' } = .ok b' := by
  simp only [Builder.accept, cur_eq hs, ok_bind, hp] at h
  split at h
  · exact Or.inr h
  · cases h; exact Or.inl rfl

/-- Effect of one update on the alphabet and the published dictionary. -/
theorem update_effect {E : Env F} (L : EnvLaws E) (SL : ScoreLaws E.ops) {b b' : Builder F} {m : Nat} (t : TInv b m)
    (hs : (m : Int) ≤ b.size + 1) (h : b.update E = .ok b') :
    TInv b' m ∧ b'.size = b.size ∧ b.symbAlphabet.length ≤ b'.symbAlphabet.length ∧
    (b.stats.length < b'.stats.length → m ≤ b'.symbAlphabet.length + 1) ∧
    (b'.result ≠ b.result → ∃ i s', b'.result = some i ∧ b'.stats[i]? = some s' ∧
      (s'.dict.seqs.length : Int) ≤ b.size - (b.symbAlphabet.length : Int) + m) := by
  obtain ⟨b2, u1, u2, u3, u4⟩ := update_tinv L SL t hs
  rw [h] at u1
  cases u1
  rcases u4 with rfl | ⟨u6, u5⟩
  · exact ⟨u2, rfl, le_refl _, fun h => absurd h (by omega), fun h => absurd rfl h⟩
  · refine ⟨u2, u3, by omega, fun _ => by omega, fun hpub => ?_⟩
    have hp : b.populate = false := by
      by_contra hp
      have hp : b.populate = true := by simpa using hp
      rcases update_cases h with ⟨rfl, _⟩ | ⟨_, _, _, _, _, _, up⟩
      · exact hpub rfl
      · exact hpub (by rw [up.result, if_pos hp])
    obtain ⟨s', a1, a2, a3⟩ := u5 hp
    exact ⟨_, s', a2, a1, a3⟩

/-- Effect of one call on the alphabet and the published dictionary. -/
theorem act_effect {E : Env F} (L : EnvLaws E) (SL : ScoreLaws E.ops) {b b' : Builder F} {n m : Nat} {a : Act} (t : TInv b n)
    (ha : ActsArrive n [a] m) (hs : (m : Int) ≤ b.size + 1) (h : act E b a = .ok b') :
    TInv b' m ∧ b'.size = b.size ∧ b.symbAlphabet.length ≤ b'.symbAlphabet.length ∧
    (b.stats.length < b'.stats.length → m ≤ b'.symbAlphabet.length + 1) ∧
    (b'.result ≠ b.result → ∃ i s', b'.result = some i ∧ b'.stats[i]? = some s' ∧
      (s'.dict.seqs.length : Int) ≤ b.size - (b.symbAlphabet.length : Int) + m) := by
  cases ha with
  | accept h1 h2 =>
    cases h2
    obtain ⟨s, s', ids, e1, e2, e3, _⟩ := accept_parse SL t h1
    rcases ready_update e1 e2 h with rfl | hu
    · exact ⟨e3, rfl, le_refl _, fun h => absurd h (by simp), fun h => absurd rfl h⟩
    · obtain ⟨r1, r2, r3, r4, r5⟩ := update_effect L SL e3 hs hu
      exact ⟨r1, r2, r3, fun h => r4 (by simpa using h), r5⟩
  | update h2 => cases h2; exact update_effect L SL t hs h
  | freqs h2 =>
    cases h2
    obtain ⟨s, _, a1, a2⟩ := resultFreqs_tinv t []
    simp only [act, a1, ok_bind, pure_M] at h
    cases h
    exact ⟨a2, rfl, le_refl _, fun h => absurd h (by simp), fun h => absurd rfl h⟩

theorem train_effect {E : Env F} (L : EnvLaws E) (SL : ScoreLaws E.ops) : ∀ (acts : List Act) {b b' : Builder F} {n m : Nat}, TInv b n →
    ActsArrive n acts m → (m : Int) ≤ b.size + 1 → train E b acts = .ok b' →
    TInv b' m ∧ b'.size = b.size ∧ b.symbAlphabet.length ≤ b'.symbAlphabet.length := by
  intro acts
  induction acts with
  | nil => intro b b' n m t ha _ h; cases ha; cases h; exact ⟨t, rfl, le_refl _⟩
  | cons a acts ih =>
    intro b b' n m t ha hs h
    obtain ⟨b1, h1, h⟩ := bind_ok.1 h
    have : ∃ k, ActsArrive n [a] k ∧ ActsArrive k acts m := by
      cases ha with
      | accept g1 h2 => exact ⟨_, .accept g1 .nil, h2⟩
      | update h2 => exact ⟨_, .update .nil, h2⟩
      | freqs h2 => exact ⟨_, .freqs .nil, h2⟩
    obtain ⟨k, k1, k2⟩ := this
    have := actsArrive_le k2
    obtain ⟨r1, r2, r3, _⟩ := act_effect L SL t k1 (by omega) h1
    obtain ⟨q1, q2, q3⟩ := ih r1 k2 (by omega) h
    exact ⟨q1, q2.trans r2, by omega⟩

/-- C22, the part that holds: a dictionary published by a reduction exceeds the requested size at most by one plus the
number of symbols that arrived since the previous rebuild.  (`b1 → b2` is the previous rebuild with `n2` symbols seen
then, `b3 → b4` the publishing call with `n4` symbols seen then.)  Missing: the bound `size` itself, which is false. -/
theorem C22_published_size_partial (E : Env F) (L : EnvLaws E) (SL : ScoreLaws E.ops) (b0 b1 b2 b3 b4 : Builder F)
    (n0 n1 n2 n3 n4 : Nat) (acts1 acts3 : List Act) (a2 a4 : Act) (h0 : Start E.ops b0 n0)
    (ha1 : ActsArrive n0 acts1 n1) (ha2 : ActsArrive n1 [a2] n2) (ha3 : ActsArrive n2 acts3 n3) (ha4 : ActsArrive n3 [a4] n4)
    (hsize : (n4 : Int) ≤ b0.size + 1)
    (t1 : train E b0 acts1 = .ok b1) (t2 : act E b1 a2 = .ok b2) (hrebuild : b1.stats.length < b2.stats.length)
    (t3 : train E b2 acts3 = .ok b3) (t4 : act E b3 a4 = .ok b4) (hpub : b4.result ≠ b3.result) :
    ∃ i s, b4.result = some i ∧ b4.stats[i]? = some s ∧ (s.dict.seqs.length : Int) ≤ b0.size + 1 + ((n4 : Int) - n2) := by
  have l2 := actsArrive_le ha2
  have l3 := actsArrive_le ha3
  have l4 := actsArrive_le ha4
  obtain ⟨q1, z1, _⟩ := train_effect L SL acts1 h0.tinv ha1 (by omega) t1
  obtain ⟨q2, z2, _, w2, _⟩ := act_effect L SL q1 ha2 (by omega) t2
  obtain ⟨q3, z3, w3⟩ := train_effect L SL acts3 q2 ha3 (by omega) t3
  obtain ⟨_, _, _, _, w4⟩ := act_effect L SL q3 ha4 (by omega) t4
  obtain ⟨i, s, r1, r2, r3⟩ := w4 hpub
  have := w2 hrebuild
  exact ⟨i, s, r1, r2, by omega⟩

/-- The environment of the examples below: rational arithmetic with a slowly growing logarithm, so that one short
sequence is enough statistics for an update (with the double logarithm about 1150 tokens are). -/
def quickEnv : Env (Ext Rat) := Ext.env Rat (fun x => (x - 1) / 10000)

/-- The published words, or none. -/
def published (b : Builder F) : Option (List IntSeq) := do
  let i ← b.result
  let s ← b.stats[i]?
  pure s.dict.seqs

/-- C22 is false: with requested size 2 and two symbols, all of them seen before the first update, three words are
published. -/
theorem C22_size_false : ¬ ∀ (E : Env (Ext Rat)) (size : Int) (acts : List Act) (m : Nat) (b : Builder (Ext Rat)) (words : List IntSeq),
    Nonempty (EnvLaws E) → Nonempty (ScoreLaws E.ops) → ActsArrive 0 acts m → (m : Int) ≤ size →
    train E (Builder.new E.ops size) acts = .ok b → published b = some words → (words.length : Int) ≤ size := by
  intro h
  have hp : (match train quickEnv (Builder.new quickEnv.ops 2) [.accept [0, 1], .accept [0, 1]] with
    | .ok b => published b | .error _ => none) = some [[0], [0, 1], [1]] := by decide +kernel
  split at hp
  · next b hb =>
    have := h quickEnv 2 _ 2 b _ ⟨Ext.envLaws _⟩ ⟨Ext.scoreLaws _⟩
      (.accept (.fresh (.fresh .nil)) (.accept (.known (by decide) (by decide) (.known (by decide) (by decide) .nil)) .nil))
      (by decide) hb hp
    exact absurd this (by decide)
  · cases hp

theorem arrive_known : ∀ {seq : IntSeq} {n : Nat}, (∀ c ∈ seq, 0 ≤ c ∧ c < (n : Int)) → Arrive n seq n := by
  intro seq
  induction seq with
  | nil => intro n _; exact .nil
  | cons c seq ih => intro n h; exact .known (h c (by simp)).1 (h c (by simp)).2 (ih fun x hx => h x (by simp [hx]))

/-- The size condition of C20 is needed: with size 1 and four symbols, a training run ends in an invalidated iterator. -/
theorem C20_small_size_false : ∃ acts, ActsArrive 0 acts 4 ∧
    train quickEnv (Builder.new quickEnv.ops 1) acts = .error .iterInvalid :=
  ⟨[.accept [0, 1, 2, 3], .accept [0, 1, 2, 3], .accept [3, 2, 1, 3], .accept [3, 2, 1, 0, 3, 2], .accept [3, 2, 1]],
    .accept (.fresh (.fresh (.fresh (.fresh .nil)))) (.accept (arrive_known (by decide))
      (.accept (arrive_known (by decide))
        (.accept (arrive_known (by decide))
          (.accept (arrive_known (by decide)) .nil)))), by decide +kernel⟩

/-- A training run with two rebuilds that satisfies the hypotheses of C20 and C21. -/
example : (match train quickEnv (Builder.new quickEnv.ops 3) [.accept [0, 1], .freqs, .accept [0, 1, 2], .update, .accept [2, 0, 1]] with
    | .ok b => (b.stats.map (fun s => s.dict.seqs), b.result) | .error _ => ([], none)) =
    ([[[0], [1]], [[0], [0, 1], [1], [2]], [[0], [0, 1], [1], [2]], [[0], [0, 1], [1], [2], [2, 0, 1]]], some 2) := by decide +kernel

end VGram.Props
