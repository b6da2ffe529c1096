import Verif.Proofs.Weighted
import Verif.Model.StatDict

/-! # Statistics dictionary: counting -/

namespace VGram

open Spec

variable {F : Type}

/-- Entry `i` of a frequency vector, 0 outside. -/
def fq (l : List Int) (i : Nat) : Int := (l[i]?).getD 0

theorem fq_nil (i : Nat) : fq [] i = 0 := by simp [fq]

theorem fq_cons_zero (a : Int) (l : List Int) : fq (a :: l) 0 = a := by simp [fq]

theorem fq_cons_succ (a : Int) (l : List Int) (i : Nat) : fq (a :: l) (i + 1) = fq l i := by simp [fq]

theorem fq_of_le {l : List Int} {i : Nat} (h : l.length ≤ i) : fq l i = 0 := by simp [fq, List.getElem?_eq_none h]

theorem fq_mem {l : List Int} {i : Nat} (h : i < l.length) : fq l i ∈ l := by
  simp [fq, List.getElem?_eq_getElem h]

theorem fq_padTo (l : List Int) (n i : Nat) : fq (StatDict.padTo l n) i = fq l i := by
  unfold StatDict.padTo fq
  by_cases h : i < l.length
  · rw [List.getElem?_append_left h]
  · rw [List.getElem?_append_right (by omega), List.getElem?_eq_none (l := l) (by omega), List.getElem?_replicate]
    split <;> rfl

theorem padTo_length (l : List Int) (n : Nat) : (StatDict.padTo l n).length = max l.length n := by
  simp [StatDict.padTo]; omega

theorem sumI_cons (a : Int) (l : List Int) : sumI (a :: l) = a + sumI l := by simp [sumI_eq]

theorem sumI_append (a b : List Int) : sumI (a ++ b) = sumI a + sumI b := by simp [sumI_eq]

theorem sumI_replicate (n : Nat) : sumI (List.replicate n 0) = 0 := by
  induction n with
  | zero => rfl
  | succ n ih => rw [List.replicate_succ, sumI_cons, ih]; rfl

theorem sumI_padTo (l : List Int) (n : Nat) : sumI (StatDict.padTo l n) = sumI l := by
  simp [StatDict.padTo, sumI_append, sumI_replicate]

theorem padTo_nonneg {l : List Int} (h : ∀ f ∈ l, 0 ≤ f) (n : Nat) : ∀ f ∈ StatDict.padTo l n, 0 ≤ f := by
  intro f hf
  rcases List.mem_append.1 hf with h' | h'
  · exact h f h'
  · rw [List.eq_of_mem_replicate h']

theorem fq_set {l : List Int} {n : Nat} (h : n < l.length) (v : Int) (i : Nat) :
    fq (l.set n v) i = if i = n then v else fq l i := by
  unfold fq
  by_cases e : i = n
  · subst e; simp [h]
  · rw [List.getElem?_set_ne (Ne.symm e), if_neg e]

theorem sumI_set {l : List Int} {n : Nat} (h : n < l.length) (v : Int) : sumI (l.set n v) = sumI l - fq l n + v := by
  induction l generalizing n with
  | nil => simp at h
  | cons a l ih =>
    cases n with
    | zero => simp only [List.set_cons_zero, sumI_cons, fq_cons_zero]; omega
    | succ n =>
      simp only [List.set_cons_succ, sumI_cons, fq_cons_succ, ih (n := n) (by simpa using h)]
      omega

theorem rd_fq {l : List Int} {n : Nat} (h : n < l.length) : rd l (n : Int) = .ok (fq l n) := by
  rw [rd_of_lt h]
  simp [fq, List.getElem?_eq_getElem h]

theorem freq_nat (s : StatDict F) (n : Nat) : s.freq (n : Int) = fq s.symbolFreqs n := by
  unfold StatDict.freq
  by_cases h : n < s.symbolFreqs.length
  · rw [rd_fq h]
  · rw [rd_nat, List.getElem?_eq_none (by omega), fq_of_le (by omega)]

/-- Structural invariant of a statistics dictionary. -/
structure SInv (s : StatDict F) : Prop where
  wf : WF s.dict
  len : s.symbolFreqs.length ≤ s.parseFreqs.length
  size : s.symbolFreqs.length ≤ s.dict.seqs.length
  nonneg : ∀ f ∈ s.symbolFreqs, 0 ≤ f
  pnonneg : ∀ f ∈ s.parseFreqs, 0 ≤ f
  power : 0 ≤ s.power
  ipower : 0 ≤ s.initPower

/-- Effect of `update_symbol(n, f)`. -/
theorem updateSymbol_spec {s : StatDict F} (hlen : s.symbolFreqs.length ≤ s.parseFreqs.length) (n : Nat) (f : Int) :
    ∃ sf pf, s.updateSymbol (n : Int) f = .ok { s with symbolFreqs := sf, parseFreqs := pf, power := s.power + f } ∧
      sf.length = max s.symbolFreqs.length (n + 1) ∧ pf.length = max s.parseFreqs.length (n + 1) ∧
      (∀ i, fq sf i = fq s.symbolFreqs i + if i = n then f else 0) ∧
      (∀ i, fq pf i = fq s.parseFreqs i + if i = n then f else 0) ∧
      sumI sf = sumI s.symbolFreqs + f ∧ sumI pf = sumI s.parseFreqs + f ∧
      (0 ≤ f → (∀ x ∈ s.symbolFreqs, 0 ≤ x) → ∀ x ∈ sf, 0 ≤ x) ∧
      (0 ≤ f → (∀ x ∈ s.parseFreqs, 0 ≤ x) → ∀ x ∈ pf, 0 ≤ x) := by
  have key : ∀ l : List Int, n < l.length → ∃ l', (rd l (n : Int) >>= fun a => wr l (n : Int) (a + f)) = .ok l' ∧
      l'.length = l.length ∧ (∀ i, fq l' i = fq l i + if i = n then f else 0) ∧ sumI l' = sumI l + f ∧
      (0 ≤ f → (∀ x ∈ l, 0 ≤ x) → ∀ x ∈ l', 0 ≤ x) := by
    intro l h
    refine ⟨l.set n (fq l n + f), ?_, by simp, ?_, ?_, ?_⟩
    · rw [rd_fq h, ok_bind, wr_of_lt h]
    · intro i
      rw [fq_set h]
      split
      · next e => rw [e]
      · simp
    · rw [sumI_set h]; omega
    · intro hf hl x hx
      rcases List.mem_or_eq_of_mem_set hx with hx | rfl
      · exact hl x hx
      · have := hl _ (fq_mem h)
        omega
  generalize hsf : (if (decide ((s.symbolFreqs.length : Int) ≤ (n : Int))) = true then
      StatDict.padTo s.symbolFreqs ((n : Int).toNat + 1) else s.symbolFreqs) = sf
  generalize hpf : (if (decide ((s.symbolFreqs.length : Int) ≤ (n : Int))) = true then
      StatDict.padTo s.parseFreqs ((n : Int).toNat + 1) else s.parseFreqs) = pf
  have hs : sf.length = max s.symbolFreqs.length (n + 1) ∧ (∀ i, fq sf i = fq s.symbolFreqs i) ∧
      sumI sf = sumI s.symbolFreqs ∧ ((∀ x ∈ s.symbolFreqs, 0 ≤ x) → ∀ x ∈ sf, 0 ≤ x) := by
    subst hsf
    split
    · next h => exact ⟨by simp [padTo_length], fun i => fq_padTo _ _ i, sumI_padTo _ _, fun h => padTo_nonneg h _⟩
    · next h => simp at h; exact ⟨by omega, fun _ => rfl, rfl, fun h => h⟩
  have hp : pf.length = max s.parseFreqs.length (n + 1) ∧ (∀ i, fq pf i = fq s.parseFreqs i) ∧
      sumI pf = sumI s.parseFreqs ∧ ((∀ x ∈ s.parseFreqs, 0 ≤ x) → ∀ x ∈ pf, 0 ≤ x) := by
    subst hpf
    split
    · next h => exact ⟨by simp [padTo_length], fun i => fq_padTo _ _ i, sumI_padTo _ _, fun h => padTo_nonneg h _⟩
    · next h => simp at h; exact ⟨by omega, fun _ => rfl, rfl, fun h => h⟩
  obtain ⟨sf', a1, a2, a3, a4, a5⟩ := key sf (by omega)
  obtain ⟨pf', b1, b2, b3, b4, b5⟩ := key pf (by omega)
  obtain ⟨a, ha, ha'⟩ := bind_ok.1 a1
  obtain ⟨b, hb, hb'⟩ := bind_ok.1 b1
  refine ⟨sf', pf', ?_, by omega, by omega, fun i => by rw [a3, hs.2.1], fun i => by rw [b3, hp.2.1], by omega, by omega,
    fun h h' => a5 h (hs.2.2.2 h'), fun h h' => b5 h (hp.2.2.2 h')⟩
  simp only [StatDict.updateSymbol, hsf, hpf, ha, ok_bind, ha', hb, hb', pure_M]

/-! ## pair map -/

/-- Stored frequency of a pair, 0 if absent. -/
def pairGet (p : PairMap) (k : Int × Int) : Int := (p.lookup k).getD 0

theorem pairGet_bump (k k' : Int × Int) (p : PairMap) :
    pairGet (StatDict.pairBump k p) k' = pairGet p k' + if k' = k then 1 else 0 := by
  induction p with
  | nil =>
    by_cases h : k' = k
    · simp [StatDict.pairBump, pairGet, h]
    · have : (k' == k) = false := by simpa using h
      simp [StatDict.pairBump, pairGet, List.lookup, this, h]
  | cons e rest ih =>
    obtain ⟨k0, n⟩ := e
    simp only [StatDict.pairBump]
    by_cases h0 : k0 = k
    · subst h0
      simp only [if_true]
      by_cases h : k' = k0
      · simp [pairGet, h]
      · have : (k' == k0) = false := by simpa using h
        simp [pairGet, List.lookup, this, h]
    · simp only [h0, if_false]
      by_cases h : k' = k0
      · subst h
        simp [pairGet, List.lookup, h0]
      · have e : (k' == k0) = false := by simpa using h
        simp only [pairGet, List.lookup, e] at ih ⊢
        exact ih

theorem pairBump_keys (k : Int × Int) (p : PairMap) :
    (StatDict.pairBump k p).map (·.1) = if k ∈ p.map (·.1) then p.map (·.1) else p.map (·.1) ++ [k] := by
  induction p with
  | nil => simp [StatDict.pairBump]
  | cons e rest ih =>
    obtain ⟨k0, n⟩ := e
    simp only [StatDict.pairBump]
    by_cases h0 : k0 = k
    · simp [h0]
    · rw [if_neg h0, List.map_cons, ih]
      have hne : k ≠ k0 := Ne.symm h0
      by_cases h : k ∈ rest.map (·.1)
      · rw [if_pos h, if_pos (by simp only [List.map_cons, List.mem_cons]; exact Or.inr h)]
        rfl
      · rw [if_neg h, if_neg]
        · simp
        · simp only [List.map_cons, List.mem_cons]
          rintro (h' | h')
          · exact hne h'
          · exact h h'

theorem pairBump_nodup (k : Int × Int) {p : PairMap} (h : (p.map (·.1)).Nodup) :
    ((StatDict.pairBump k p).map (·.1)).Nodup := by
  rw [pairBump_keys]
  split
  · exact h
  · next hk =>
    rw [List.nodup_append]
    refine ⟨h, by simp, ?_⟩
    rintro a ha b hb rfl
    simp at hb
    exact hk (hb ▸ ha)

theorem pairBump_pos (k : Int × Int) {p : PairMap} (h : ∀ e ∈ p, 0 < e.2) : ∀ e ∈ StatDict.pairBump k p, 0 < e.2 := by
  induction p with
  | nil => simp [StatDict.pairBump]
  | cons e rest ih =>
    obtain ⟨k0, n⟩ := e
    simp only [StatDict.pairBump]
    have hn := h (k0, n) (by simp)
    split
    · intro e he
      rcases List.mem_cons.1 he with rfl | he
      · simp at hn ⊢; omega
      · exact h e (by simp [he])
    · intro e he
      rcases List.mem_cons.1 he with rfl | he
      · exact hn
      · exact ih (fun e he => h e (by simp [he])) e he

/-- Adjacent pairs of a list. -/
def adj (l : List Int) : List (Int × Int) := l.zip l.tail

theorem adj_cons_cons (a b : Int) (l : List Int) : adj (a :: b :: l) = (a, b) :: adj (b :: l) := by simp [adj]

/-- Effect of the tally loop. -/
theorem tally_spec : ∀ (ids : List Int) (s : StatDict F) (prev : Int),
    s.symbolFreqs.length ≤ s.parseFreqs.length → (∀ i ∈ ids, 0 ≤ i) →
    ∃ sf pf pr, s.tally prev ids =
        .ok { s with symbolFreqs := sf, parseFreqs := pf, power := s.power + (ids.length : Int), pairs := pr } ∧
      sf.length ≤ pf.length ∧ s.symbolFreqs.length ≤ sf.length ∧ s.parseFreqs.length ≤ pf.length ∧
      (∀ N, s.symbolFreqs.length ≤ N → (∀ i ∈ ids, i < (N : Int)) → sf.length ≤ N) ∧
      (∀ i ∈ ids, i < (sf.length : Int)) ∧
      (∀ i : Nat, fq sf i = fq s.symbolFreqs i + ids.count (i : Int)) ∧
      (∀ i : Nat, fq pf i = fq s.parseFreqs i + ids.count (i : Int)) ∧
      sumI sf = sumI s.symbolFreqs + ids.length ∧
      sumI pf = sumI s.parseFreqs + ids.length ∧
      ((∀ x ∈ s.symbolFreqs, 0 ≤ x) → ∀ x ∈ sf, 0 ≤ x) ∧ ((∀ x ∈ s.parseFreqs, 0 ≤ x) → ∀ x ∈ pf, 0 ≤ x) ∧
      (∀ k, pairGet pr k = pairGet s.pairs k + (if 0 ≤ prev then adj (prev :: ids) else adj ids).count k) ∧
      ((s.pairs.map (·.1)).Nodup → (pr.map (·.1)).Nodup) ∧
      ((∀ e ∈ s.pairs, 0 < e.2) → ∀ e ∈ pr, 0 < e.2) ∧
      (∀ k ∈ pr.map (·.1), k ∈ s.pairs.map (·.1) ∨ k ∈ (if 0 ≤ prev then adj (prev :: ids) else adj ids)) := by
  intro ids
  induction ids with
  | nil =>
    intro s prev hl _
    refine ⟨s.symbolFreqs, s.parseFreqs, s.pairs, by simp [StatDict.tally], hl, le_refl _, le_refl _, ?_, by simp, by simp,
      by simp, by simp, by simp, fun h => h, fun h => h, ?_, fun h => h, fun h => h, fun k h => Or.inl h⟩
    · intro N h _; exact h
    · intro k; simp [adj]
  | cons x ids ih =>
    intro s prev hl hpos
    obtain ⟨n, rfl⟩ : ∃ n : Nat, x = (n : Int) := ⟨x.toNat, by have := hpos x (by simp); omega⟩
    obtain ⟨sf, pf, u, l1, l2, f1, f2, s1, s2, n1, n2⟩ := updateSymbol_spec hl n 1
    let sMid : StatDict F := { s with
      symbolFreqs := sf, parseFreqs := pf, power := s.power + 1
      pairs := if 0 ≤ prev then StatDict.pairBump (prev, (n : Int)) s.pairs else s.pairs }
    obtain ⟨sf', pf', pr, t, c1, c2, c3, c4, c5, c6, c7, c8, c9, c10, c11, c12, c13, c14, c15⟩ := ih sMid (n : Int)
      (by show sf.length ≤ pf.length; omega) (fun i hi => hpos i (by simp [hi]))
    have c2 : sf.length ≤ sf'.length := c2
    have c3 : pf.length ≤ pf'.length := c3
    have hcount : ∀ i : Nat, (((n : Int) :: ids).count (i : Int) : Int) = (ids.count (i : Int) : Int) + if i = n then 1 else 0 := by
      intro i
      rw [List.count_cons]
      by_cases e : i = n
      · simp [e]
      · have : ((n : Int) == (i : Int)) = false := by simp; omega
        simp [e, this]
    have hadj : ∀ k, ((if 0 ≤ prev then adj (prev :: (n : Int) :: ids) else adj ((n : Int) :: ids)).count k : Int) =
        ((adj ((n : Int) :: ids)).count k : Int) + if 0 ≤ prev ∧ k = (prev, (n : Int)) then 1 else 0 := by
      intro k
      by_cases hp : 0 ≤ prev
      · rw [if_pos hp, adj_cons_cons, List.count_cons]
        by_cases e : k = (prev, (n : Int))
        · simp [e, hp]
        · have : ((prev, (n : Int)) == k) = false := by simpa using Ne.symm e
          simp [e, this]
      · simp [hp]
    refine ⟨sf', pf', pr, ?_, c1, by omega, by omega, ?_, ?_, ?_, ?_, ?_, ?_, ?_, ?_, ?_, ?_, ?_, ?_⟩
    · have hmid : (if 0 ≤ prev then { ({ s with symbolFreqs := sf, parseFreqs := pf, power := s.power + 1 } : StatDict F) with
          pairs := StatDict.pairBump (prev, (n : Int)) s.pairs }
          else { s with symbolFreqs := sf, parseFreqs := pf, power := s.power + 1 }) = sMid := by
        by_cases hp : 0 ≤ prev <;> simp [sMid, hp]
      simp only [StatDict.tally, u, ok_bind]
      rw [hmid, t]
      simp only [sMid, List.length_cons]
      congr 2
      push_cast
      omega
    · intro N hN hids
      refine c4 N ?_ (fun i hi => hids i (by simp [hi]))
      have := hids (n : Int) (by simp)
      show sf.length ≤ N
      omega
    · intro i hi
      rcases List.mem_cons.1 hi with rfl | hi
      · omega
      · exact c5 i hi
    · intro i
      rw [c6 i, hcount i]
      show fq sf i + _ = _
      rw [f1 i]; omega
    · intro i
      rw [c7 i, hcount i]
      show fq pf i + _ = _
      rw [f2 i]; omega
    · rw [c8]
      show sumI sf + _ = _
      rw [s1]; simp only [List.length_cons]; push_cast; omega
    · rw [c9]
      show sumI pf + _ = _
      rw [s2]; simp only [List.length_cons]; push_cast; omega
    · intro h; exact c10 (n1 (by omega) h)
    · intro h; exact c11 (n2 (by omega) h)
    · intro k
      rw [hadj k, c12 k]
      simp only [show (0 : Int) ≤ (n : Int) by omega, if_true]
      by_cases hp : 0 ≤ prev
      · simp only [sMid, hp, if_true, pairGet_bump, true_and]
        omega
      · simp [sMid, hp]
    · intro h
      apply c13
      by_cases hp : 0 ≤ prev
      · simp only [sMid, hp, if_true]; exact pairBump_nodup _ h
      · simp only [sMid, hp, if_false]; exact h
    · intro h
      apply c14
      by_cases hp : 0 ≤ prev
      · simp only [sMid, hp, if_true]; exact pairBump_pos _ h
      · simp only [sMid, hp, if_false]; exact h
    · intro k hk
      have := c15 k hk
      by_cases hp : 0 ≤ prev
      · simp only [sMid, hp, if_true, show (0 : Int) ≤ (n : Int) by omega, pairBump_keys] at this
        rw [if_pos hp, adj_cons_cons]
        rcases this with h | h
        · split at h
          · exact Or.inl h
          · rcases List.mem_append.1 h with h | h
            · exact Or.inl h
            · simp at h; exact Or.inr (by simp [h])
        · exact Or.inr (by simp [h])
      · simp only [sMid, hp, if_false, show (0 : Int) ≤ (n : Int) by omega, if_true] at this
        rw [if_neg hp]
        exact this

end VGram
