import Verif.Spec.Env
import Verif.Proofs.Healthy
import Verif.Proofs.Expand
import Verif.Model.Builder

/-! # The minimal probability along training -/

namespace VGram

open Spec

variable {F : Type}

/-- What the minimal probability needs to know about a statistics dictionary. -/
structure QInv {O : FloatOps F} (P : ProbLaws O) (s : StatDict F) : Prop where
  freqs : ∀ f ∈ s.symbolFreqs, 0 ≤ f
  pairs : ∀ e ∈ s.pairs, 0 < e.2
  ok : P.Ok s.minProb

theorem ProbLaws.refl {O : FloatOps F} (P : ProbLaws O) {x : F} (h : P.Ok x) : O.lt x x = false := by
  by_contra hc
  have hc : O.lt x x = true := by simpa using hc
  have := P.asymm x x h h hc
  rw [hc] at this
  cases this

/-- `std::min` keeps the value at most both arguments. -/
theorem min_spec {O : FloatOps F} (P : ProbLaws O) {a b : F} (ha : P.Ok a) (hb : P.Ok b) :
    P.Ok (O.min a b) ∧ O.lt a (O.min a b) = false ∧ O.lt b (O.min a b) = false := by
  unfold FloatOps.min
  split
  · next h => exact ⟨hb, P.asymm _ _ hb ha h, ProbLaws.refl P hb⟩
  · next h => exact ⟨ha, ProbLaws.refl P ha, by simpa using h⟩

theorem expandTake_min {O : FloatOps F} (P : ProbLaws O) {s : StatDict F} {acc : Int} : ∀ (items : List (StatItem F)) (slots : Int)
    (mp : F) (ws : List IntSeq) (fs : List Int) (m : F), P.Ok mp → (∀ it ∈ items, 0 ≤ it.first → 0 ≤ it.count ∧ 1 ≤ acc) →
    StatDict.expandTake O s acc items slots mp = .ok (ws, fs, m) → P.Ok m ∧ O.lt mp m = false := by
  intro items
  induction items with
  | nil =>
    intro slots mp ws fs m hmp _ h
    cases h
    exact ⟨hmp, ProbLaws.refl P hmp⟩
  | cons it items ih =>
    intro slots mp ws fs m hmp hi h
    simp only [StatDict.expandTake] at h
    split at h
    · cases h; exact ⟨hmp, ProbLaws.refl P hmp⟩
    · split at h
      · cases h; exact ⟨hmp, ProbLaws.refl P hmp⟩
      · obtain ⟨t, _, h⟩ := bind_ok.1 h
        obtain ⟨⟨ws', fs', m'⟩, h2, h⟩ := bind_ok.1 h
        cases h
        have hmp' : P.Ok (if 0 ≤ it.first then O.min mp (O.div (O.ofInt it.count) (O.ofInt acc)) else mp) ∧
            O.lt mp (if 0 ≤ it.first then O.min mp (O.div (O.ofInt it.count) (O.ofInt acc)) else mp) = false := by
          split
          · next hf =>
            have := hi it (by simp) hf
            have := min_spec P hmp (P.div it.count acc this.1 this.2)
            exact ⟨this.1, this.2.1⟩
          · exact ⟨hmp, ProbLaws.refl P hmp⟩
        obtain ⟨r1, r2⟩ := ih _ _ _ _ _ hmp'.1 (fun i hi' => hi i (by simp [hi'])) h2
        exact ⟨r1, P.leTrans _ _ _ r1 hmp'.1 hmp r2 hmp'.2⟩

theorem expandPairs_items {E : Env F} {s : StatDict F} {st en : List Int} {total : Int} : ∀ (p : PairMap) (known : List IntSeq)
    (items : List (StatItem F)), StatDict.expandPairs E s st en total p known = .ok items →
    ∀ it ∈ items, ((it.first, it.second), it.count) ∈ p := by
  intro p
  induction p with
  | nil => intro known items h; cases h; simp
  | cons e p ih =>
    obtain ⟨⟨a, b⟩, f⟩ := e
    intro known items h
    simp only [StatDict.expandPairs] at h
    obtain ⟨_, _, h⟩ := bind_ok.1 h
    obtain ⟨_, _, h⟩ := bind_ok.1 h
    obtain ⟨_, _, h⟩ := bind_ok.1 h
    obtain ⟨_, _, h⟩ := bind_ok.1 h
    split at h
    · intro it hit
      exact List.mem_cons_of_mem _ (ih _ _ h it hit)
    · obtain ⟨items', h2, h⟩ := bind_ok.1 h
      cases h
      intro it hit
      rcases List.mem_cons.1 hit with rfl | hit
      · simp
      · exact List.mem_cons_of_mem _ (ih _ _ h2 it hit)

theorem expandKnown_items {O : FloatOps F} {s : StatDict F} : ∀ (l : List IntSeq) (items : List (StatItem F)),
    StatDict.expandKnown O s l = .ok items → ∀ it ∈ items, it.first = -1 := by
  intro l
  induction l with
  | nil => intro items h; cases h; simp
  | cons w l ih =>
    intro items h
    simp only [StatDict.expandKnown] at h
    obtain ⟨⟨d, i⟩, _, h⟩ := bind_ok.1 h
    dsimp only at h
    split at h
    · obtain ⟨items', h2, h⟩ := bind_ok.1 h
      cases h
      intro it hit
      rcases List.mem_cons.1 hit with rfl | hit
      · rfl
      · exact ih _ h2 it hit
    · cases h

theorem pairSum_ge {p : PairMap} (h : ∀ e ∈ p, 0 < e.2) {e : (Int × Int) × Int} (he : e ∈ p) : e.2 ≤ sumI (p.map (·.2)) := by
  induction p with
  | nil => simp at he
  | cons a p ih =>
    rw [List.map_cons, sumI_cons]
    have ha := h a (by simp)
    have hp : 0 ≤ sumI (p.map (·.2)) := sumI_nonneg (by
      intro f hf
      obtain ⟨e, he, rfl⟩ := List.mem_map.1 hf
      exact le_of_lt (h e (by simp [he])))
    rcases List.mem_cons.1 he with rfl | he
    · omega
    · have := ih (fun e he => h e (by simp [he])) he
      omega

/-- `expand` never returns a larger minimal probability. -/
theorem expand_min {E : Env F} (P : ProbLaws E.ops) (hsort : ∀ l, ∀ a ∈ E.sortItems l, a ∈ l)
    (hord : ∀ p, ∀ e ∈ E.pairOrder p, e ∈ p) {s : StatDict F} (h : QInv P s)
    {slots : Int} {ws : List IntSeq} {fs : List Int} {m : F} (he : s.expand E slots = .ok (ws, fs, m)) :
    P.Ok m ∧ E.ops.lt s.minProb m = false := by
  unfold StatDict.expand at he
  obtain ⟨known, h1, he⟩ := bind_ok.1 he
  obtain ⟨⟨st, en⟩, _, he⟩ := bind_ok.1 he
  obtain ⟨fresh, h3, he⟩ := bind_ok.1 he
  refine expandTake_min P _ _ _ _ _ _ h.ok ?_ he
  intro it hit hf
  rcases List.mem_append.1 (hsort _ it hit) with hk | hk
  · have := expandKnown_items _ _ h1 it hk
    omega
  · have hmem := expandPairs_items _ _ _ h3 it hk
    have hpos : ∀ e ∈ E.pairOrder s.pairs, 0 < e.2 := fun e he => h.pairs e (hord _ e he)
    have h1 := hpos _ hmem
    have h2 := pairSum_ge hpos hmem
    dsimp only at h1 h2
    omega

theorem reduceLoop_min {O : FloatOps F} (P : ProbLaws O) {s : StatDict F} {power : Int} (hp : 0 ≤ power) :
    ∀ (items : List (StatItem F)) (mp : F) (ws : List IntSeq) (fs : List Int) (m : F), P.Ok mp → (∀ it ∈ items, 0 ≤ it.count) →
    StatDict.reduceLoop O s power items mp = .ok (ws, fs, m) → P.Ok m ∧ O.lt mp m = false := by
  intro items
  induction items with
  | nil =>
    intro mp ws fs m hmp _ h
    cases h
    exact ⟨hmp, ProbLaws.refl P hmp⟩
  | cons it items ih =>
    intro mp ws fs m hmp hi h
    simp only [StatDict.reduceLoop] at h
    obtain ⟨par, _, h⟩ := bind_ok.1 h
    obtain ⟨w, hw, h⟩ := bind_ok.1 h
    obtain ⟨⟨ws', fs', m'⟩, h2, h⟩ := bind_ok.1 h
    cases h
    have hsz : 1 ≤ (s.size : Int) := by
      have : 0 < s.dict.seqs.length := by
        by_contra hc
        have : s.dict.seqs = [] := List.length_eq_zero_iff.1 (by omega)
        simp only [IntDict.get, this] at hw
        cases hidx : it.second with
        | ofNat n => rw [hidx] at hw; simp [rd] at hw
        | negSucc n => rw [hidx] at hw; simp [rd] at hw
      simp only [StatDict.size, IntDict.size]
      omega
    have hmp' : P.Ok (if 0 ≤ par then O.min (O.div (O.ofInt (it.count + 1)) (O.ofInt (power + (s.size : Int)))) mp else mp) ∧
        O.lt mp (if 0 ≤ par then O.min (O.div (O.ofInt (it.count + 1)) (O.ofInt (power + (s.size : Int)))) mp else mp) = false := by
      split
      · have hc := hi it (by simp)
        have := min_spec P (P.div (it.count + 1) (power + (s.size : Int)) (by omega) (by omega)) hmp
        exact ⟨this.1, this.2.2⟩
      · exact ⟨hmp, ProbLaws.refl P hmp⟩
    obtain ⟨r1, r2⟩ := ih _ _ _ _ hmp'.1 (fun i hi' => hi i (by simp [hi'])) h2
    exact ⟨r1, P.leTrans _ _ _ r1 hmp'.1 hmp r2 hmp'.2⟩

theorem freq_nonneg_of {s : StatDict F} (h : ∀ f ∈ s.symbolFreqs, 0 ≤ f) (i : Int) : 0 ≤ s.freq i := by
  unfold StatDict.freq
  split
  · next f hf =>
    by_cases hi : 0 ≤ i
    · obtain ⟨n, rfl⟩ : ∃ n : Nat, i = (n : Int) := ⟨i.toNat, by omega⟩
      exact h _ (List.mem_of_getElem? (rd_nat_ok.1 hf))
    · obtain ⟨n, rfl⟩ : ∃ n : Nat, i = Int.negSucc n := ⟨(-i - 1).toNat, by omega⟩
      simp [rd] at hf
  · exact le_refl _

theorem statItemsLoop_count {O : FloatOps F} {s : StatDict F} (hf : ∀ f ∈ s.symbolFreqs, 0 ≤ f) {cl : F} {ex : List Int} :
    ∀ (l : List Nat) (items : List (StatItem F)), StatDict.statItemsLoop O s cl ex l = .ok items → ∀ it ∈ items, 0 ≤ it.count := by
  intro l
  induction l with
  | nil => intro items h; cases h; simp
  | cons i l ih =>
    intro items h
    simp only [StatDict.statItemsLoop] at h
    split at h
    · exact ih _ h
    · obtain ⟨seq, _, h⟩ := bind_ok.1 h
      split at h
      · obtain ⟨parse, _, h⟩ := bind_ok.1 h
        obtain ⟨items', h2, h⟩ := bind_ok.1 h
        split at h
        · cases h
          intro it hit
          rcases List.mem_cons.1 hit with rfl | hit
          · exact freq_nonneg_of hf _
          · exact ih _ h2 it hit
        · cases h
          exact ih _ h2
      · obtain ⟨items', h2, h⟩ := bind_ok.1 h
        cases h
        intro it hit
        rcases List.mem_cons.1 hit with rfl | hit
        · exact freq_nonneg_of hf _
        · exact ih _ h2 it hit

/-- `reduce` never returns a larger minimal probability. -/
theorem reduce_min {E : Env F} (P : ProbLaws E.ops) (hsort : ∀ l, ∀ a ∈ E.sortItems l, a ∈ l) {s : StatDict F} (h : QInv P s)
    {slots : Int} {ws : List IntSeq} {fs : List Int} {m : F} (he : s.reduce E slots = .ok (ws, fs, m)) :
    P.Ok m ∧ E.ops.lt s.minProb m = false := by
  unfold StatDict.reduce StatDict.filterStatItems StatDict.statItems at he
  obtain ⟨items, hi, he⟩ := bind_ok.1 he
  obtain ⟨roots, _, hi⟩ := bind_ok.1 hi
  obtain ⟨ex, _, hi⟩ := bind_ok.1 hi
  obtain ⟨sorted, h3, hi⟩ := bind_ok.1 hi
  obtain ⟨raw, h4, h3⟩ := bind_ok.1 h3
  cases h3
  have hcnt : ∀ it ∈ items, 0 ≤ it.count := by
    intro it hit
    refine statItemsLoop_count h.freqs _ _ h4 it (hsort _ it ?_)
    cases hi
    split at hit
    · exact hit
    · exact List.mem_of_mem_take hit
  have hm0 := min_spec P (P.inv (s.size : Int) (by omega)) h.ok
  have hpow : 0 ≤ sumI (items.map (·.count)) := sumI_nonneg (by
    intro f hf
    obtain ⟨it, hit, rfl⟩ := List.mem_map.1 hf
    exact hcnt it hit)
  obtain ⟨r1, r2⟩ := reduceLoop_min P hpow _ _ _ _ _ hm0.1 hcnt he
  exact ⟨r1, P.leTrans _ _ _ r1 hm0.1 h.ok r2 hm0.2.2⟩

/-! ## parse keeps it -/

theorem wr_mem {α : Type} {l l' : List α} {i : Int} {a : α} (h : wr l i a = .ok l') : ∀ x ∈ l', x = a ∨ x ∈ l := by
  by_cases hi : 0 ≤ i
  · obtain ⟨n, rfl⟩ : ∃ n : Nat, i = (n : Int) := ⟨i.toNat, by omega⟩
    by_cases hn : n < l.length
    · rw [wr_of_lt hn] at h
      cases h
      intro x hx
      rcases List.mem_or_eq_of_mem_set hx with h | h
      · exact Or.inr h
      · exact Or.inl h
    · simp [wr, hn] at h
  · obtain ⟨n, rfl⟩ : ∃ n : Nat, i = Int.negSucc n := ⟨(-i - 1).toNat, by omega⟩
    simp [wr] at h

theorem rd_mem {α : Type} {l : List α} {i : Int} {a : α} (h : rd l i = .ok a) : a ∈ l := by
  by_cases hi : 0 ≤ i
  · obtain ⟨n, rfl⟩ : ∃ n : Nat, i = (n : Int) := ⟨i.toNat, by omega⟩
    exact List.mem_of_getElem? (rd_nat_ok.1 h)
  · obtain ⟨n, rfl⟩ : ∃ n : Nat, i = Int.negSucc n := ⟨(-i - 1).toNat, by omega⟩
    simp [rd] at h

theorem updateSymbol_qinv {O : FloatOps F} {P : ProbLaws O} {s s' : StatDict F} (h : QInv P s) {i : Int}
    (hu : s.updateSymbol i 1 = .ok s') : QInv P s' ∧ s'.minProb = s.minProb := by
  unfold StatDict.updateSymbol at hu
  obtain ⟨a, ha, hu⟩ := bind_ok.1 hu
  obtain ⟨sf, hsf, hu⟩ := bind_ok.1 hu
  obtain ⟨b, _, hu⟩ := bind_ok.1 hu
  obtain ⟨pf, _, hu⟩ := bind_ok.1 hu
  cases hu
  have hpad : ∀ f ∈ (if decide ((s.symbolFreqs.length : Int) ≤ i) = true then StatDict.padTo s.symbolFreqs (i.toNat + 1)
      else s.symbolFreqs), 0 ≤ f := by
    intro f hf
    split at hf
    · rcases List.mem_append.1 hf with hf | hf
      · exact h.freqs f hf
      · rw [(List.mem_replicate.1 hf).2]
    · exact h.freqs f hf
  refine ⟨⟨?_, h.pairs, h.ok⟩, rfl⟩
  intro f hf
  rcases wr_mem hsf f hf with rfl | hf
  · have := hpad a (rd_mem ha)
    omega
  · exact hpad f hf

theorem tally_qinv {O : FloatOps F} {P : ProbLaws O} : ∀ (l : List Int) (prev : Int) {s s' : StatDict F}, QInv P s →
    s.tally prev l = .ok s' → QInv P s' ∧ s'.minProb = s.minProb := by
  intro l
  induction l with
  | nil => intro prev s s' h ht; cases ht; exact ⟨h, rfl⟩
  | cons x l ih =>
    intro prev s s' h ht
    simp only [StatDict.tally] at ht
    obtain ⟨s1, h1, ht⟩ := bind_ok.1 ht
    obtain ⟨q1, e1⟩ := updateSymbol_qinv h h1
    have : QInv P (if 0 ≤ prev then { s1 with pairs := StatDict.pairBump (prev, x) s1.pairs } else s1) := by
      split
      · exact ⟨q1.freqs, pairBump_pos _ q1.pairs, q1.ok⟩
      · exact q1
    obtain ⟨q2, e2⟩ := ih x this ht
    refine ⟨q2, e2.trans ?_⟩
    split
    · exact e1
    · exact e1

theorem parse_qinv {O : FloatOps F} {P : ProbLaws O} {s s' : StatDict F} (h : QInv P s) {seq : IntSeq} {out : List Int} {r : List Int × Int}
    (hp : s.parse O seq out = .ok (s', r)) : QInv P s' ∧ s'.minProb = s.minProb := by
  unfold StatDict.parse at hp
  obtain ⟨⟨d, o, n⟩, _, hp⟩ := bind_ok.1 hp
  obtain ⟨s2, ht, hp⟩ := bind_ok.1 hp
  cases hp
  exact tally_qinv _ _ (s := { s with dict := d, totalChars := s.totalChars + (seq.length : Int) }) ⟨h.freqs, h.pairs, h.ok⟩ ht

theorem ofSeqs_qinv {O : FloatOps F} {P : ProbLaws O} {words : List IntSeq} {mp : F} (hmp : P.Ok mp) {fr : Option (List Int)}
    {s : StatDict F} (h : StatDict.ofSeqs words mp fr = .ok s) : QInv P s ∧ s.minProb = mp := by
  unfold StatDict.ofSeqs at h
  obtain ⟨d, _, h⟩ := bind_ok.1 h
  have hz : ∀ f ∈ List.replicate words.length (0 : Int), 0 ≤ f := by
    intro f hf
    rw [(List.mem_replicate.1 hf).2]
  cases fr with
  | none => cases h; exact ⟨⟨hz, by simp, hmp⟩, rfl⟩
  | some l => cases h; exact ⟨⟨hz, by simp, hmp⟩, rfl⟩

end VGram
