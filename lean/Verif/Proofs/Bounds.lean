import Verif.Proofs.Builder
import Verif.Proofs.Gain
import Verif.Proofs.ExpandShape
import Verif.Props.Builder

/-!
# Counters are bounded by the amount of text read
-/

namespace VGram

open Spec

variable {F : Type}

/-- The counters of one statistics dictionary; `N` bounds all the text read, `n0` the frequencies handed over at the start. -/
structure Small (n0 N : Int) (s : StatDict F) : Prop where
  freqs : ∀ i : Nat, 0 ≤ fq s.symbolFreqs i
  sum : sumI s.symbolFreqs = s.power
  le : ∀ i : Nat, fq s.symbolFreqs i ≤ s.power
  two : ∀ i j : Nat, i ≠ j → fq s.symbolFreqs i + fq s.symbolFreqs j ≤ s.power
  power : s.power ≤ s.totalChars
  chars : s.totalChars ≤ N
  pairs : ∀ e ∈ s.pairs, 0 < e.2 ∧ e.2 ≤ s.power
  pfreqs : ∀ i : Nat, 0 ≤ fq s.parseFreqs i
  pinit : ∀ i : Nat, fq s.parseFreqs i + s.totalChars ≤ n0 + N + fq s.symbolFreqs i

theorem Small.mono {n0 N N' : Int} {s : StatDict F} (h : Small n0 N s) (hN : N ≤ N') : Small n0 N' s :=
  ⟨h.freqs, h.sum, h.le, h.two, h.power, by have := h.chars; omega, h.pairs, h.pfreqs, fun i => by have := h.pinit i; omega⟩

theorem Small.parse_le {n0 N : Int} {s : StatDict F} (h : Small n0 N s) (i : Nat) : fq s.parseFreqs i ≤ n0 + N := by
  have := h.pinit i
  have := h.le i
  have := h.power
  omega

theorem fq_nonneg {l : List Int} (h : ∀ f ∈ l, 0 ≤ f) (i : Nat) : 0 ≤ fq l i := by
  by_cases hn : i < l.length
  · exact h _ (fq_mem hn)
  · rw [fq_of_le (by omega)]

theorem fq_two_le : ∀ {l : List Int}, (∀ f ∈ l, 0 ≤ f) → ∀ i j : Nat, i ≠ j → fq l i + fq l j ≤ sumI l := by
  intro l
  induction l with
  | nil => intro _ i j _; simp [fq, sumI]
  | cons x l ih =>
    intro h i j hij
    have hx := h x (by simp)
    have hl : ∀ f ∈ l, 0 ≤ f := fun f hf => h f (by simp [hf])
    have h1 := ih hl
    have h2 := fq_le_sum hl
    rw [sumI_eq] at h1 h2 ⊢
    rw [List.sum_cons]
    cases i with
    | zero =>
      cases j with
      | zero => exact absurd rfl hij
      | succ j =>
        have := h2 j
        have e1 : fq (x :: l) 0 = x := by simp [fq]
        have e2 : fq (x :: l) (j + 1) = fq l j := by simp [fq]
        omega
    | succ i =>
      cases j with
      | zero =>
        have := h2 i
        have e1 : fq (x :: l) 0 = x := by simp [fq]
        have e2 : fq (x :: l) (i + 1) = fq l i := by simp [fq]
        omega
      | succ j =>
        have := h1 i j (by omega)
        have e1 : fq (x :: l) (j + 1) = fq l j := by simp [fq]
        have e2 : fq (x :: l) (i + 1) = fq l i := by simp [fq]
        omega

theorem Spec.Spells.length_le {words : List IntSeq} (hne : ∀ w ∈ words, w ≠ []) {ids : List Int} {seq : IntSeq} (h : Spells words ids seq) :
    ids.length ≤ seq.length := by
  obtain ⟨ws, h1, rfl⟩ := h
  induction h1 with
  | nil => simp
  | @cons i w is ws a _ ih =>
    have hw : w ≠ [] := hne w (by
      obtain ⟨_, hn⟩ := a
      exact List.mem_of_getElem? hn)
    have := List.length_pos_iff.2 hw
    simp only [List.length_cons, List.flatten_cons, List.length_append]
    omega

theorem adj_length_le (ids : List Int) : (adj ids).length ≤ ids.length := by
  simp only [adj, List.length_zip]
  omega

/-- A parse counts at most as many ids as symbols. -/
theorem Small.parse {n0 N : Int} {O : FloatOps F} (SL : ScoreLaws O) {s s' : StatDict F} (hs : Small n0 N s) (hi : SInv s)
    (hnd : (s.pairs.map (·.1)).Nodup) {seq : IntSeq} {ids : List Int} {c : Int} (h : s.parse O seq [] = .ok (s', ids, c)) :
    Small n0 (N + seq.length) s' ∧ s'.totalChars = s.totalChars + seq.length := by
  obtain ⟨s3, ids3, p1, p2, p3, p4, p5, p6, p7, p8, p9, _, _, _, p13, p14, p15, _⟩ := statParse_spec SL hi seq [] (by simp)
  rw [h] at p1
  simp only [List.nil_append, Except.ok.injEq, Prod.mk.injEq] at p1 p5 p6 p7 p8 p13
  obtain ⟨rfl, rfl, _⟩ := p1
  have hlen := p4.length_le p2.wf.nonempty
  have hsum : sumI s'.symbolFreqs = s'.power := by rw [p8, p7, hs.sum]
  refine ⟨⟨fq_nonneg p2.nonneg, hsum, fun i => hsum ▸ fq_le_sum p2.nonneg i, fun i j hij => hsum ▸ fq_two_le p2.nonneg i j hij, ?_, ?_, fun e he => ⟨?_, ?_⟩,
    fq_nonneg p2.pnonneg, fun i => ?_⟩, p9⟩
  · have := hs.power
    omega
  · have := hs.chars
    omega
  · exact p15 (fun e he => (hs.pairs e he).1) e he
  · have h1 := pairGet_of_mem (p14 hnd) he
    rw [p13] at h1
    have h2 : pairGet s.pairs e.1 ≤ s.power := by
      by_cases hz : pairGet s.pairs e.1 = 0
      · rw [hz]; exact hi.power
      · exact (hs.pairs _ (pairGet_pos_mem hz)).2
    have h3 := (List.count_le_length (a := e.1) (l := adj ids)).trans (adj_length_le ids)
    omega
  · have := hs.pinit i
    rw [p5, p6, p9]
    omega

/-- The frequencies reported by a rebuild were counted. -/
theorem rebuild_small {E : Env F} (L : EnvLaws E) (SL : ScoreLaws E.ops) {n0 N : Int} {b : Builder F} {s : StatDict F} (hs : Small n0 N s) (hh : Healthy s)
    {words : List IntSeq} {freqs : List Int} {mp : F} (h : b.rebuild E s = .ok (words, freqs, mp)) : ∀ f ∈ freqs, 0 ≤ f ∧ f ≤ s.power := by
  have hfreq : ∀ n : Nat, 0 ≤ s.freq (n : Int) ∧ s.freq (n : Int) ≤ s.power := by
    intro n
    rw [freq_nat]
    exact ⟨hs.freqs n, hs.le n⟩
  unfold Builder.rebuild at h
  split at h
  · obtain ⟨taken, rest, e1, _, _, _, _, _, e7, _⟩ := expand_shape L hh.expOk (b.expandSlots E.ops s)
    rw [e1] at h
    simp only [Except.ok.injEq, Prod.mk.injEq] at h
    obtain ⟨_, rfl, _⟩ := h
    intro f hf
    obtain ⟨it, hit, rfl⟩ := List.mem_map.1 hf
    rcases (e7 it (List.mem_append_left _ hit)).2 with ⟨n, _, rfl⟩ | ⟨_, _, g3, _⟩
    · exact hfreq n
    · have := hs.pairs _ g3
      dsimp only at this
      omega
  · obtain ⟨alt, kept, rest, m, r1, _, _, _, r5, _⟩ := reduce_shape L SL hh (b.size - (b.symbAlphabet.length : Int))
    rw [r1] at h
    simp only [Except.ok.injEq, Prod.mk.injEq] at h
    obtain ⟨_, rfl, _⟩ := h
    intro f hf
    obtain ⟨it, hit, rfl⟩ := List.mem_map.1 hf
    obtain ⟨n, w, _, _, _, h3, _⟩ := (r5 it).1 (List.mem_append_left _ hit)
    rw [h3]
    exact hfreq n

theorem fq_zero (n i : Nat) : fq (List.replicate n (0 : Int)) i = 0 := by
  rw [fq, List.getElem?_replicate]
  split <;> rfl

/-- A new dictionary starts with the frequencies handed over. -/
theorem Small.ofSeqs {n0 N : Int} {words : List IntSeq} {mp : F} {fr : Option (List Int)} {s : StatDict F}
    (hf : ∀ l, fr = some l → ∀ f ∈ l, 0 ≤ f ∧ f ≤ n0 + N) (hN : 0 ≤ N) (h0 : 0 ≤ n0) (h : StatDict.ofSeqs words mp fr = .ok s) :
    Small n0 N s ∧ s.totalChars = 0 := by
  unfold StatDict.ofSeqs at h
  obtain ⟨d, _, h⟩ := bind_ok.1 h
  have hz : ∀ n, sumI (List.replicate n (0 : Int)) = 0 := by
    intro n
    rw [sumI_eq, List.sum_replicate]
    simp
  cases fr with
  | none =>
    cases h
    refine ⟨⟨fun i => by rw [fq_zero], hz _, fun i => by rw [fq_zero], fun i j _ => by simp [fq_zero], by simp, hN, by simp, fun i => by rw [fq_zero], fun i => by simp only [fq_zero]; omega⟩, rfl⟩
  | some l =>
    cases h
    have hl := hf l rfl
    have hp : ∀ i, 0 ≤ fq l i ∧ fq l i ≤ n0 + N := by
      intro i
      by_cases hn : i < l.length
      · exact hl _ (fq_mem hn)
      · rw [fq_of_le (by omega)]
        omega
    refine ⟨⟨fun i => by rw [fq_zero], hz _, fun i => by rw [fq_zero], fun i j _ => by simp [fq_zero], by simp, hN, by simp, fun i => by simp only [fq_padTo]; exact (hp i).1, fun i => by simp only [fq_zero, fq_padTo]; have := (hp i).2; omega⟩, rfl⟩

end VGram
