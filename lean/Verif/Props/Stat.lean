import Verif.Proofs.StatParse
import Verif.Model.PairKey
import Verif.Spec.Instances

/-!
# Properties of the statistics (C13 – C15)
-/

namespace VGram.Props

open VGram Spec

variable {F : Type}

/-- `parse` called once for each sequence, with a fresh output vector; the emitted id lists. -/
def parseAll (O : FloatOps F) : StatDict F → List IntSeq → M (StatDict F × List (List Int))
  | s, [] => .ok (s, [])
  | s, seq :: rest => do
    let (s', ids, _) ← s.parse O seq []
    let (s'', outs) ← parseAll O s' rest
    pure (s'', ids :: outs)

/-- A freshly constructed statistics dictionary. -/
def FreshStat (s : StatDict F) : Prop :=
  (∃ mp, s = StatDict.new mp) ∨
  ∃ (words : List IntSeq) (mp : F) (fr : Option (List Int)), [] ∉ words ∧ (∀ l, fr = some l → ∀ f ∈ l, 0 ≤ f) ∧
    StatDict.ofSeqs words mp fr = .ok s

theorem FreshStat.spec {s : StatDict F} (h : FreshStat s) : SInv s ∧ s.power = 0 ∧ s.totalChars = 0 ∧ s.pairs = [] ∧
    (∀ i, fq s.symbolFreqs i = 0) := by
  rcases h with ⟨mp, rfl⟩ | ⟨words, mp, fr, hne, hf, h⟩
  · exact ⟨new_sinv mp, rfl, rfl, rfl, fun i => by simp [StatDict.new, fq]⟩
  · obtain ⟨s', h1, h2, _, _, h5, h6, h7, _, h9, _⟩ := ofSeqs_spec (fun w hw e => hne (e ▸ hw)) mp fr hf
    rw [h] at h1
    cases h1
    refine ⟨h2, h6, h9, h7, fun i => ?_⟩
    rw [h5, fq, List.getElem?_replicate]
    split <;> rfl

theorem parseAll_spec {O : FloatOps F} (L : ScoreLaws O) : ∀ (seqs : List IntSeq) (s : StatDict F), SInv s →
    ∃ s' outs, parseAll O s seqs = .ok (s', outs) ∧ SInv s' ∧ outs.length = seqs.length ∧
      List.Forall₂ (Spells s'.dict.seqs) outs seqs ∧ (∀ i w, IsWord s.dict.seqs i w → IsWord s'.dict.seqs i w) ∧
      (∀ i : Nat, fq s'.symbolFreqs i = fq s.symbolFreqs i + outs.flatten.count (i : Int)) ∧
      s'.power = s.power + (outs.flatten.length : Int) ∧
      sumI s'.symbolFreqs = sumI s.symbolFreqs + (outs.flatten.length : Int) ∧
      s'.totalChars = s.totalChars + (seqs.flatten.length : Int) ∧
      charSum s' = charSum s + (seqs.flatten.length : Int) ∧
      ∀ k, pairGet s'.pairs k = pairGet s.pairs k + (outs.map fun o => ((adj o).count k : Int)).sum := by
  intro seqs
  induction seqs with
  | nil =>
    intro s h
    exact ⟨s, [], rfl, h, rfl, .nil, fun _ _ h => h, by simp, by simp, by simp, by simp, by simp, by simp⟩
  | cons seq seqs ih =>
    intro s h
    obtain ⟨s1, ids, p, i1, g, sp, c1, _, c3, c4, c5, c6, _, _, c7, _⟩ := statParse_spec L h seq [] (by simp)
    obtain ⟨s2, outs, q, i2, e, sp2, w2, d1, d2, d3, d4, d5, d6⟩ := ih s1 i1
    have c6 := c6 rfl
    rw [List.nil_append] at p c1 c3 c4 c7
    refine ⟨s2, ids :: outs, by simp [parseAll, p, q], i2, by simp [e], .cons ?_ sp2, fun i w hw => w2 i w (g.isWord hw),
      ?_, ?_, ?_, ?_, ?_, ?_⟩
    · obtain ⟨ws, a, b⟩ := sp
      exact ⟨ws, a.imp fun i w hw => w2 i w hw, b⟩
    · intro i; rw [d1, c1]; simp only [List.flatten_cons, List.count_append]; push_cast; omega
    · rw [d2, c3]; simp only [List.flatten_cons, List.length_append]; push_cast; omega
    · rw [d3, c4]; simp only [List.flatten_cons, List.length_append]; push_cast; omega
    · rw [d4, c5]; simp only [List.flatten_cons, List.length_append]; push_cast; omega
    · rw [d5, c6]; simp only [List.flatten_cons, List.length_append]; push_cast; omega
    · intro k; rw [d6, c7]; simp only [List.map_cons, List.sum_cons]; omega

/-- C13: after any sequence of parse calls the frequencies are the numbers of emissions, the power
is their sum, and the characters are accounted for word by word. -/
theorem C13_freq_accounting (O : FloatOps F) (L : ScoreLaws O) (s0 : StatDict F) (h0 : FreshStat s0) (seqs : List IntSeq) :
    ∃ s outs, parseAll O s0 seqs = .ok (s, outs) ∧
      List.Forall₂ (Spells s.dict.seqs) outs seqs ∧
      (∀ i : Nat, s.freq (i : Int) = (outs.flatten.count (i : Int) : Int)) ∧
      s.power = (outs.flatten.length : Int) ∧
      s.power = (Finset.range s.size).sum (fun i => s.freq (i : Int)) ∧
      s.totalChars = (seqs.flatten.length : Int) ∧
      s.totalChars = (Finset.range s.size).sum
        (fun i => s.freq (i : Int) * (((s.dict.seqs[i]?).getD []).length : Int)) := by
  obtain ⟨hs, hp, ht, _, hz⟩ := h0.spec
  obtain ⟨s, outs, h1, h2, _, h4, _, h6, h7, h8, h9, h10, _⟩ := parseAll_spec L seqs s0 hs
  have hsum0 : sumI s0.symbolFreqs = 0 := by
    rw [← sum_fq (le_refl _)]
    exact Finset.sum_eq_zero fun i _ => hz i
  have hchar0 : charSum s0 = 0 := Finset.sum_eq_zero fun i _ => by rw [hz i]; simp
  refine ⟨s, outs, h1, h4, fun i => by rw [freq_nat, h6, hz]; simp, by omega, ?_, by omega, ?_⟩
  · rw [h7, hp, ← hsum0, ← h8, ← sum_fq h2.size]
    exact Finset.sum_congr rfl fun i _ => (freq_nat s i).symm
  · rw [h9, ht, ← hchar0, ← h10]
    exact Finset.sum_congr rfl fun i _ => by rw [freq_nat]; rfl

/-- C13 for one call on any reachable state, also with a non-empty output vector: the whole output vector is
counted, so ids already in it are counted again. -/
theorem C13_one_call (O : FloatOps F) (L : ScoreLaws O) (s0 : StatDict F) (h0 : FreshStat s0) (seqs : List IntSeq)
    (s : StatDict F) (outs : List (List Int)) (h : parseAll O s0 seqs = .ok (s, outs)) (seq : IntSeq) (out : List Int)
    (hout : ∀ i ∈ out, 0 ≤ i ∧ i < (s.size : Int)) :
    ∃ s' ids, s.parse O seq out = .ok (s', out ++ ids, ((out ++ ids).length : Int)) ∧ Spells s'.dict.seqs ids seq ∧
      ∀ i : Nat, s'.freq (i : Int) = s.freq (i : Int) + ((out ++ ids).count (i : Int) : Int) := by
  obtain ⟨hs, _⟩ := h0.spec
  obtain ⟨s1, outs1, h1, h2, _⟩ := parseAll_spec L seqs s0 hs
  rw [h] at h1
  cases h1
  obtain ⟨s', ids, p, _, _, sp, c, _⟩ := statParse_spec L h2 seq out hout
  exact ⟨s', ids, p, sp, fun i => by rw [freq_nat, freq_nat, c]⟩

set_option synthInstance.maxSize 2000 in
/-- A run with two calls on a dictionary with a multi-symbol word. -/
example : (do
    let s0 ← StatDict.ofSeqs [[1], [1, 2]] (Ext.fin (0 : Rat)) none
    let (s, outs) ← parseAll ratOps s0 [[1, 2, 1], [3, 1]]
    pure (outs, s.symbolFreqs, s.power, s.totalChars, s.pairs) : M (List (List Int) × List Int × Int × Int × PairMap)) =
    .ok ([[1, 0], [3, 0]], [2, 1, 0, 1], 4, 5, [((1, 0), 1), ((3, 0), 1)]) := by decide +kernel

/-- C14: the stored pair frequencies count the adjacent ids within each emitted list. -/
theorem C14_pair_freqs (O : FloatOps F) (L : ScoreLaws O) (s0 : StatDict F) (h0 : FreshStat s0) (seqs : List IntSeq) :
    ∃ s outs, parseAll O s0 seqs = .ok (s, outs) ∧
      ∀ a b : Int, (s.pairs.lookup (a, b)).getD 0 = (outs.map fun ids => ((ids.zip ids.tail).count (a, b) : Int)).sum := by
  obtain ⟨hs, _, _, hpr, _⟩ := h0.spec
  obtain ⟨s, outs, h1, _, _, _, _, _, _, _, _, _, h11⟩ := parseAll_spec L seqs s0 hs
  refine ⟨s, outs, h1, fun a b => ?_⟩
  have := h11 (a, b)
  rw [hpr] at this
  simpa [pairGet, adj] using this

/-- C15: unpacking inverts packing for non-negative ids. -/
theorem C15_unpack_pack (prev symbol : BitVec 32) (_hp : prev.msb = false) (hs : symbol.msb = false) :
    unpackFirst (packPair prev symbol) = prev ∧ unpackSecond (packPair prev symbol) = symbol := by
  have hmsb : symbol.getLsbD 31 = false := by simpa [BitVec.msb_eq_getLsbD_last] using hs
  constructor
  · apply BitVec.eq_of_getLsbD_eq
    intro i hi
    have h1 : 32 + i < 64 := by omega
    have h2 : ¬ (32 + i < 32) := by omega
    simp [unpackFirst, packPair, BitVec.getLsbD_sshiftRight, BitVec.getElem_signExtend, hi, h1, h2, hs]
    omega
  · apply BitVec.eq_of_getLsbD_eq
    intro i hi
    have h1 : i < 64 := by omega
    have hmask : (0xFFFFFFFF#64).getLsbD i = true := by
      have : ∀ i : Fin 32, (0xFFFFFFFF#64).getLsbD i = true := by decide
      exact this ⟨i, hi⟩
    rw [unpackSecond, BitVec.getLsbD_setWidth, BitVec.getLsbD_and, hmask]
    simp [packPair, BitVec.getElem_signExtend, hi, h1]

/-- C15: distinct pairs of non-negative ids have distinct keys. -/
theorem C15_pack_injective (p s p' s' : BitVec 32) (hp : p.msb = false) (hs : s.msb = false) (hp' : p'.msb = false)
    (hs' : s'.msb = false) (h : packPair p s = packPair p' s') : p = p' ∧ s = s' := by
  have h1 := C15_unpack_pack p s hp hs
  have h2 := C15_unpack_pack p' s' hp' hs'
  rw [h] at h1
  exact ⟨h1.1.symm.trans h2.1, h1.2.symm.trans h2.2⟩

example : packPair 5#32 0x7FFFFFFF#32 = 0x000000057FFFFFFF#64 := by decide
/-- Non-negativity is needed: a negative second id erases the first. -/
example : packPair 5#32 (-1) = packPair 6#32 (-1) := by decide

end VGram.Props
