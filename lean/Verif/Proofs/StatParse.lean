import Mathlib.Algebra.BigOperators.Group.Finset.Basic
import Mathlib.Algebra.BigOperators.Ring.Finset
import Mathlib.Tactic.Ring
import Verif.Proofs.Stat

/-! # Statistics dictionary: one parse call -/

namespace VGram

open Spec

variable {F : Type}

/-- Length of word `i`, 0 outside. -/
def wlen (words : List IntSeq) (i : Nat) : Int := (((words[i]?).getD []).length : Int)

theorem sum_count (N : Nat) (g : Nat → Int) : ∀ (ids : List Int), (∀ i ∈ ids, 0 ≤ i ∧ i < (N : Int)) →
    (Finset.range N).sum (fun i => (ids.count (i : Int) : Int) * g i) = (ids.map (fun i => g i.toNat)).sum := by
  intro ids
  induction ids with
  | nil => simp
  | cons x ids ih =>
    intro h
    obtain ⟨n, rfl⟩ : ∃ n : Nat, x = (n : Int) := ⟨x.toNat, by have := h x (by simp); omega⟩
    have hn : n < N := by have := (h n (by simp)).2; omega
    have e : ∀ i : Nat, (((n : Int) :: ids).count (i : Int) : Int) * g i =
        (ids.count (i : Int) : Int) * g i + if i = n then g i else 0 := by
      intro i
      rw [List.count_cons]
      by_cases e : i = n
      · subst e; simp; ring
      · have : ((n : Int) == (i : Int)) = false := by simp; omega
        simp [e, this]
    rw [Finset.sum_congr rfl (fun i _ => e i), Finset.sum_add_distrib, ih (fun i hi => h i (by simp [hi])),
      Finset.sum_ite_eq' (Finset.range N) n g]
    simp [hn]
    ring

theorem Spec.Spells.wlen {words : List IntSeq} {ids : List Int} {seq : IntSeq} (h : Spells words ids seq) :
    (ids.map (fun i => wlen words i.toNat)).sum = (seq.length : Int) := by
  obtain ⟨ws, h1, h2⟩ := h
  subst h2
  induction h1 with
  | nil => rfl
  | @cons i w _ _ a _ ih =>
    simp only [List.map_cons, List.sum_cons, ih, List.flatten_cons, List.length_append]
    have : VGram.wlen words i.toNat = (w.length : Int) := by unfold VGram.wlen; rw [a.2]; rfl
    rw [this]
    push_cast
    rfl

theorem Spec.Spells.range {words : List IntSeq} {ids : List Int} {seq : IntSeq} (h : Spells words ids seq) :
    ∀ i ∈ ids, 0 ≤ i ∧ i < (words.length : Int) := by
  obtain ⟨ws, h1, h2⟩ := h
  clear h2
  induction h1 with
  | nil => simp
  | cons a _ ih =>
    intro i hi
    rcases List.mem_cons.1 hi with rfl | hi
    · obtain ⟨n, rfl, hn⟩ := a.exists_nat
      have := (List.getElem?_eq_some_iff.1 hn).1
      omega
    · exact ih i hi

theorem Grow.length {d d' : IntDict} {seq : IntSeq} (h : Grow d d' seq) : d.seqs.length ≤ d'.seqs.length := by
  obtain ⟨a, h1, _⟩ := h
  rw [h1]; simp

theorem Grow.wlen {d d' : IntDict} {seq : IntSeq} (h : Grow d d' seq) {i : Nat} (hi : i < d.seqs.length) :
    wlen d'.seqs i = wlen d.seqs i := by
  obtain ⟨a, h1, _⟩ := h
  unfold VGram.wlen
  rw [h1, List.getElem?_append_left hi]

/-- Number of characters accounted for by the frequencies. -/
def charSum (s : StatDict F) : Int :=
  (Finset.range s.dict.seqs.length).sum fun i => fq s.symbolFreqs i * wlen s.dict.seqs i

theorem sum_fq {l : List Int} {N : Nat} (h : l.length ≤ N) : (Finset.range N).sum (fq l) = sumI l := by
  induction l generalizing N with
  | nil =>
    have : ∀ i ∈ Finset.range N, fq [] i = 0 := fun i _ => fq_nil i
    rw [Finset.sum_congr rfl this]
    simp [sumI_eq]
  | cons a l ih =>
    obtain ⟨M, rfl⟩ : ∃ M, N = M + 1 := ⟨N - 1, by simp at h; omega⟩
    rw [Finset.sum_range_succ', fq_cons_zero]
    have : ∀ i ∈ Finset.range M, fq (a :: l) (i + 1) = fq l i := fun i _ => fq_cons_succ a l i
    rw [Finset.sum_congr rfl this, ih (by simpa using h), sumI_cons]
    omega

/-- One call of `parse` with output vector `out`. -/
theorem statParse_spec {O : FloatOps F} (L : ScoreLaws O) {s : StatDict F} (h : SInv s) (seq : IntSeq) (out : List Int)
    (hout : ∀ i ∈ out, 0 ≤ i ∧ i < (s.dict.seqs.length : Int)) :
    ∃ s' ids, s.parse O seq out = .ok (s', out ++ ids, ((out ++ ids).length : Int)) ∧ SInv s' ∧
      Grow s.dict s'.dict seq ∧ Spells s'.dict.seqs ids seq ∧
      (∀ i : Nat, fq s'.symbolFreqs i = fq s.symbolFreqs i + (out ++ ids).count (i : Int)) ∧
      (∀ i : Nat, fq s'.parseFreqs i = fq s.parseFreqs i + (out ++ ids).count (i : Int)) ∧
      s'.power = s.power + ((out ++ ids).length : Int) ∧ sumI s'.symbolFreqs = sumI s.symbolFreqs + ((out ++ ids).length : Int) ∧
      s'.totalChars = s.totalChars + (seq.length : Int) ∧
      (out = [] → charSum s' = charSum s + (seq.length : Int)) ∧
      s'.minProb = s.minProb ∧ s'.initPower = s.initPower ∧
      (∀ k, pairGet s'.pairs k = pairGet s.pairs k + (adj (out ++ ids)).count k) ∧
      ((s.pairs.map (·.1)).Nodup → (s'.pairs.map (·.1)).Nodup) ∧
      ((∀ e ∈ s.pairs, 0 < e.2) → ∀ e ∈ s'.pairs, 0 < e.2) ∧
      (∀ k ∈ s'.pairs.map (·.1), k ∈ s.pairs.map (·.1) ∨ k ∈ adj (out ++ ids)) ∧
      s.symbolFreqs.length ≤ s'.symbolFreqs.length ∧ (∀ i ∈ out ++ ids, i < (s'.symbolFreqs.length : Int)) := by
  obtain ⟨d', ids, p1, p2, p3, p4⟩ := parse_spec L h.wf seq out h.pnonneg (total := s.power + s.initPower)
    (by have := h.power; have := h.ipower; omega)
  have hrange : ∀ i ∈ out ++ ids, 0 ≤ i ∧ i < (d'.seqs.length : Int) := by
    intro i hi
    rcases List.mem_append.1 hi with hi | hi
    · have := hout i hi
      have := p3.length
      omega
    · exact p4.range i hi
  obtain ⟨sf, pf, pr, t, c1, c2, c3, c4, c5, c6, c7, c8, c9, c10, c11, c12, c13, c14, c15⟩ :=
    tally_spec (out ++ ids) { s with dict := d', totalChars := s.totalChars + (seq.length : Int) } (-1) h.len
      (fun i hi => (hrange i hi).1)
  refine ⟨{ s with dict := d', totalChars := s.totalChars + (seq.length : Int), symbolFreqs := sf, parseFreqs := pf, power := s.power + ((out ++ ids).length : Int), pairs := pr }, ids, by simp only [StatDict.parse, p1, ok_bind, t, pure_M], ⟨p2, c1, ?_, c10 h.nonneg, c11 h.pnonneg, ?_, h.ipower⟩,
    p3, p4, c6, c7, rfl, c8, rfl, ?_, rfl, rfl, ?_, c13, c14, ?_, c2, c5⟩
  · exact c4 _ (le_trans h.size p3.length) (fun i hi => (hrange i hi).2)
  · have := h.power
    show 0 ≤ s.power + _
    omega
  · rintro rfl
    have hle := p3.length
    unfold charSum
    show (Finset.range d'.seqs.length).sum (fun i => fq sf i * wlen d'.seqs i) = _
    have e : ∀ i : Nat, fq sf i * wlen d'.seqs i = fq s.symbolFreqs i * wlen d'.seqs i + (ids.count (i : Int) : Int) * wlen d'.seqs i := by
      intro i
      have := c6 i
      rw [List.nil_append] at this
      rw [this]
      ring
    rw [Finset.sum_congr rfl (fun i _ => e i), Finset.sum_add_distrib, sum_count _ _ _ (by simpa using hrange), p4.wlen]
    congr 1
    rw [← Finset.sum_subset (Finset.range_mono hle)]
    · apply Finset.sum_congr rfl
      intro i hi
      rw [p3.wlen (Finset.mem_range.1 hi)]
    · intro i _ hi
      have : s.dict.seqs.length ≤ i := by simpa using hi
      rw [fq_of_le (le_trans h.size this)]
      simp
  · intro k
    have := c12 k
    simpa using this
  · intro k hk
    have := c15 k hk
    simpa using this

theorem new_sinv (mp : F) : SInv (StatDict.new mp) :=
  ⟨empty_sorted.wf, le_refl _, by simp [StatDict.new], by simp [StatDict.new], by simp [StatDict.new], le_refl _, le_refl _⟩

theorem sumI_nonneg {l : List Int} (h : ∀ f ∈ l, 0 ≤ f) : 0 ≤ sumI l := by
  induction l with
  | nil => simp [sumI_eq]
  | cons a l ih =>
    rw [sumI_cons]
    have := h a (by simp)
    have := ih (fun f hf => h f (by simp [hf]))
    omega

/-- Construction from words and optional prior frequencies. -/
theorem ofSeqs_spec {words : List IntSeq} (hne : ∀ w ∈ words, w ≠ []) (mp : F) (fr : Option (List Int))
    (hf : ∀ l, fr = some l → ∀ f ∈ l, 0 ≤ f) :
    ∃ s, StatDict.ofSeqs words mp fr = .ok s ∧ SInv s ∧ IntDict.init words = .ok s.dict ∧ s.dict.seqs = sortSeqs words ∧
      s.symbolFreqs = List.replicate words.length 0 ∧ s.power = 0 ∧ s.pairs = [] ∧ s.minProb = mp ∧ s.totalChars = 0 ∧
      s.initPower = sumI (fr.getD []) := by
  obtain ⟨d, h1, h2, h3⟩ := init_wf hne
  have hl : d.seqs.length = words.length := by rw [h2, sortSeqs_length]
  cases fr with
  | none =>
    refine ⟨⟨d, List.replicate words.length 0, List.replicate d.size 0, 0, 0, [], mp, 0⟩,
      by simp only [StatDict.ofSeqs, h1, ok_bind, pure_M], ⟨h3, ?_, ?_, ?_, ?_, le_refl _, le_refl _⟩, h1, h2, rfl, rfl,
      rfl, rfl, rfl, by simp [sumI_eq]⟩
    · simp [IntDict.size, hl]
    · simp [hl]
    · intro f hf; simp at hf; omega
    · intro f hf; simp at hf; omega
  | some l =>
    refine ⟨⟨d, List.replicate words.length 0, StatDict.padTo l d.size, 0, sumI l, [], mp, 0⟩,
      by simp only [StatDict.ofSeqs, h1, ok_bind, pure_M], ⟨h3, ?_, ?_, ?_, ?_, le_refl _, sumI_nonneg (hf l rfl)⟩, h1,
      h2, rfl, rfl, rfl, rfl, rfl, rfl⟩
    · simp [padTo_length, IntDict.size, hl]
    · simp [hl]
    · intro f hf; simp at hf; omega
    · exact padTo_nonneg (hf l rfl) _

end VGram
