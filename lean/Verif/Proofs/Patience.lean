import Verif.Proofs.Builder
import Verif.Proofs.Gain
import Verif.Spec.Learn
import Verif.Spec.Patience

/-! # Rates and patience -/

namespace VGram

open Spec

/-- `best` is the best rate so far and the last `k` rebuilds set no record. -/
structure Pat (best : ℝ) (k : Nat) (rs : List (Option ℝ)) : Prop where
  one : best ≤ 1
  le : ∀ (j : Nat) (r : ℝ), rs[j]? = some (some r) → best ≤ r
  eq : best = 1 ∨ ∃ j : Nat, rs[j]? = some (some best)
  len : k ≤ rs.length
  non : ∀ j : Nat, rs.length ≤ j + k → j < rs.length → ¬ Record rs j
  last : ∀ j : Nat, j + k + 1 = rs.length → Record rs j

theorem Pat.nil : Pat 1 0 [] :=
  ⟨le_refl _, by simp, Or.inl rfl, by simp, by simp, by simp⟩

theorem record_append {rs : List (Option ℝ)} {x : Option ℝ} {j : Nat} (h : j < rs.length) : Record (rs ++ [x]) j ↔ Record rs j := by
  unfold Record
  rw [List.getElem?_append_left h]
  constructor
  · rintro ⟨r, h1, h2, h3⟩
    exact ⟨r, h1, h2, fun i hi q hq => h3 i hi q (by rw [List.getElem?_append_left (by omega)]; exact hq)⟩
  · rintro ⟨r, h1, h2, h3⟩
    exact ⟨r, h1, h2, fun i hi q hq => h3 i hi q (by rwa [List.getElem?_append_left (by omega)] at hq)⟩

theorem Pat.record {best : ℝ} {k : Nat} {rs : List (Option ℝ)} (h : Pat best k rs) (x : Option ℝ) :
    Record (rs ++ [x]) rs.length ↔ ∃ r, x = some r ∧ r < best := by
  have hx : (rs ++ [x])[rs.length]? = some x := by simp
  unfold Record
  rw [hx]
  constructor
  · rintro ⟨r, h1, h2, h3⟩
    refine ⟨r, Option.some.inj h1, ?_⟩
    rcases h.eq with e | ⟨j, e⟩
    · rw [e]; exact h2
    · have hj := (List.getElem?_eq_some_iff.1 e).1
      exact h3 j hj best (by rw [List.getElem?_append_left hj]; exact e)
  · rintro ⟨r, rfl, h2⟩
    refine ⟨r, rfl, lt_of_lt_of_le h2 h.one, fun j hj q hq => ?_⟩
    rw [List.getElem?_append_left hj] at hq
    exact lt_of_lt_of_le h2 (h.le j q hq)

theorem stalls_append (rs : List (Option ℝ)) (x : Option ℝ) :
    (Stalled (rs ++ [x]) rs.length → stalls (rs ++ [x]) = stalls rs + 1) ∧ (¬ Stalled (rs ++ [x]) rs.length → stalls (rs ++ [x]) = stalls rs) := by
  have hsame : ∀ j < rs.length, (Stalled (rs ++ [x]) j ↔ Stalled rs j) := by
    intro j hj
    unfold Stalled
    refine and_congr_right fun _ => ⟨fun h i hi hi' hr => h i hi hi' ((record_append (by omega)).2 hr),
      fun h i hi hi' hr => h i hi hi' ((record_append (by omega)).1 hr)⟩
  classical
  have hf : (Finset.range rs.length).filter (Stalled (rs ++ [x])) = (Finset.range rs.length).filter (Stalled rs) :=
    Finset.filter_congr fun j hj => hsame j (Finset.mem_range.1 hj)
  constructor
  · intro h
    simp only [stalls, List.length_append, List.length_singleton, Finset.range_add_one, Finset.filter_insert, if_pos h]
    rw [Finset.card_insert_of_notMem (by simp)]
    congr 2
  · intro h
    simp only [stalls, List.length_append, List.length_singleton, Finset.range_add_one, Finset.filter_insert, if_neg h]
    congr 1

/-- A record. -/
theorem Pat.better {best : ℝ} {k : Nat} {rs : List (Option ℝ)} (h : Pat best k rs) {r : ℝ} (hr : r < best) :
    Pat r 0 (rs ++ [some r]) ∧ stalls (rs ++ [some r]) = stalls rs := by
  have hrec := (h.record (some r)).2 ⟨r, rfl, hr⟩
  refine ⟨⟨(lt_of_lt_of_le hr h.one).le, ?_, Or.inr ⟨rs.length, by simp⟩, by simp, ?_, ?_⟩, ?_⟩
  · intro j q hq
    by_cases hj : j < rs.length
    · rw [List.getElem?_append_left hj] at hq
      exact (lt_of_lt_of_le hr (h.le j q hq)).le
    · have hj' := (List.getElem?_eq_some_iff.1 hq).1
      rw [List.length_append, List.length_singleton] at hj'
      obtain rfl : j = rs.length := by omega
      simp at hq
      rw [hq]
  · intro j h1 h2
    omega
  · intro j hj
    rw [List.length_append, List.length_singleton] at hj
    obtain rfl : j = rs.length := by omega
    exact hrec
  · exact (stalls_append rs _).2 fun hs => hs.2 rs.length (le_refl _) (by omega) hrec

/-- No record. -/
theorem Pat.worse {best : ℝ} {k : Nat} {rs : List (Option ℝ)} (h : Pat best k rs) {x : Option ℝ} (hx : ∀ r, x = some r → best ≤ r) :
    Pat best (k + 1) (rs ++ [x]) ∧ stalls (rs ++ [x]) = if 3 < k + 1 then stalls rs + 1 else stalls rs := by
  have hrec : ¬ Record (rs ++ [x]) rs.length := by
    rw [h.record]
    rintro ⟨r, rfl, hr⟩
    exact absurd (hx r rfl) (not_le.2 hr)
  have hlen := h.len
  refine ⟨⟨h.one, ?_, ?_, by simp; omega, ?_, ?_⟩, ?_⟩
  · intro j q hq
    by_cases hj : j < rs.length
    · rw [List.getElem?_append_left hj] at hq
      exact h.le j q hq
    · have hj' := (List.getElem?_eq_some_iff.1 hq).1
      rw [List.length_append, List.length_singleton] at hj'
      obtain rfl : j = rs.length := by omega
      simp at hq
      exact hx q hq
  · rcases h.eq with e | ⟨j, e⟩
    · exact Or.inl e
    · exact Or.inr ⟨j, by rw [List.getElem?_append_left (List.getElem?_eq_some_iff.1 e).1]; exact e⟩
  · intro j h1 h2
    rw [List.length_append, List.length_singleton] at h1 h2
    by_cases hj : j < rs.length
    · rw [record_append hj]
      exact h.non j (by omega) hj
    · obtain rfl : j = rs.length := by omega
      exact hrec
  · intro j hj
    rw [List.length_append, List.length_singleton] at hj
    rw [record_append (by omega)]
    exact h.last j (by omega)
  · split
    · next hk =>
      refine (stalls_append rs x).1 ⟨by omega, fun j h1 h2 => ?_⟩
      by_cases hj : j < rs.length
      · rw [record_append hj]
        exact h.non j (by omega) hj
      · obtain rfl : j = rs.length := by omega
        exact hrec
    · next hk =>
      refine (stalls_append rs x).2 fun hs => ?_
      have hj := h.last (rs.length - k - 1) (by have := hs.1; omega)
      exact hs.2 (rs.length - k - 1) (by omega) (by omega) ((record_append (by have := hs.1; omega)).2 hj)

/-- The members of the builder that steer the patience. -/
structure Steers (b : Builder (Ext ℝ)) (rs : List (Option ℝ)) : Prop where
  pat : ∃ (best : ℝ) (k : Nat), b.bestRate = .fin best ∧ b.noRate = (k : Int) ∧ Pat best k rs
  prob : b.probFound = .fin (1 / 10 * (4 / 5) ^ stalls rs)

/-- The number a rate is compared with. -/
def IsRate (rate : Ext ℝ) : Option ℝ → Prop
  | some r => rate = .fin r
  | none => rate = .nan

theorem Steers.note {b b' : Builder (Ext ℝ)} {rs : List (Option ℝ)} (h : Steers b rs) {rate : Ext ℝ} {x : Option ℝ} (hx : IsRate rate x)
    (h1 : b'.bestRate = (b.noteRate (Ext.ops ℝ Real.log) rate).bestRate) (h2 : b'.noRate = (b.noteRate (Ext.ops ℝ Real.log) rate).noRate)
    (h3 : b'.probFound = (b.noteRate (Ext.ops ℝ Real.log) rate).probFound) : Steers b' (rs ++ [x]) := by
  obtain ⟨best, k, e1, e2, hp⟩ := h.pat
  have key : (∃ r, x = some r ∧ r < best ∧ rate = .fin r) ∨
      ((∀ r, x = some r → best ≤ r) ∧ (Ext.ops ℝ Real.log).lt rate b.bestRate = false) := by
    cases x with
    | none =>
      refine Or.inr ⟨by simp, ?_⟩
      rw [show rate = .nan from hx]
      rfl
    | some r =>
      have hr : rate = .fin r := hx
      by_cases hlt : r < best
      · exact Or.inl ⟨r, rfl, hlt, hr⟩
      · refine Or.inr ⟨fun q hq => by cases hq; exact not_lt.1 hlt, ?_⟩
        rw [hr, e1]
        simpa [Ext.ops, Ext.lt] using not_lt.1 hlt
  rcases key with ⟨r, rfl, hlt, rfl⟩ | ⟨hle, hf⟩
  · have hl : (Ext.ops ℝ Real.log).lt (.fin r) b.bestRate = true := by rw [e1]; simpa [Ext.ops, Ext.lt] using hlt
    simp only [Builder.noteRate, hl, if_true] at h1 h2 h3
    obtain ⟨p1, p2⟩ := hp.better hlt
    exact ⟨⟨r, 0, h1, by simpa using h2, p1⟩, by rw [h3, h.prob, p2]⟩
  · obtain ⟨p1, p2⟩ := hp.worse hle
    simp only [Builder.noteRate, hf, Bool.false_eq_true, if_false] at h1 h2 h3
    by_cases hk : 3 < b.noRate + 1
    · rw [if_pos hk] at h1 h2 h3
      refine ⟨⟨best, k + 1, h1.trans e1, by rw [h2]; simp only; rw [e2]; push_cast; ring, p1⟩, ?_⟩
      rw [h3, p2, if_pos (by omega)]
      simp only [h.prob, Ext.ops, Ext.mul]
      congr 1
      rw [pow_succ]
      norm_num
      ring
    · rw [if_neg hk] at h1 h2 h3
      refine ⟨⟨best, k + 1, h1.trans e1, by rw [h2]; simp only; rw [e2]; push_cast; ring, p1⟩, ?_⟩
      rw [h3, p2, if_neg (by omega)]
      exact h.prob

/-! ## The compression rate -/

theorem rateLoop_real {s : StatDict (Ext ℝ)} : ∀ (l : List Nat) (x : ℝ) (tl : Int), (∀ i ∈ l, i < s.dict.seqs.length) → (∀ i ∈ l, 0 ≤ s.freq (i : Int)) →
    Builder.rateLoop (Ext.ops ℝ Real.log) s l (.fin x) tl =
      .ok (.fin (x - (l.map fun (i : Nat) => xlog (s.freq (i : Int))).sum / Real.log 2), tl + (l.map fun (i : Nat) => fq s.symbolFreqs i * wlen s.dict.seqs i).sum) := by
  intro l
  induction l with
  | nil => intro x tl _ _; simp [Builder.rateLoop]
  | cons i l ih =>
    intro x tl hl hf
    have hi := hl i (by simp)
    have hw : s.dict.get (i : Int) = .ok s.dict.seqs[i] := rd_of_lt hi
    have hfi := hf i (by simp)
    have hlog2 : Real.log 2 ≠ 0 := (Real.log_pos one_lt_two).ne'
    simp only [Builder.rateLoop, hw, ok_bind]
    have hlen : (s.dict.seqs[i].length : Int) * s.freq (i : Int) = fq s.symbolFreqs i * wlen s.dict.seqs i := by
      rw [freq_nat]
      simp [wlen, List.getElem?_eq_getElem hi, mul_comm]
    have hstep : (if 0 < s.freq (i : Int) then (Ext.ops ℝ Real.log).sub (.fin x) ((Ext.ops ℝ Real.log).div (StatDict.xlogx (Ext.ops ℝ Real.log) (s.freq (i : Int)))
        ((Ext.ops ℝ Real.log).log ((Ext.ops ℝ Real.log).ofInt 2))) else .fin x) = .fin (x - xlog (s.freq (i : Int)) / Real.log 2) := by
      split
      · next h0 =>
        have h0' : (0 : ℝ) < (s.freq (i : Int) : ℝ) := by exact_mod_cast h0
        simp [Ext.ops, StatDict.xlogx, Ext.log, h0', Ext.mul, Ext.neg, Ext.add, Ext.div, hlog2, xlog]
        ring
      · next h0 =>
        have : s.freq (i : Int) = 0 := by omega
        simp [this, xlog]
    rw [hstep, hlen, ih _ _ (fun j hj => hl j (by simp [hj])) fun j hj => hf j (by simp [hj])]
    simp only [List.map_cons, List.sum_cons]
    congr 2
    · congr 1; ring
    · ring

theorem sum_range_map {M : Type} [AddCommMonoid M] (f : Nat → M) (n : Nat) : ((List.range n).map f).sum = (Finset.range n).sum f := by
  induction n with
  | zero => simp
  | succ n ih => rw [List.range_succ, List.map_append, List.sum_append, ih, Finset.sum_range_succ]; simp

/-- The rate of a dictionary whose counters count `ids` and whose text has length `text.length`. -/
theorem rate_real {s : StatDict (Ext ℝ)} (h : Healthy s) {ids : List Int} {text : IntSeq} (hf : ∀ i : Nat, s.freq (i : Int) = (ids.count (i : Int) : Int))
    (ht : s.totalChars = (text.length : Int)) :
    ∃ rate, Builder.compressionRate (Ext.ops ℝ Real.log) s = .ok rate ∧ IsRate rate (byteRate s.dict.seqs.length ids text) := by
  have hlog2 : Real.log 2 ≠ 0 := (Real.log_pos one_lt_two).ne'
  have hl := rateLoop_real (s := s) (List.range s.size) 0 0 (fun i hi => by simpa [StatDict.size, IntDict.size] using hi) fun i _ => by rw [hf]; omega
  rw [sum_range_map, sum_range_map] at hl
  have hchars : (Finset.range s.size).sum (fun i => fq s.symbolFreqs i * wlen s.dict.seqs i) = (text.length : Int) := by
    rw [← ht, h.chars]; rfl
  have hzero : (Ext.ops ℝ Real.log).ofInt 0 = .fin 0 := by simp [Ext.ops]
  have hpow : s.power = (Finset.range s.dict.seqs.length).sum fun i => (ids.count (i : Int) : Int) := by
    rw [h.sum, ← sum_fq (N := s.dict.seqs.length) h.full.le]
    exact Finset.sum_congr rfl fun i _ => by rw [← hf, freq_nat]
  rw [hchars, zero_add, zero_sub] at hl
  obtain ⟨rate, hrate⟩ := compressionRate_ok (Ext.ops ℝ Real.log) s
  refine ⟨rate, hrate, ?_⟩
  simp only [Builder.compressionRate, hzero, hl, ok_bind, pure_M, Except.ok.injEq] at hrate
  rw [← hrate]
  by_cases he : text = []
  · subst he
    have hcz : charSum s = 0 := by rw [← h.chars, ht]; rfl
    have hp0 : s.power = 0 := by
      rw [h.sum, ← sum_fq (N := s.dict.seqs.length) h.full.le]
      refine Finset.sum_eq_zero fun i hi => ?_
      have h0 : ∀ j ∈ Finset.range s.dict.seqs.length, 0 ≤ fq s.symbolFreqs j * wlen s.dict.seqs j := by
        intro j _
        rw [← freq_nat, hf]
        have : 0 ≤ wlen s.dict.seqs j := by unfold wlen; positivity
        positivity
      have := (Finset.sum_eq_zero_iff_of_nonneg h0).1 hcz i hi
      rcases mul_eq_zero.1 this with e | e
      · exact e
      · have hi' := Finset.mem_range.1 hi
        simp only [wlen, List.getElem?_eq_getElem hi'] at e
        exact absurd (List.length_eq_zero_iff.1 (by exact_mod_cast e)) (h.sorted.nonempty _ (List.getElem_mem hi'))
    simp [byteRate, IsRate, hp0, Ext.ops, StatDict.xlogx, Ext.log, Ext.mul, Ext.div, Ext.add]
  · have hlen : (0 : ℝ) < (text.length : ℝ) := by exact_mod_cast List.length_pos_iff.2 he
    have hpos : 0 < s.power := by
      by_contra hc
      have hz : charSum s = 0 := by
        refine Finset.sum_eq_zero fun i hi => ?_
        have h0 : ∀ j ∈ Finset.range s.dict.seqs.length, 0 ≤ fq s.symbolFreqs j := by
          intro j _
          rw [← freq_nat, hf]
          omega
        have hs : (Finset.range s.dict.seqs.length).sum (fq s.symbolFreqs) = 0 := by
          have h1 := Finset.sum_nonneg h0
          rw [sum_fq (N := s.dict.seqs.length) h.full.le] at h1 ⊢
          have := h.sum
          omega
        rw [(Finset.sum_eq_zero_iff_of_nonneg h0).1 hs i hi, zero_mul]
      rw [h.chars, hz] at ht
      exact he (List.length_eq_zero_iff.1 (by exact_mod_cast ht.symm))
    have hpos' : (0 : ℝ) < (s.power : ℝ) := by exact_mod_cast hpos
    simp only [byteRate, if_neg he, IsRate, codeLen, tokens]
    rw [← hpow]
    simp only [Ext.ops, StatDict.xlogx, Ext.log, hpos', if_true, Ext.mul, Ext.div, Ext.add]
    simp [hlog2, hlen.ne']
    rw [show s.size = s.dict.seqs.length from rfl]
    have : (Finset.range s.dict.seqs.length).sum (fun i => xlog (s.freq (i : Int))) = (Finset.range s.dict.seqs.length).sum fun i => xlog ((ids.count (i : Int) : Int) : ℝ) :=
      Finset.sum_congr rfl fun i _ => by rw [hf]
    simp only [Int.cast_natCast] at this
    rw [this]
    simp only [xlog]
    field_simp
    ring

end VGram
