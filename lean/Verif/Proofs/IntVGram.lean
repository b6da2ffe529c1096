import Mathlib.Data.List.Perm.Subperm
import Verif.Props.Stream

/-! # The fit loops -/

namespace VGram

open Spec Props

variable {F : Type}

/-- The training sequence used at step `t`. -/
def sample (seqs : List IntSeq) (rand : Nat → Nat) (t : Nat) : IntSeq := (seqs[rand t % seqs.length]?).getD []

/-- The calls of `n` steps from step `t` on. -/
def samples (seqs : List IntSeq) (rand : Nat → Nat) (t n : Nat) : List Call :=
  (List.range' t n).map fun j => .accept (sample seqs rand j)

/-- `n` rounds over the training set starting at step `t`, each ending with `update_dict`. -/
def rounds (seqs : List IntSeq) (rand : Nat → Nat) : Nat → Nat → List Call
  | _, 0 => []
  | t, n + 1 => samples seqs rand t seqs.length ++ .update :: rounds seqs rand (t + seqs.length) n

theorem run_append (E : Env F) : ∀ (a b : List Call) (m : Stream F), run E m (a ++ b) = (run E m a).bind fun m' => run E m' b := by
  intro a
  induction a with
  | nil => intro b m; rfl
  | cons c cs ih =>
    intro b m
    simp only [List.cons_append, run]
    cases call E m c with
    | error e => rfl
    | ok m1 => simp only [ok_bind]; exact ih b m1

theorem rd_sample {seqs : List IntSeq} (h : seqs ≠ []) (rand : Nat → Nat) (t : Nat) :
    rd seqs ((rand t % seqs.length : Nat) : Int) = .ok (sample seqs rand t) := by
  have hlt : rand t % seqs.length < seqs.length := Nat.mod_lt _ (List.length_pos_iff.2 h)
  rw [rd_of_lt hlt, sample, List.getElem?_eq_getElem hlt]
  rfl

theorem sample_mem {seqs : List IntSeq} (h : seqs ≠ []) (rand : Nat → Nat) (t : Nat) : sample seqs rand t ∈ seqs := by
  have hlt : rand t % seqs.length < seqs.length := Nat.mod_lt _ (List.length_pos_iff.2 h)
  rw [sample, List.getElem?_eq_getElem hlt]
  exact List.getElem_mem hlt

theorem fitInner_full (E : Env F) (σ : IntVGram.Sched) (seqs : List IntSeq) (hne : seqs ≠ []) : ∀ (n t : Nat) (m : IntVGram F),
    (∀ j, t ≤ j → j < t + n → σ.term j = false) →
    IntVGram.fitInner E σ seqs n t m =
      (run E m.toStream (samples seqs σ.rand t n)).bind fun s => .ok ({ m with toStream := s }, t + n, false) := by
  intro n
  induction n with
  | zero => intro t m _; rfl
  | succ n ih =>
    intro t m h
    simp only [IntVGram.fitInner, rd_sample hne, ok_bind, samples, List.range'_succ, List.map_cons, run, call]
    cases m.toStream.accept E (sample seqs σ.rand t) with
    | error e => rfl
    | ok s =>
      simp only [ok_bind, h t (le_refl _) (by omega), Bool.false_eq_true, if_false]
      rw [ih (t + 1) _ fun j h1 h2 => h j (by omega) (by omega)]
      simp only [samples]
      rw [show t + 1 + n = t + (n + 1) by omega]

theorem fitInner_stop (E : Env F) (σ : IntVGram.Sched) (seqs : List IntSeq) (hne : seqs ≠ []) : ∀ (n t k : Nat) (m : IntVGram F),
    k < n → (∀ j, t ≤ j → j < t + k → σ.term j = false) → σ.term (t + k) = true →
    IntVGram.fitInner E σ seqs n t m =
      (run E m.toStream (samples seqs σ.rand t (k + 1))).bind fun s => .ok ({ m with toStream := s }, t + k + 1, true) := by
  intro n
  induction n with
  | zero => intro t k m h; omega
  | succ n ih =>
    intro t k m hk h hs
    simp only [IntVGram.fitInner, rd_sample hne, ok_bind, samples, List.range'_succ, List.map_cons, run, call]
    cases m.toStream.accept E (sample seqs σ.rand t) with
    | error e => rfl
    | ok s =>
      cases k with
      | zero =>
        simp only [Nat.add_zero] at hs
        simp only [ok_bind, hs, if_true]
        rfl
      | succ k =>
        simp only [ok_bind, h t (le_refl _) (by omega), Bool.false_eq_true, if_false]
        rw [ih (t + 1) k _ (by omega) (fun j h1 h2 => h j (by omega) (by omega)) (by rw [show t + 1 + k = t + (k + 1) by omega]; exact hs)]
        simp only [samples]
        rw [show t + 1 + k + 1 = t + (k + 1) + 1 by omega]

theorem fitInner_nil (E : Env F) (σ : IntVGram.Sched) (t : Nat) (m : IntVGram F) :
    IntVGram.fitInner E σ [] ([] : List IntSeq).length t m = .ok (m, t, false) := rfl

theorem fitInner_full' (E : Env F) (σ : IntVGram.Sched) (seqs : List IntSeq) (t : Nat) (m : IntVGram F)
    (h : ∀ j, t ≤ j → j < t + seqs.length → σ.term j = false) :
    IntVGram.fitInner E σ seqs seqs.length t m =
      (run E m.toStream (samples seqs σ.rand t seqs.length)).bind fun s => .ok ({ m with toStream := s }, t + seqs.length, false) := by
  by_cases hne : seqs = []
  · subst hne; rfl
  · exact fitInner_full E σ seqs hne _ t m h

theorem fitOuter_full (E : Env F) (σ : IntVGram.Sched) (seqs : List IntSeq) : ∀ (n t : Nat) (m : IntVGram F),
    (∀ j, t ≤ j → j < t + n * seqs.length → σ.term j = false) →
    IntVGram.fitOuter E σ seqs n t m =
      (run E m.toStream (rounds seqs σ.rand t n)).bind fun s => .ok ({ m with toStream := s }, t + n * seqs.length, false) := by
  intro n
  induction n with
  | zero => intro t m _; simp [IntVGram.fitOuter, rounds, run, Except.bind]
  | succ n ih =>
    intro t m h
    have he : (n + 1) * seqs.length = seqs.length + n * seqs.length := by rw [Nat.succ_mul]; omega
    simp only [IntVGram.fitOuter, rounds]
    rw [fitInner_full' E σ seqs t m fun j h1 h2 => h j h1 (by omega), run_append]
    cases run E m.toStream (samples seqs σ.rand t seqs.length) with
    | error e => rfl
    | ok s =>
      simp only [Except.bind, ok_bind, Bool.false_eq_true, if_false, run, call]
      cases s.updateDict E.ops with
      | error e => rfl
      | ok s2 =>
        simp only [ok_bind]
        rw [ih (t + seqs.length) _ fun j h1 h2 => h j (by omega) (by omega)]
        rw [show t + seqs.length + n * seqs.length = t + (n + 1) * seqs.length by omega]
        rfl

theorem fitOuter_stop (E : Env F) (σ : IntVGram.Sched) (seqs : List IntSeq) (hne : seqs ≠ []) : ∀ (n t q r : Nat) (m : IntVGram F),
    q < n → r < seqs.length → (∀ j, t ≤ j → j < t + (q * seqs.length + r) → σ.term j = false) → σ.term (t + (q * seqs.length + r)) = true →
    IntVGram.fitOuter E σ seqs n t m =
      (run E m.toStream (rounds seqs σ.rand t q ++ samples seqs σ.rand (t + q * seqs.length) (r + 1))).bind fun s =>
        .ok ({ m with toStream := s }, t + (q * seqs.length + r) + 1, true) := by
  intro n
  induction n with
  | zero => intro t q r m h; omega
  | succ n ih =>
    intro t q r m hq hr h hs
    simp only [IntVGram.fitOuter]
    cases q with
    | zero =>
      simp only [Nat.zero_mul, Nat.zero_add, Nat.add_zero] at h hs ⊢
      rw [fitInner_stop E σ seqs hne seqs.length t r m hr h hs]
      simp only [rounds, List.nil_append]
      cases run E m.toStream (samples seqs σ.rand t (r + 1)) <;> rfl
    | succ q =>
      have he : (q + 1) * seqs.length = seqs.length + q * seqs.length := by rw [Nat.succ_mul]; omega
      rw [fitInner_full' E σ seqs t m fun j h1 h2 => h j h1 (by omega)]
      simp only [rounds, List.append_assoc, List.cons_append]
      rw [run_append]
      cases run E m.toStream (samples seqs σ.rand t seqs.length) with
      | error e => rfl
      | ok s =>
        simp only [Except.bind, ok_bind, Bool.false_eq_true, if_false, run, call]
        cases s.updateDict E.ops with
        | error e => rfl
        | ok s2 =>
          simp only [ok_bind]
          rw [ih (t + seqs.length) q r _ (by omega) hr (fun j h1 h2 => h j (by omega) (by omega))
            (by rw [show t + seqs.length + (q * seqs.length + r) = t + ((q + 1) * seqs.length + r) by omega]; exact hs)]
          rw [show t + seqs.length + (q * seqs.length + r) = t + ((q + 1) * seqs.length + r) by omega,
            show t + seqs.length + q * seqs.length = t + (q + 1) * seqs.length by omega]
          rfl

/-! ## Histories of `fit` -/

theorem accepted_append (a b : List Call) : accepted (a ++ b) = accepted a ++ accepted b := by
  induction a with
  | nil => rfl
  | cons c cs ih => cases c <;> simp [accepted, ih]

theorem samples_legal (seqs : List IntSeq) (rand : Nat → Nat) {r r' : Bool} {rest : List Call} (h : Legal r rest r') :
    ∀ (n t : Nat), Legal r (samples seqs rand t n ++ rest) r' := by
  intro n
  induction n with
  | zero => intro t; exact h
  | succ n ih =>
    intro t
    simp only [samples, List.range'_succ, List.map_cons, List.cons_append]
    exact .accept (ih (t + 1))

theorem rounds_legal (seqs : List IntSeq) (rand : Nat → Nat) : ∀ (n t : Nat) (r : Bool), Legal r (rounds seqs rand t n) (r || decide (0 < n)) := by
  intro n
  induction n with
  | zero => intro t r; simpa [rounds] using Legal.nil
  | succ n ih =>
    intro t r
    simp only [rounds]
    have := ih (t + seqs.length) true
    simp only [Bool.true_or] at this
    have h2 : (r || decide (0 < n + 1)) = true := by simp
    rw [h2]
    exact samples_legal seqs rand (.update this) _ _

theorem samples_noParse (seqs : List IntSeq) (rand : Nat → Nat) (t n : Nat) (seq : IntSeq) : Call.parse seq ∉ samples seqs rand t n := by
  intro h
  obtain ⟨j, _, hj⟩ := List.mem_map.1 h
  cases hj

theorem rounds_noParse (seqs : List IntSeq) (rand : Nat → Nat) : ∀ (n t : Nat) (seq : IntSeq), Call.parse seq ∉ rounds seqs rand t n := by
  intro n
  induction n with
  | zero => intro t seq h; cases h
  | succ n ih =>
    intro t seq h
    simp only [rounds] at h
    rcases List.mem_append.1 h with h | h
    · exact samples_noParse _ _ _ _ _ h
    · rcases List.mem_cons.1 h with h | h
      · cases h
      · exact ih _ _ h

theorem samples_accepted {seqs : List IntSeq} (rand : Nat → Nat) : ∀ (n t : Nat), (n = 0 ∨ seqs ≠ []) →
    ∀ x ∈ accepted (samples seqs rand t n), x ∈ seqs.flatten := by
  intro n
  induction n with
  | zero => intro t _ x hx; cases hx
  | succ n ih =>
    intro t hne x hx
    have hne : seqs ≠ [] := by simpa using hne
    simp only [samples, List.range'_succ, List.map_cons, accepted] at hx
    rcases List.mem_append.1 hx with hx | hx
    · exact List.mem_flatten.2 ⟨_, sample_mem hne rand t, hx⟩
    · exact ih (t + 1) (Or.inr hne) x hx

theorem rounds_accepted {seqs : List IntSeq} (rand : Nat → Nat) : ∀ (n t : Nat), ∀ x ∈ accepted (rounds seqs rand t n), x ∈ seqs.flatten := by
  intro n
  induction n with
  | zero => intro t x hx; cases hx
  | succ n ih =>
    intro t x hx
    simp only [rounds, accepted_append, accepted] at hx
    rcases List.mem_append.1 hx with hx | hx
    · refine samples_accepted rand _ t ?_ x hx
      by_cases h : seqs = []
      · exact Or.inl (by simp [h])
      · exact Or.inr h
    · exact ih _ x hx

theorem seen_length_mono {a b : List Int} (h : ∀ x ∈ a, x ∈ b) : (seen a).length ≤ (seen b).length :=
  ((seen_nodup a).subperm fun x hx => seen_mem.2 (h x (seen_mem.1 hx))).length_le

/-! ## Known symbols -/

theorem encode_known {c : SeqCoder} {vals : List Int} (h : CInv c vals) : ∀ {seq : IntSeq}, (∀ x ∈ seq, x ∈ vals) →
    c.encode seq = (c, seq.map fun x => (vals.idxOf x : Int)) := by
  intro seq
  induction seq with
  | nil => intro _; rfl
  | cons x xs ih =>
    intro hs
    have h1 : c.encodeOne x = (c, (vals.idxOf x : Int)) := by
      simp only [SeqCoder.encodeOne, h.fwd, if_pos (hs x (by simp))]
    simp only [SeqCoder.encode, h1, ih fun y hy => hs y (by simp [hy]), List.map_cons]

theorem single_code {hist : List Int} {d : IntDict} (h : DOk (seen hist).length d) {x : Int} (hx : [x] ∈ decodeWords hist d.seqs) :
    x ∈ hist ∧ [((seen hist).idxOf x : Int)] ∈ d.seqs := by
  obtain ⟨w, hw1, hw2⟩ := List.mem_map.1 hx
  obtain ⟨c, rfl⟩ : ∃ c, w = [c] := by
    cases w with
    | nil => simp at hw2
    | cons c w =>
      cases w with
      | nil => exact ⟨c, rfl⟩
      | cons => simp at hw2
  simp only [List.map_cons, List.map_nil, List.cons.injEq, and_true] at hw2
  obtain ⟨c1, c2⟩ := h.symbols _ hw1 c (by simp)
  have hc : (c.toNat : Int) = c := by omega
  have hlt : c.toNat < (seen hist).length := by omega
  rw [List.getElem?_eq_getElem hlt, Option.getD_some] at hw2
  have hi : (seen hist).idxOf x = c.toNat := by
    rw [← hw2]
    exact (seen_nodup _).idxOf_getElem _ hlt
  refine ⟨seen_mem.1 (hw2 ▸ List.getElem_mem hlt), ?_⟩
  rw [hi, hc]
  exact hw1

theorem imm_known {c : SeqCoder} {vals : List Int} (h : CInv c vals) {seq : IntSeq} (hs : ∀ x ∈ seq, x ∈ vals) :
    c.encodeImm seq = seq.map fun x => (vals.idxOf x : Int) := by
  rw [h.imm, List.filter_eq_self.2 fun x hx => by simpa using hs x hx]

/-! ## Counting ids -/

theorem countIds_ok : ∀ (ids fr : List Int), (∀ i ∈ ids, 0 ≤ i ∧ i < (fr.length : Int)) →
    ∃ fr', IntVGram.countIds fr ids = .ok fr' ∧ fr'.length = fr.length ∧
      ∀ k, k < fr.length → fr'[k]? = some ((fr[k]?).getD 0 + ((ids.count (k : Int) : Nat) : Int)) := by
  intro ids
  induction ids with
  | nil => intro fr _; exact ⟨fr, rfl, rfl, fun k hk => by simp [hk]⟩
  | cons i ids ih =>
    intro fr h
    obtain ⟨h0, h1⟩ := h i (by simp)
    obtain ⟨j, rfl⟩ : ∃ j : Nat, i = j := ⟨i.toNat, by omega⟩
    have hj : j < fr.length := by omega
    obtain ⟨fr', f1, f2, f3⟩ := ih (fr.set j (fr[j] + 1)) fun k hk => by
      rw [List.length_set]; exact h k (by simp [hk])
    rw [List.length_set] at f2 f3
    refine ⟨fr', ?_, f2, fun k hk => ?_⟩
    · simp only [IntVGram.countIds, if_pos h0, rd_of_lt hj, wr_of_lt hj, ok_bind, f1]
    · rw [f3 k hk, List.getElem?_set, List.count_cons]
      by_cases hjk : j = k
      · subst hjk
        simp [hj]
        omega
      · have : ¬ ((j : Int) = (k : Int)) := by omega
        simp [hjk, this]

theorem countIds_oob : ∀ (ids fr : List Int), (∀ i ∈ ids, 0 ≤ i) → (∃ i ∈ ids, (fr.length : Int) ≤ i) →
    IntVGram.countIds fr ids = .error .oob := by
  intro ids
  induction ids with
  | nil => intro fr _ ⟨i, hi, _⟩; cases hi
  | cons i ids ih =>
    intro fr h0 hex
    have hi := h0 i (by simp)
    obtain ⟨j, rfl⟩ : ∃ j : Nat, i = j := ⟨i.toNat, by omega⟩
    simp only [IntVGram.countIds, if_pos hi]
    by_cases hj : j < fr.length
    · rw [rd_of_lt hj, ok_bind, wr_of_lt hj, ok_bind]
      refine ih _ (fun k hk => h0 k (by simp [hk])) ?_
      obtain ⟨k, hk, hk2⟩ := hex
      rcases List.mem_cons.1 hk with rfl | hk
      · omega
      · exact ⟨k, hk, by rw [List.length_set]; exact hk2⟩
    · rw [show rd fr (j : Int) = .error .oob by rw [rd_nat, List.getElem?_eq_none (by omega)]]
      rfl

/-! ## Recomputing the frequencies -/

/-- Occurrences of the ids `0 … n-1`. -/
def tally (n : Nat) (ids : List Int) : List Int := (List.range n).map fun k : Nat => ((ids.count (k : Int) : Nat) : Int)

theorem tally_nil (n : Nat) : tally n [] = List.replicate n 0 := by
  apply List.ext_getElem <;> simp [tally]

theorem sumI_set_succ (fr : List Int) (j : Nat) (h : j < fr.length) : sumI (fr.set j (fr[j] + 1)) = sumI fr + 1 := by
  induction fr generalizing j with
  | nil => simp at h
  | cons a fr ih =>
    cases j with
    | zero => simp [sumI_cons]; omega
    | succ j =>
      simp only [List.set_cons_succ, List.getElem_cons_succ, sumI_cons]
      rw [ih j (by simpa using h)]
      omega

theorem countIds_tally {n : Nat} {done ids : List Int} (h : ∀ i ∈ ids, 0 ≤ i ∧ i < (n : Int)) :
    IntVGram.countIds (tally n done) ids = .ok (tally n (done ++ ids)) := by
  obtain ⟨fr', f1, f2, f3⟩ := countIds_ok ids (tally n done) (by simpa [tally] using h)
  rw [f1]
  congr 1
  apply List.ext_getElem?
  intro k
  have hl : (tally n done).length = n := by simp [tally]
  by_cases hk : k < n
  · rw [f3 k (by omega)]
    simp [tally, hk, List.count_append]
  · rw [List.getElem?_eq_none (by omega), List.getElem?_eq_none (by simp [tally]; omega)]

theorem tally_nonneg (n : Nat) (ids : List Int) : ∀ f ∈ tally n ids, 0 ≤ f := by
  intro f hf
  obtain ⟨k, _, rfl⟩ := List.mem_map.1 hf
  omega

theorem tally_snoc {n j : Nat} {ids : List Int} (h : j < n) :
    tally n (ids ++ [(j : Int)]) = (tally n ids).set j ((tally n ids)[j]'(by simpa [tally] using h) + 1) := by
  apply List.ext_getElem (by simp [tally])
  intro k h1 h2
  rw [List.getElem_set]
  by_cases hk : j = k
  · subst hk
    simp [tally, List.count_append]
  · simp [tally, hk, List.count_append, List.count_cons]

theorem sum_tally (n : Nat) (ids : List Int) (h : ∀ i ∈ ids, 0 ≤ i ∧ i < (n : Int)) : sumI (tally n ids) = ids.length := by
  induction ids using List.reverseRecOn with
  | nil => rw [tally_nil, sumI_replicate]; rfl
  | append_singleton ids i ih =>
    obtain ⟨h0, h1⟩ := h i (by simp)
    obtain ⟨j, rfl⟩ : ∃ j : Nat, i = j := ⟨i.toNat, by omega⟩
    rw [tally_snoc (by omega), sumI_set_succ, ih fun k hk => h k (by simp [hk])]
    simp

theorem Spec.Spells.lt {words : List IntSeq} {ids : List Int} {seq : IntSeq} (h : Spells words ids seq) :
    ∀ i ∈ ids, 0 ≤ i ∧ i < (words.length : Int) := by
  obtain ⟨ws, h1, -⟩ := h
  induction h1 with
  | nil => intro i hi; cases hi
  | cons a _ ih =>
    intro i hi
    rcases List.mem_cons.1 hi with rfl | hi
    · have := (List.getElem?_eq_some_iff.1 a.2).1
      have := a.1
      omega
    · exact ih i hi

theorem recomputeLoop_known {O : FloatOps F} (SL : ScoreLaws O) (σ : IntVGram.Sched) {prior : List Int} (hp : ∀ f ∈ prior, 0 ≤ f) {hist : List Int}
    {d : IntDict} (ok : DOk (seen hist).length d) (hs : Sorted d) : ∀ (seqs : List IntSeq) (t : Nat) (m : IntVGram F) (done : List Int),
    CInv m.coder (seen hist) → m.toStream.getDict = .ok d → m.freqs = tally d.seqs.length done →
    (∀ seq ∈ seqs, ∀ x ∈ seq, [x] ∈ decodeWords hist d.seqs) → (∀ j, t ≤ j → j < t + seqs.length → σ.term j = false) →
    ∃ outs, List.Forall₂ (fun seq ids => d.parse O (m.coder.encodeImm seq) prior (sumI prior) [] = .ok (d, ids, (ids.length : Int)) ∧
        Spells (decodeWords hist d.seqs) ids seq) seqs outs ∧
      IntVGram.recomputeLoop O σ prior (sumI prior) seqs t m =
        .ok ({ m with freqs := tally d.seqs.length (done ++ outs.flatten) }, t + seqs.length, false) := by
  intro seqs
  induction seqs with
  | nil =>
    intro t m done _ _ hf _ _
    refine ⟨[], .nil, ?_⟩
    simp only [IntVGram.recomputeLoop, List.flatten_nil, List.append_nil, ← hf]
    rfl
  | cons seq seqs ih =>
    intro t m done hc hg hf hk hσ
    have hmem : ∀ x ∈ seq, x ∈ seen hist := fun x hx => seen_mem.2 (single_code ok (hk seq (by simp) x hx)).1
    have hkn : Knows d.seqs (seq.map fun x => ((seen hist).idxOf x : Int)) := by
      intro k hkm
      obtain ⟨x, hx, rfl⟩ := List.mem_map.1 hkm
      exact (single_code ok (hk seq (by simp) x hx)).2
    obtain ⟨ids, p1, p2⟩ := parse_known SL hs hkn hp (sumI_nonneg hp) []
    simp only [List.nil_append] at p1
    have hsp : Spells (decodeWords hist d.seqs) ids seq := by
      have := p2.map (fun k => (seen hist)[k.toNat]?.getD 0)
      rw [List.map_map] at this
      rw [show seq = List.map ((fun k : Int => (seen hist)[k.toNat]?.getD 0) ∘ fun x => ((seen hist).idxOf x : Int)) seq from ?_]
      · exact this
      · conv_lhs => rw [← List.map_id seq]
        apply List.map_congr_left
        intro x hx
        exact (getD_idxOf (hmem x hx)).symm
    have hcnt := countIds_tally (n := d.seqs.length) (done := done) p2.lt
    obtain ⟨outs, o1, o2⟩ := ih (t + 1) { m with freqs := tally d.seqs.length (done ++ ids) } (done ++ ids) hc hg rfl
      (fun s hs => hk s (by simp [hs])) fun j h1 h2 => hσ j (by omega) (by simp only [List.length_cons]; omega)
    refine ⟨ids :: outs, .cons ⟨by rw [imm_known hc hmem]; exact p1, hsp⟩ o1, ?_⟩
    simp only [IntVGram.recomputeLoop, encode_known hc hmem, hg, ok_bind, p1, hf, hcnt, hσ t (le_refl _) (by simp), Bool.false_eq_true, if_false,
      Stream.setDict_self hg]
    rw [show t + (seq :: seqs).length = t + 1 + seqs.length by simp only [List.length_cons]; omega]
    simp only [List.flatten_cons, ← List.append_assoc]
    exact o2

/-- The published dictionary is the builder's current answer, sorted. -/
structure JustUpdated (m : Stream F) (hist : List Int) : Prop where
  inv : StreamInv m hist
  sorted : AllSorted m
  ptr : m.dict = .stat m.builder.resultIdx

theorem JustUpdated.start {m : IntVGram F} {hist : List Int} (h : JustUpdated m.toStream hist) :
    ∃ b prior d, m.builder.resultFreqs [] = .ok (b, prior) ∧ (∀ f ∈ prior, 0 ≤ f) ∧ prior.length = d.seqs.length ∧ m.getDict = .ok d ∧
      DOk (seen hist).length d ∧ Sorted d ∧ ({ m.toStream with builder := b } : Stream F).getDict = .ok d ∧
      b.size = m.builder.size ∧
      (∀ fr, (∀ f ∈ fr, 0 ≤ f) → JustUpdated ({ m.toStream with builder := b, freqs := fr, totalFreqs := sumI fr } : Stream F) hist) := by
  obtain ⟨s, s1, s2, s3⟩ := resultFreqs_tinv h.inv.tinv []
  have hs := h.inv.tinv.heap s (List.mem_of_getElem? s1)
  have hlt := h.inv.tinv.resultIdx_lt
  have hg : m.getDict = .ok s.dict := by
    simp only [Stream.getDict, h.ptr, rd_nat_ok.2 s1, ok_bind, pure_M]
  simp only [List.nil_append] at s2
  generalize hb : ({ m.builder with stats := m.builder.stats.set m.builder.resultIdx { s with symbolFreqs := StatDict.padTo s.symbolFreqs s.size } } : Builder F) = b at s2 s3
  have hri : b.resultIdx = m.builder.resultIdx := by rw [← hb]; rfl
  have hst : b.stats[m.builder.resultIdx]? = some { s with symbolFreqs := StatDict.padTo s.symbolFreqs s.size } := by
    rw [← hb]
    exact List.getElem?_set_self hlt
  refine ⟨b, _, s.dict, s2, padTo_nonneg hs.freqs _, ?_, hg, ⟨hs.wf, hs.symbols, hs.closed, hs.sorted⟩, h.sorted.getDict hg, ?_, by rw [← hb], fun fr hfr => ⟨⟨h.inv.coder, s3, h.inv.own, ?_, hfr,
    sumI_nonneg hfr, h.inv.prob⟩, ⟨h.sorted.1, ?_⟩, ?_⟩⟩
  · have := hs.short
    rw [padTo_length]
    simp only [StatDict.size, IntDict.size]
    omega
  · simp only [Stream.getDict, h.ptr, rd_nat_ok.2 hst, ok_bind, pure_M]
  · intro i hi
    have := h.inv.ptr i hi
    rw [← hb]
    simp only [List.length_set]
    exact this
  · intro t ht
    rw [← hb] at ht
    simp only at ht
    rcases List.mem_or_eq_of_mem_set ht with ht | rfl
    · exact h.sorted.2 t ht
    · exact h.sorted.2 s (List.mem_of_getElem? s1)
  · simp only [hri]
    exact h.ptr

theorem recompute_known {O : FloatOps F} (SL : ScoreLaws O) (σ : IntVGram.Sched) (t : Nat) {m : IntVGram F} {hist : List Int}
    (h : JustUpdated m.toStream hist) {ws : List IntSeq} (hw : m.alphabet = .ok ws) {seqs : List IntSeq}
    (hk : ∀ seq ∈ seqs, ∀ x ∈ seq, [x] ∈ ws) (hσ : ∀ j, t ≤ j → j < t + seqs.length → σ.term j = false) :
    ∃ m' prior outs, IntVGram.recomputeFreqs O σ t m seqs = .ok m' ∧ m.builder.resultFreqs [] = .ok (m'.builder, prior) ∧
      List.Forall₂ (fun seq ids => Spells ws ids seq ∧
        ∃ p, ({ m.toStream with freqs := prior, totalFreqs := sumI prior } : Stream F).parse O seq = .ok (p, ids)) seqs outs ∧
      m'.freqs = tally ws.length outs.flatten ∧ m'.totalFreqs = sumI m'.freqs ∧ sumI m'.freqs = outs.flatten.length ∧
      m'.alphabet = .ok ws ∧ JustUpdated m'.toStream hist ∧ m'.fitted = m.fitted ∧ m'.dict = m.dict ∧ m'.coder = m.coder ∧ m'.size = m.size ∧
      m'.minProb = m.minProb ∧ m'.own = m.own ∧ m'.iterNum = m.iterNum := by
  obtain ⟨b, prior, d, b1, b2, b3, b4, b5, b6, b7, b8, b9⟩ := h.start
  rw [h.inv.alphabet b4 b5] at hw
  cases hw
  have hl : (decodeWords hist d.seqs).length = d.seqs.length := by simp [decodeWords]
  obtain ⟨outs, o1, o2⟩ := recomputeLoop_known SL σ b2 b5 b6 seqs t { m with builder := b, freqs := List.replicate prior.length 0 } []
    h.inv.coder b7 (by rw [tally_nil, b3]) hk hσ
  simp only [List.nil_append] at o2
  have hj := b9 (tally d.seqs.length outs.flatten) (tally_nonneg _ _)
  have hin : ∀ i ∈ outs.flatten, 0 ≤ i ∧ i < (d.seqs.length : Int) := by
    intro i hi
    obtain ⟨ids, h1, h2⟩ := List.mem_flatten.1 hi
    have : ∀ {seqs : List IntSeq} {outs : List (List Int)}, List.Forall₂ (fun seq ids => d.parse O (m.coder.encodeImm seq) prior (sumI prior) [] = .ok (d, ids, (ids.length : Int)) ∧
        Spells (decodeWords hist d.seqs) ids seq) seqs outs → ∀ ids ∈ outs, ∀ i ∈ ids, 0 ≤ i ∧ i < (d.seqs.length : Int) := by
      intro seqs outs hf
      induction hf with
      | nil => intro ids hi; cases hi
      | cons a _ ih =>
        intro ids hids
        rcases List.mem_cons.1 hids with rfl | hids
        · have := a.2.lt
          rw [hl] at this
          exact this
        · exact ih ids hids
    exact this o1 ids h1 i h2
  obtain ⟨da, hda⟩ := alpha_ok h.inv.tinv
  refine ⟨{ m with builder := b, freqs := tally d.seqs.length outs.flatten, totalFreqs := sumI (tally d.seqs.length outs.flatten) }, prior, outs, ?_, b1, ?_,
    by rw [hl], rfl, sum_tally _ _ hin, ?_, hj, rfl, rfl, rfl, rfl, rfl, rfl, rfl⟩
  · simp only [IntVGram.recomputeFreqs, b1, ok_bind, o2, Bool.false_eq_true, if_false, pure_M]
  · refine o1.imp fun seq ids ho => ⟨ho.2, ({ m.toStream with freqs := prior, totalFreqs := sumI prior } : Stream F).setDict d, ?_⟩
    have hg : ({ m.toStream with freqs := prior, totalFreqs := sumI prior } : Stream F).getDict = .ok d := b4
    simp only [Stream.parse, hda, ok_bind, hg, ho.1, pure_M]
  · exact hj.inv.alphabet b7 b5

/-- A symbol in no word of the dictionary makes the recomputation write out of bounds. -/
theorem recompute_oob {O : FloatOps F} (SL : ScoreLaws O) (σ : IntVGram.Sched) (t : Nat) {m : IntVGram F} {hist : List Int}
    (h : JustUpdated m.toStream hist) {ws : List IntSeq} (hw : m.alphabet = .ok ws) {pre : List IntSeq} {seq : IntSeq} {post : List IntSeq}
    (hk : ∀ s ∈ pre, ∀ x ∈ s, [x] ∈ ws) {x : Int} (hx : x ∈ seq) (hn : ∀ w ∈ ws, x ∉ w)
    (hσ : ∀ j, t ≤ j → j < t + pre.length → σ.term j = false) :
    IntVGram.recomputeFreqs O σ t m (pre ++ seq :: post) = .error .oob := by
  obtain ⟨b, prior, d, b1, b2, b3, b4, b5, b6, b7, b8, b9⟩ := h.start
  rw [h.inv.alphabet b4 b5] at hw
  cases hw
  obtain ⟨outs, o1, o2⟩ := recomputeLoop_known SL σ b2 b5 b6 pre t { m with builder := b, freqs := List.replicate prior.length 0 } []
    h.inv.coder b7 (by rw [tally_nil, b3]) hk hσ
  have hloop : ∀ (pre post : List IntSeq) (t : Nat) (m m' : IntVGram F) (t' : Nat), IntVGram.recomputeLoop O σ prior (sumI prior) pre t m = .ok (m', t', false) →
      IntVGram.recomputeLoop O σ prior (sumI prior) (pre ++ post) t m = IntVGram.recomputeLoop O σ prior (sumI prior) post t' m' := by
    intro pre
    induction pre with
    | nil => intro post t m m' t' h; cases h; rfl
    | cons s pre ih =>
      intro post t m m' t' h
      simp only [IntVGram.recomputeLoop, List.cons_append] at h ⊢
      obtain ⟨d1, e1, h⟩ := bind_ok.1 h
      obtain ⟨⟨d2, o2, n2⟩, e2, h⟩ := bind_ok.1 h
      obtain ⟨f3, e3, h⟩ := bind_ok.1 h
      simp only [e1, ok_bind, e2, e3]
      split at h
      · cases h
      · next hterm =>
        rw [if_neg hterm]
        exact ih post _ _ _ _ h
  simp only [IntVGram.recomputeFreqs, b1, ok_bind]
  rw [hloop _ _ _ _ _ _ o2]
  obtain ⟨c1, c2⟩ := h.inv.coder.encode seq
  obtain ⟨d', ids, p1, p2, p3, p4⟩ := parse_spec SL b5.wf (m.coder.encode seq).2 [] b2 (sumI_nonneg b2)
  simp only [List.nil_append] at p1
  have hxs : x ∈ seen (hist ++ seq) := by rw [seen_mem]; simp [hx]
  have hout : ∃ i ∈ ids, (d.seqs.length : Int) ≤ i := by
    by_contra hno
    push Not at hno
    obtain ⟨vs, v1, v2⟩ := p4
    have hmem : ∀ {ids : List Int} {vs : List IntSeq}, List.Forall₂ (IsWord d'.seqs) ids vs → (∀ i ∈ ids, i < (d.seqs.length : Int)) → ∀ v ∈ vs, v ∈ d.seqs := by
      intro ids vs hf
      induction hf with
      | nil => intro _ v hv; cases hv
      | @cons i0 v0 ids vs a _ ih =>
        intro hi v hv
        rcases List.mem_cons.1 hv with rfl | hv
        · obtain ⟨syms, g1, _⟩ := p3
          have := a.2
          have hlt : i0.toNat < d.seqs.length := by
            have := hi i0 (by simp)
            have := a.1
            omega
          rw [g1, List.getElem?_append_left hlt] at this
          exact List.mem_of_getElem? this
        · exact ih (fun i hi' => hi i (by simp [hi'])) v hv
    have hcx : ((seen (hist ++ seq)).idxOf x : Int) ∈ (m.coder.encode seq).2 := by
      rw [c2]
      exact List.mem_map.2 ⟨x, hx, rfl⟩
    rw [← v2] at hcx
    obtain ⟨v, hv1, hv2⟩ := List.mem_flatten.1 hcx
    have hv3 := hmem v1 hno v hv1
    obtain ⟨r1, r2⟩ := b5.symbols v hv3 _ hv2
    refine hn _ (List.mem_map.2 ⟨v, hv3, rfl⟩) (List.mem_map.2 ⟨_, hv2, ?_⟩)
    rw [Int.toNat_natCast]
    obtain ⟨suf, hsuf⟩ := seen_append_prefix hist seq
    have hlt : (seen (hist ++ seq)).idxOf x < (seen hist).length := by omega
    have := getD_idxOf hxs
    rw [← hsuf, Int.toNat_natCast] at this
    rw [← hsuf] at hlt
    rw [List.getElem?_append_left hlt, hsuf] at this
    exact this
  obtain ⟨i, i1, i2⟩ := hout
  have hcnt : IntVGram.countIds (tally d.seqs.length ([] ++ outs.flatten)) ids = .error .oob :=
    countIds_oob ids _ (fun i hi => (p4.lt i hi).1) ⟨i, i1, by simpa [tally] using i2⟩
  have hg : ({ m with builder := b, freqs := tally d.seqs.length ([] ++ outs.flatten) } : IntVGram F).toStream.getDict = .ok d := b7
  simp only [IntVGram.recomputeLoop, hg, ok_bind, p1, hcnt]
  rfl

theorem decodeWords_closed {hist : List Int} {d : IntDict} (h : DOk (seen hist).length d) {w : IntSeq} (hw : w ∈ decodeWords hist d.seqs) {x : Int}
    (hx : x ∈ w) : [x] ∈ decodeWords hist d.seqs := by
  obtain ⟨v, hv, rfl⟩ := List.mem_map.1 hw
  obtain ⟨c, hc, rfl⟩ := List.mem_map.1 hx
  exact List.mem_map.2 ⟨[c], h.closed v hv c hc, rfl⟩

/-- The first element with a property. -/
theorem first_bad {α : Type} {p : α → Prop} : ∀ {l : List α}, ¬ (∀ a ∈ l, p a) → ∃ pre a post, l = pre ++ a :: post ∧ (∀ b ∈ pre, p b) ∧ ¬ p a := by
  intro l
  induction l with
  | nil => intro h; exact absurd (by simp) h
  | cons a l ih =>
    intro h
    by_cases ha : p a
    · obtain ⟨pre, b, post, h1, h2, h3⟩ := ih fun hl => h fun b hb => by
        rcases List.mem_cons.1 hb with rfl | hb
        · exact ha
        · exact hl b hb
      refine ⟨a :: pre, b, post, by rw [h1]; rfl, fun c hc => ?_, h3⟩
      rcases List.mem_cons.1 hc with rfl | hc
      · exact ha
      · exact h2 c hc
    · exact ⟨[], a, l, rfl, by simp, ha⟩

/-- A recomputation that succeeds had a word for every training symbol. -/
theorem recompute_covers {O : FloatOps F} (SL : ScoreLaws O) (σ : IntVGram.Sched) (t : Nat) {m : IntVGram F} {hist : List Int}
    (h : JustUpdated m.toStream hist) {ws : List IntSeq} (hw : m.alphabet = .ok ws) {seqs : List IntSeq}
    (hn : ¬ ∀ seq ∈ seqs, ∀ x ∈ seq, [x] ∈ ws) (hσ : ∀ j, t ≤ j → j < t + seqs.length → σ.term j = false) :
    IntVGram.recomputeFreqs O σ t m seqs = .error .oob := by
  obtain ⟨pre, seq, post, rfl, h2, h3⟩ := first_bad hn
  push Not at h3
  obtain ⟨x, hx, h3⟩ := h3
  refine recompute_oob SL σ t h hw h2 hx (fun w hw' hxw => h3 ?_) fun j a b => hσ j a (by simp; omega)
  obtain ⟨d, d1, d2⟩ := h.inv.getDict (by simp [h.ptr])
  rw [h.inv.alphabet d1 d2] at hw
  cases hw
  exact decodeWords_closed d2 hw' hxw

/-! ## Models whose dictionary knows every seen symbol -/

/-- The published dictionary is sorted and has a word for every symbol seen. -/
structure Total (m : Stream F) (hist : List Int) : Prop where
  inv : StreamInv m hist
  dict : m.dict ≠ .null
  full : ∀ d, m.getDict = .ok d → Sorted d ∧ ∀ x : Int, 0 ≤ x → x < ((seen hist).length : Int) → [x] ∈ d.seqs

theorem Total.words {m : Stream F} {hist : List Int} (h : Total m hist) : ∃ d, m.getDict = .ok d ∧ DOk (seen hist).length d ∧ Sorted d ∧
    (∀ x : Int, 0 ≤ x → x < ((seen hist).length : Int) → [x] ∈ d.seqs) ∧ m.alphabet = .ok (decodeWords hist d.seqs) := by
  obtain ⟨d, h1, h2⟩ := h.inv.getDict h.dict
  exact ⟨d, h1, h2, (h.full d h1).1, (h.full d h1).2, h.inv.alphabet h1 h2⟩

theorem Total.parse {O : FloatOps F} (SL : ScoreLaws O) {m : Stream F} {hist : List Int} (h : Total m hist) {ws : List IntSeq}
    (hw : m.alphabet = .ok ws) (seq : IntSeq) :
    ∃ ids, m.parse O seq = .ok (m, ids) ∧ Spells ws ids (seq.filter fun x => decide (x ∈ hist)) := by
  obtain ⟨d, d', ids, p1, p2, p3, p4, p5, p6, p7, p8, p9⟩ := h.inv.parse SL h.dict seq
  obtain ⟨f1, f2⟩ := h.full d p1
  rw [h.inv.alphabet p1 p3] at hw
  cases hw
  obtain rfl := p9 f1 fun x hx => by
    obtain ⟨r1, r2⟩ := imm_range h.inv.coder seq x hx
    exact f2 x r1 r2
  rw [Stream.setDict_self p1] at p2
  exact ⟨ids, p2, p8⟩

theorem Total.transformLoop {O : FloatOps F} (SL : ScoreLaws O) (σ : IntVGram.Sched) {m : Stream F} {hist : List Int} (h : Total m hist) {ws : List IntSeq}
    (hw : m.alphabet = .ok ws) : ∀ (seqs : List IntSeq) (t : Nat), (∀ j, t ≤ j → j < t + seqs.length → σ.term j = false) →
    ∃ outs, IntVGram.transformLoop O σ seqs t m = .ok (m, outs, t + seqs.length) ∧
      List.Forall₂ (fun seq ids => m.parse O seq = .ok (m, ids) ∧ Spells ws ids (seq.filter fun x => decide (x ∈ hist))) seqs outs := by
  intro seqs
  induction seqs with
  | nil => intro t _; exact ⟨[], rfl, .nil⟩
  | cons seq seqs ih =>
    intro t hσ
    obtain ⟨ids, p1, p2⟩ := h.parse SL hw seq
    obtain ⟨outs, o1, o2⟩ := ih (t + 1) fun j h1 h2 => hσ j (by omega) (by simp only [List.length_cons]; omega)
    refine ⟨ids :: outs, ?_, .cons ⟨p1, p2⟩ o2⟩
    simp only [IntVGram.transformLoop, p1, ok_bind, hσ t (le_refl _) (by simp), Bool.false_eq_true, if_false, o1, pure_M, List.length_cons]
    rw [show t + 1 + seqs.length = t + (seqs.length + 1) by omega]

theorem Total.transform_stop {O : FloatOps F} (SL : ScoreLaws O) (σ : IntVGram.Sched) {m : Stream F} {hist : List Int} (h : Total m hist) {ws : List IntSeq}
    (hw : m.alphabet = .ok ws) : ∀ (seqs : List IntSeq) (t k : Nat), k < seqs.length → (∀ j, t ≤ j → j < t + k → σ.term j = false) → σ.term (t + k) = true →
    ∃ outs, IntVGram.transformLoop O σ seqs t m = .ok (m, outs, t + k + 1) ∧
      List.Forall₂ (fun seq ids => m.parse O seq = .ok (m, ids) ∧ Spells ws ids (seq.filter fun x => decide (x ∈ hist))) (seqs.take (k + 1)) outs := by
  intro seqs
  induction seqs with
  | nil => intro t k hk; simp at hk
  | cons seq seqs ih =>
    intro t k hk hσ hs
    obtain ⟨ids, p1, p2⟩ := h.parse SL hw seq
    cases k with
    | zero =>
      refine ⟨[ids], ?_, by simpa using And.intro p1 p2⟩
      simp only [Nat.add_zero] at hs
      simp only [IntVGram.transformLoop, p1, ok_bind, hs, if_true, pure_M]
    | succ k =>
      obtain ⟨outs, o1, o2⟩ := ih (t + 1) k (by simpa using hk) (fun j h1 h2 => hσ j (by omega) (by omega))
        (by rw [show t + 1 + k = t + (k + 1) by omega]; exact hs)
      refine ⟨ids :: outs, ?_, .cons ⟨p1, p2⟩ o2⟩
      simp only [IntVGram.transformLoop, p1, ok_bind, hσ t (le_refl _) (by omega), Bool.false_eq_true, if_false, o1, pure_M]
      rw [show t + 1 + k + 1 = t + (k + 1) + 1 by omega]

theorem accept_keeps {E : Env F} {m m' : Stream F} {seq : IntSeq} (h : m.accept E seq = .ok m') {d : IntDict} (hd : m.getDict = .ok d) :
    ∃ d', m'.getDict = .ok d' ∧ d.seqs <+: d'.seqs := by
  obtain ⟨size, b, dict, own, coder, freqs, total, mp⟩ := m
  simp only [Stream.accept] at h
  obtain ⟨b', hb, h⟩ := bind_ok.1 h
  cases h
  cases dict with
  | null => cases hd
  | own => cases hd; exact ⟨own, rfl, List.prefix_refl _⟩
  | stat i =>
    simp only [Stream.getDict] at hd
    obtain ⟨s, hs, hd⟩ := bind_ok.1 hd
    cases hd
    obtain ⟨k, _⟩ := act_heap (E := E) (b := b) (a := .accept (coder.encode seq).2) hb
    obtain ⟨s', k1, ⟨syms, k2, _⟩, _⟩ := k i s (rd_nat_ok.1 hs)
    refine ⟨s'.dict, by simp only [Stream.getDict, rd_nat_ok.2 k1, ok_bind, pure_M], ?_⟩
    rw [k2]
    exact List.prefix_append _ _

theorem onlyAccept_keeps {E : Env F} : ∀ {calls : List Call} {m m' : Stream F}, onlyAccept calls → run E m calls = .ok m' → ∀ {d : IntDict},
    m.getDict = .ok d → ∃ d', m'.getDict = .ok d' ∧ d.seqs <+: d'.seqs := by
  intro calls
  induction calls with
  | nil => intro m m' _ h d hd; cases h; exact ⟨d, hd, List.prefix_refl _⟩
  | cons c cs ih =>
    intro m m' ho h d hd
    obtain ⟨seq, rfl⟩ := ho c (by simp)
    simp only [run] at h
    obtain ⟨m1, h1, h⟩ := bind_ok.1 h
    obtain ⟨d1, k1, k2⟩ := accept_keeps h1 hd
    obtain ⟨d2, k3, k4⟩ := ih (fun c hc => ho c (by simp [hc])) h k1
    exact ⟨d2, k3, k2.trans k4⟩

theorem samples_onlyAccept (seqs : List IntSeq) (rand : Nat → Nat) (t n : Nat) : onlyAccept (samples seqs rand t n) := by
  intro c hc
  obtain ⟨j, _, rfl⟩ := List.mem_map.1 hc
  exact ⟨_, rfl⟩

/-- Sequences accepted, one per call. -/
def accepts : List Call → List IntSeq
  | [] => []
  | .accept seq :: cs => seq :: accepts cs
  | _ :: cs => accepts cs

theorem accepts_append (a b : List Call) : accepts (a ++ b) = accepts a ++ accepts b := by
  induction a with
  | nil => rfl
  | cons c cs ih => cases c <;> simp [accepts, ih]

theorem accepts_samples (seqs : List IntSeq) (rand : Nat → Nat) (t n : Nat) :
    accepts (samples seqs rand t n) = (List.range' t n).map (sample seqs rand) := by
  induction n generalizing t with
  | zero => rfl
  | succ n ih =>
    simp only [samples, List.range'_succ, List.map_cons, accepts]
    rw [← ih (t + 1)]
    rfl

theorem accepts_rounds (seqs : List IntSeq) (rand : Nat → Nat) : ∀ (n t : Nat),
    accepts (rounds seqs rand t n) = (List.range' t (n * seqs.length)).map (sample seqs rand) := by
  intro n
  induction n with
  | zero => intro t; simp [rounds, accepts]
  | succ n ih =>
    intro t
    simp only [rounds, accepts_append, accepts_samples, accepts, ih]
    rw [show (n + 1) * seqs.length = seqs.length + n * seqs.length by rw [Nat.succ_mul]; omega, ← List.map_append]
    rw [List.range'_append_1]

/-- The state after `n ≥ 1` rounds. -/
theorem rounds_updated {E : Env F} (L : EnvLaws E) (SL : ScoreLaws E.ops) {seqs : List IntSeq} (rand : Nat → Nat) {size : Int} (h1 : 1 ≤ size) {n : Nat} (hn : 1 ≤ n)
    (hcap : ((seen seqs.flatten).length : Int) ≤ size) :
    ∃ s, run E (Stream.new E.ops size) (rounds seqs rand 0 n) = .ok s ∧ JustUpdated s (accepted (rounds seqs rand 0 n)) ∧ s.builder.size + 1 = size := by
  have hst : SStart E.ops (Stream.new E.ops size) [] false size := .fresh h1
  obtain ⟨i1, i2, i3⟩ := hst.inv
  have hle : ∀ calls, (∀ x ∈ accepted calls, x ∈ seqs.flatten) → ((seen ([] ++ accepted calls)).length : Int) ≤ (Stream.new E.ops size).builder.size + 1 := by
    intro calls hc
    have := seen_length_mono hc
    rw [i3, List.nil_append]
    omega
  obtain ⟨s, r1, r2, r3, r4⟩ := run_inv L SL (rounds_legal seqs rand n 0 false) i1 i2 (hle _ (rounds_accepted rand n 0))
  have hsrt := run_sorted L SL _ (rounds_legal seqs rand n 0 false) i1 i2 (Covered.of_noParse _ (rounds_noParse seqs rand n 0)) (hle _ (rounds_accepted rand n 0)) hst.sorted r1
  rw [List.nil_append] at r2
  refine ⟨s, r1, ⟨r2, hsrt, ?_⟩, by rw [r4]; exact i3⟩
  have hlast : ∀ (n t : Nat), 1 ≤ n → ∃ calls, rounds seqs rand t n = calls ++ [.update] := by
    intro n
    induction n with
    | zero => intro t h; omega
    | succ n ih =>
      intro t _
      simp only [rounds]
      by_cases hn : n = 0
      · subst hn; exact ⟨_, rfl⟩
      · obtain ⟨calls, hc⟩ := ih (t + seqs.length) (by omega)
        rw [hc]
        exact ⟨samples seqs rand t seqs.length ++ .update :: calls, by simp⟩
  obtain ⟨calls, hc⟩ := hlast n 0 hn
  rw [hc, run_append] at r1
  obtain ⟨m1, q1, q2⟩ := bind_ok.1 r1
  simp only [run, call] at q2
  obtain ⟨m2, q3, q2⟩ := bind_ok.1 q2
  cases q2
  unfold Stream.updateDict at q3
  split at q3
  · next he => cases q3; exact he
  · obtain ⟨⟨b, fr⟩, g1, q3⟩ := bind_ok.1 q3
    obtain ⟨mp, _, q3⟩ := bind_ok.1 q3
    cases q3
    simp only [Builder.resultFreqs] at g1
    obtain ⟨s, _, g1⟩ := bind_ok.1 g1
    cases g1
    rfl

theorem JustUpdated.total {m : Stream F} {hist : List Int} (h : JustUpdated m hist) {ws : List IntSeq} (hw : m.alphabet = .ok ws)
    (hk : ∀ x ∈ hist, [x] ∈ ws) : Total m hist := by
  refine ⟨h.inv, by simp [h.ptr], fun d hd => ⟨h.sorted.getDict hd, fun x h0 h1 => ?_⟩⟩
  obtain ⟨d', e1, e2⟩ := h.inv.getDict (by simp [h.ptr])
  rw [hd] at e1
  cases e1
  rw [h.inv.alphabet hd e2] at hw
  cases hw
  have hlt : x.toNat < (seen hist).length := by omega
  have hm := (single_code e2 (hk _ (seen_mem.1 (List.getElem_mem hlt)))).2
  rw [(seen_nodup _).idxOf_getElem _ hlt] at hm
  rw [show x = (x.toNat : Int) by omega]
  exact hm

end VGram
