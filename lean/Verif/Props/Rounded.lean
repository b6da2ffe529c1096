import Verif.Spec.Learn
import Verif.Spec.Rounded
import Verif.Proofs.Bounds
import Verif.Props.StreamBest

/-!
# C79: what rounding does to the parse of maximal probability
-/

namespace VGram.Props

open VGram Spec

/-- Rounding with relative error at most `u`, exact on integers up to `N`. -/
structure Accurate (rnd : ℝ → ℝ) (u : ℝ) (N : Int) : Prop where
  err : ∀ x, |rnd x - x| ≤ u * |x|
  int : ∀ n : Int, 0 ≤ n → n ≤ N → rnd n = n

/-- A logarithm with relative error at most `u`. -/
def LogAccurate (lg : ℝ → ℝ) (u : ℝ) : Prop := ∀ x, 1 ≤ x → |lg x - Real.log x| ≤ u * Real.log x

variable {rnd : ℝ → ℝ} {u : ℝ} {N : Int} {lg : ℝ → ℝ}

/-- Arithmetic in which results of at most `B` have relative error at most `u`, exact on integers up to `N`; `Is a x` says that `a` stands for the number `x`. -/
structure NearOps {F : Type} (O : FloatOps F) (Is : F → ℝ → Prop) (u B : ℝ) (N : Int) : Prop where
  int : ∀ n : Int, 0 ≤ n → n ≤ N → Is (O.ofInt n) n
  log : ∀ n : Int, 1 ≤ n → n ≤ N → ∃ y, Is (O.log (O.ofInt n)) y ∧ |y - Real.log n| ≤ 3 * u * Real.log n
  add : ∀ {a b x y}, Is a x → Is b y → |x + y| ≤ B → ∃ z, Is (O.add a b) z ∧ |z - (x + y)| ≤ u * |x + y|
  sub : ∀ {a b x y}, Is a x → Is b y → |x - y| ≤ B → ∃ z, Is (O.sub a b) z ∧ |z - (x - y)| ≤ u * |x - y|
  lt : ∀ {a b x y}, Is a x → Is b y → O.lt a b = false → y ≤ x

section
variable {F : Type} {O : FloatOps F} {Is : F → ℝ → Prop} {B : ℝ}

theorem abs_le_of_near {x y M d : ℝ} (hd : |x - y| ≤ d) (hy : |y| ≤ M) : |x| ≤ M + d := by
  calc |x| = |(x - y) + y| := by ring_nf
    _ ≤ |x - y| + |y| := abs_add_le _ _
    _ ≤ _ := by linarith

theorem near_of {x y z M d : ℝ} (hu : 0 ≤ u) (hz : |z - x| ≤ u * |x|) (hd : |x - y| ≤ d) (hy : |y| ≤ M) : |z - y| ≤ d + u * (M + d) := by
  have h2 := abs_le_of_near hd hy
  calc |z - y| = |(z - x) + (x - y)| := by ring_nf
    _ ≤ |z - x| + |x - y| := abs_add_le _ _
    _ ≤ u * (M + d) + d := add_le_add (hz.trans (mul_le_mul_of_nonneg_left h2 hu)) hd
    _ = _ := by ring

/-- The computed score of a word. -/
theorem wordScore_err (A : NearOps O Is u B N) (hu : 0 ≤ u) (h8 : u ≤ 1 / 8) {freqs : List Int}
    {total : Int} {size : Nat} (hs : 0 < size) (hf : ∀ f ∈ freqs, 0 ≤ f ∧ f ≤ total) (ht : 0 ≤ total) (hN : total + size ≤ N)
    (hB : 2 * Real.log ((total + size : Int) : ℝ) ≤ B) (i : Int) :
    ∃ x : ℝ, Is (wordScore O freqs total size i) x ∧
      |x - Real.log (idProb freqs total size i)| ≤ 8 * u * Real.log ((total + size : Int) : ℝ) ∧
      |Real.log (idProb freqs total size i)| ≤ Real.log ((total + size : Int) : ℝ) := by
  set T : Int := total + size
  have hT1 : 1 ≤ T := by omega
  have hT : (1 : ℝ) ≤ (T : ℝ) := by exact_mod_cast hT1
  have lT := Real.log_nonneg hT
  set f : Int := (freqs[i.toNat]?).getD 0
  have f0 : 0 ≤ f ∧ f ≤ total := by
    cases h : freqs[i.toNat]? with
    | none => simp [f, h, ht]
    | some g => simpa [f, h] using hf g (List.mem_of_getElem? h)
  have g1 : (1 : ℝ) ≤ ((f + 1 : Int) : ℝ) := by exact_mod_cast (by omega : (1 : Int) ≤ f + 1)
  have g2 : ((f + 1 : Int) : ℝ) ≤ (T : ℝ) := by exact_mod_cast (by omega : f + 1 ≤ T)
  have hp : idProb freqs total size i = ((f + 1 : Int) : ℝ) / (T : ℝ) := by simp [idProb, f, T]
  have hlog : Real.log (idProb freqs total size i) = Real.log ((f + 1 : Int) : ℝ) - Real.log (T : ℝ) := by
    rw [hp, Real.log_div (by linarith) (by linarith)]
  have lg1 := Real.log_nonneg g1
  have lg2 := Real.log_le_log (by linarith) g2
  have hM : |Real.log (idProb freqs total size i)| ≤ Real.log (T : ℝ) := by
    rw [hlog, abs_le]
    constructor <;> linarith
  obtain ⟨b, hb, ea⟩ := A.log T hT1 hN
  -- the first operand of the subtraction, with its error
  obtain ⟨a, ha, hae⟩ : ∃ a : ℝ, Is (match freqs[i.toNat]? with
        | some f => O.log (O.ofInt (f + 1))
        | none => O.ofInt 0) a ∧ |a - Real.log ((f + 1 : Int) : ℝ)| ≤ 3 * u * Real.log (T : ℝ) := by
    cases h : freqs[i.toNat]? with
    | none =>
      refine ⟨0, ?_, ?_⟩
      · simpa using A.int 0 le_rfl (by omega)
      · have : f = 0 := by simp [f, h]
        simp only [this, zero_add, Int.cast_one, Real.log_one, sub_zero, abs_zero]
        positivity
    | some g =>
      have : f = g := by simp [f, h]
      rw [← this]
      obtain ⟨y, h1, h2⟩ := A.log (f + 1) (by omega) (by omega)
      exact ⟨y, h1, h2.trans (mul_le_mul_of_nonneg_left lg2 (by linarith))⟩
  have hd : |(a - b) - Real.log (idProb freqs total size i)| ≤ 6 * u * Real.log (T : ℝ) := by
    rw [hlog]
    calc _ = |(a - Real.log ((f + 1 : Int) : ℝ)) - (b - Real.log (T : ℝ))| := by ring_nf
      _ ≤ |a - Real.log ((f + 1 : Int) : ℝ)| + |b - Real.log (T : ℝ)| := abs_sub _ _
      _ ≤ _ := by linarith
  have hu6 : 6 * u * Real.log (T : ℝ) ≤ 1 * Real.log (T : ℝ) := mul_le_mul_of_nonneg_right (by linarith) lT
  obtain ⟨z, hz, he⟩ := A.sub ha hb ((abs_le_of_near hd hM).trans (by linarith))
  refine ⟨z, hz, (near_of hu he hd hM).trans ?_, hM⟩
  have : 6 * u * Real.log (T : ℝ) + u * (Real.log (T : ℝ) + 6 * u * Real.log (T : ℝ)) = (7 * u + 6 * u * u) * Real.log (T : ℝ) := by ring
  rw [this]
  exact mul_le_mul_of_nonneg_right (by nlinarith) lT

theorem idProb_pos {freqs : List Int} {total : Int} {size : Nat} (hs : 0 < size) (hf : ∀ f ∈ freqs, 0 ≤ f) (ht : 0 ≤ total) (i : Int) :
    0 < idProb freqs total size i := (wordScore_real hf ht hs i).1

/-- The computed score of a parse is close to the logarithm of its probability. -/
theorem parseScore_err (A : NearOps O Is u B N) (hu : 0 ≤ u) (h8 : u ≤ 1 / 8) {freqs : List Int}
    {total : Int} {size : Nat} (hs : 0 < size) (hf : ∀ f ∈ freqs, 0 ≤ f ∧ f ≤ total) (ht : 0 ≤ total) (hN : total + size ≤ N) (ids : List Int)
    (hn : u * ((ids.length : ℝ) ^ 2 + 10 * ids.length) ≤ 1) (hB : ((ids.length : ℝ) + 2) * Real.log ((total + size : Int) : ℝ) ≤ B) :
    ∃ x : ℝ, Is (parseScore O freqs total size ids) x ∧
      |x - Real.log (parseProb freqs total size ids)| ≤
        u * ((ids.length : ℝ) ^ 2 + 10 * ids.length) * Real.log ((total + size : Int) : ℝ) := by
  have hf0 : ∀ f ∈ freqs, 0 ≤ f := fun f h => (hf f h).1
  set M := Real.log ((total + size : Int) : ℝ)
  have hM : 0 ≤ M := Real.log_nonneg (by exact_mod_cast (by omega : (1 : Int) ≤ total + size))
  induction ids using List.reverseRecOn with
  | nil => exact ⟨0, by simpa [parseScore] using A.int 0 le_rfl (by omega), by simp [parseProb]⟩
  | append_singleton ids i ih =>
    simp only [List.length_append, List.length_singleton, Nat.cast_add, Nat.cast_one] at hn hB ⊢
    set k : ℝ := (ids.length : ℝ)
    have hk : 0 ≤ k := Nat.cast_nonneg _
    have hk2 : u * (k ^ 2 + 10 * k) ≤ 1 := le_trans (mul_le_mul_of_nonneg_left (by nlinarith) hu) hn
    have hkM : 0 ≤ k * M := mul_nonneg hk hM
    obtain ⟨s, s1, s2⟩ := ih hk2 (by linarith)
    have h2B : 2 * M ≤ B := by linarith
    obtain ⟨w, w1, w2, w3⟩ := wordScore_err A hu h8 hs hf ht hN h2B i
    have hP := (parseScore_real hf0 ht hs ids).1
    have hp := idProb_pos hs hf0 ht i
    have hsum : Real.log (parseProb freqs total size (ids ++ [i])) =
        Real.log (parseProb freqs total size ids) + Real.log (idProb freqs total size i) := by
      simp only [parseProb, List.map_append, List.prod_append, List.map_cons, List.map_nil, List.prod_cons, List.prod_nil, mul_one]
      exact Real.log_mul hP.ne' hp.ne'
    -- the exact sum
    have hS : ∀ js : List Int, |Real.log (parseProb freqs total size js)| ≤ js.length * M := by
      intro js
      induction js with
      | nil => simp [parseProb]
      | cons j js ih =>
        obtain ⟨_, _, _, w3⟩ := wordScore_err A hu h8 hs hf ht hN h2B j
        have hj := idProb_pos hs hf0 ht j
        have hJ := (parseScore_real hf0 ht hs js).1
        have : Real.log (parseProb freqs total size (j :: js)) =
            Real.log (idProb freqs total size j) + Real.log (parseProb freqs total size js) := by
          simp only [parseProb, List.map_cons, List.prod_cons]
          exact Real.log_mul hj.ne' hJ.ne'
        rw [this, List.length_cons]
        push_cast
        calc _ ≤ _ := abs_add_le _ _
          _ ≤ M + js.length * M := add_le_add w3 ih
          _ = _ := by ring
    have hd : |(s + w) - Real.log (parseProb freqs total size (ids ++ [i]))| ≤ u * (k ^ 2 + 10 * k) * M + 8 * u * M := by
      rw [hsum]
      calc _ = |(s - Real.log (parseProb freqs total size ids)) + (w - Real.log (idProb freqs total size i))| := by ring_nf
        _ ≤ _ := abs_add_le _ _
        _ ≤ _ := add_le_add s2 w2
    have hy := hS (ids ++ [i])
    simp only [List.length_append, List.length_singleton, Nat.cast_add, Nat.cast_one] at hy
    have e0 : u * (k ^ 2 + 10 * k) * M ≤ 1 * M := mul_le_mul_of_nonneg_right hk2 hM
    have e0' : 8 * u * M ≤ 1 * M := mul_le_mul_of_nonneg_right (by linarith) hM
    have e00 : u * (k ^ 2 + 10 * k) * M + 8 * u * M ≤ M := by
      have : (u * (k ^ 2 + 10 * k) + 8 * u) * M ≤ 1 * M := mul_le_mul_of_nonneg_right (by nlinarith) hM
      linarith
    obtain ⟨z, hz, he⟩ := A.add s1 w1 ((abs_le_of_near hd hy).trans (by linarith))
    refine ⟨z, ?_, ?_⟩
    · unfold parseScore at hz ⊢
      rw [List.foldl_append, List.foldl_cons, List.foldl_nil]
      exact hz
    · refine (near_of hu he hd hy).trans ?_
      have e1 : u * (u * (k ^ 2 + 10 * k) * M) ≤ u * M := by
        have := mul_le_mul_of_nonneg_left e0 hu
        linarith
      have e2 : u * (8 * u * M) ≤ u * M := by
        have := mul_le_mul_of_nonneg_left e0' hu
        linarith
      have huM : 0 ≤ u * M := mul_nonneg hu hM
      have e3 : 0 ≤ u * M * k := mul_nonneg huM hk
      nlinarith

/-- What the comparison of computed scores says about the exact probabilities. -/
theorem near (A : NearOps O Is u B N) (hu : 0 ≤ u) (h8 : u ≤ 1 / 8) {freqs : List Int}
    {total : Int} {size n : Nat} (hs : 0 < size) (hf : ∀ f ∈ freqs, 0 ≤ f ∧ f ≤ total) (ht : 0 ≤ total) (hN : total + size ≤ N) {ids ids' : List Int}
    (hn : u * ((n : ℝ) ^ 2 + 10 * n) ≤ 1) (hB : ((n : ℝ) + 2) * Real.log ((total : ℝ) + size) ≤ B) (h1 : ids.length ≤ n) (h2 : ids'.length ≤ n)
    (h : O.lt (parseScore O freqs total size ids) (parseScore O freqs total size ids') = false) :
    parseProb freqs total size ids' ≤
      Real.exp (2 * u * ((n : ℝ) ^ 2 + 10 * n) * Real.log ((total : ℝ) + size)) * parseProb freqs total size ids := by
  have hf0 : ∀ f ∈ freqs, 0 ≤ f := fun f h => (hf f h).1
  have e : ((total + size : Int) : ℝ) = (total : ℝ) + size := by push_cast; rfl
  rw [← e] at hB
  have hM : 0 ≤ Real.log ((total + size : Int) : ℝ) := Real.log_nonneg (by exact_mod_cast (by omega : (1 : Int) ≤ total + size))
  have mono : ∀ {k : Nat}, k ≤ n → u * ((k : ℝ) ^ 2 + 10 * k) ≤ u * ((n : ℝ) ^ 2 + 10 * n) := by
    intro k hk
    have hk' : (k : ℝ) ≤ n := by exact_mod_cast hk
    have h0 : (0 : ℝ) ≤ k := Nat.cast_nonneg _
    exact mul_le_mul_of_nonneg_left (by nlinarith) hu
  have bound : ∀ {k : Nat}, k ≤ n → ((k : ℝ) + 2) * Real.log ((total + size : Int) : ℝ) ≤ B := by
    intro k hk
    have hk' : (k : ℝ) ≤ n := by exact_mod_cast hk
    exact (mul_le_mul_of_nonneg_right (by linarith) hM).trans hB
  obtain ⟨x, x1, x2⟩ := parseScore_err A hu h8 hs hf ht hN ids ((mono h1).trans hn) (bound h1)
  obtain ⟨y, y1, y2⟩ := parseScore_err A hu h8 hs hf ht hN ids' ((mono h2).trans hn) (bound h2)
  have x3 := x2.trans (mul_le_mul_of_nonneg_right (mono h1) hM)
  have y3 := y2.trans (mul_le_mul_of_nonneg_right (mono h2) hM)
  have hxy : y ≤ x := A.lt x1 y1 h
  have p1 := (parseScore_real hf0 ht hs ids).1
  have p2 := (parseScore_real hf0 ht hs ids').1
  rw [← Real.log_le_log_iff p2 (mul_pos (Real.exp_pos _) p1), Real.log_mul (Real.exp_pos _).ne' p1.ne', Real.log_exp]
  rw [e] at x3 y3
  have := (abs_le.1 x3).2
  have := (abs_le.1 y3).1
  linarith

/-- C79 for arithmetic given by laws. -/
theorem nearly_parse (A : NearOps O Is u B N) (S : ScoreLaws O) (Q : OrderLaws O) (hu : 0 ≤ u) (h8 : u ≤ 1 / 8)
    (l : List IntSeq) (hnd : l.Nodup) (hne : [] ∉ l) (d : IntDict) (h : IntDict.init l = .ok d)
    (seq : IntSeq) (hk : Knows d.seqs seq) (freqs : List Int) (total : Int) (hf : ∀ f ∈ freqs, 0 ≤ f ∧ f ≤ total) (ht : 0 ≤ total)
    (hN : total + d.seqs.length ≤ N) (hn : u * ((seq.length : ℝ) ^ 2 + 10 * seq.length) ≤ 1)
    (hB : ((seq.length : ℝ) + 2) * Real.log ((total : ℝ) + d.seqs.length) ≤ B) (out : List Int) :
    ∃ ids, d.parse O seq freqs total out = .ok (d, out ++ ids, ((out ++ ids).length : Int)) ∧
      Spells d.seqs ids seq ∧ ∀ ids', Spells d.seqs ids' seq → parseProb freqs total d.seqs.length ids' ≤
        Real.exp (2 * u * ((seq.length : ℝ) ^ 2 + 10 * seq.length) * Real.log ((total : ℝ) + d.seqs.length)) *
          parseProb freqs total d.seqs.length ids := by
  obtain ⟨ids, h1, h2, h3⟩ := C10_weighted_optimal O S Q l hnd hne d
    h seq hk freqs (fun f hm => (hf f hm).1) total ht out
  refine ⟨ids, h1, h2, fun ids' h' => ?_⟩
  obtain ⟨d', q1, q2, _⟩ := C01_init_sorted_perm l
  rw [h] at q1
  cases q1
  have hw : ∀ w ∈ d.seqs, w ≠ [] := fun w hw e => hne (e ▸ q2.mem_iff.1 hw)
  by_cases hs : 0 < d.seqs.length
  · exact near A hu h8 hs hf ht hN hn hB (Spec.Spells.length_le hw h2) (Spec.Spells.length_le hw h') (h3 ids' h')
  · have hnil : d.seqs = [] := List.length_eq_zero_iff.1 (by omega)
    have none : ∀ is, Spells d.seqs is seq → is = [] := by
      rintro is ⟨ws, a, _⟩
      cases a with
      | nil => rfl
      | cons a => have := a.2; simp [hnil] at this
    have hseq : seq = [] := by
      obtain ⟨ws, a, b⟩ := none ids h2 ▸ h2
      cases a
      simpa using b
    rw [none ids h2, none ids' h', hseq]
    simp

/-- C79 for stream models and arithmetic given by laws. -/
theorem nearly_stream (E : Env F) (A : NearOps E.ops Is u B N) (L : EnvLaws E) (S : ScoreLaws E.ops) (Q : OrderLaws E.ops) (hu : 0 ≤ u) (h8 : u ≤ 1 / 8)
    (m0 : Stream F) (vals : List Int) (calls : List Call) (h : Admissible E.ops m0 vals calls true) (hn : Covered E m0 vals calls) :
    ∃ m ws, run E m0 calls = .ok m ∧ m.alphabet = .ok ws ∧
      (m.freqs.sum + ws.length ≤ N → ∀ seq, (∀ x ∈ seq, x ∈ vals ++ accepted calls → [x] ∈ ws) →
        u * ((seq.length : ℝ) ^ 2 + 10 * seq.length) ≤ 1 → ((seq.length : ℝ) + 2) * Real.log ((m.freqs.sum : ℝ) + ws.length) ≤ B →
        ∃ ids, m.parse E.ops seq = .ok (m, ids) ∧
          Spells ws ids (seq.filter fun x => decide (x ∈ vals ++ accepted calls)) ∧
          ∀ ids', Spells ws ids' (seq.filter fun x => decide (x ∈ vals ++ accepted calls)) →
            parseProb m.freqs m.freqs.sum ws.length ids' ≤
              Real.exp (2 * u * ((seq.length : ℝ) ^ 2 + 10 * seq.length) * Real.log ((m.freqs.sum : ℝ) + ws.length)) *
                parseProb m.freqs m.freqs.sum ws.length ids) := by
  obtain ⟨m, ws, h1, h2, h3, h4⟩ := C73_best_score _ L S Q m0 vals calls h hn
  have hw : ∀ w ∈ ws, w ≠ [] := by
    obtain ⟨m', r1, inv, hd, _⟩ := h.inv L S
    rw [h1] at r1
    cases r1
    obtain ⟨d, d1, d2⟩ := inv.getDict (hd rfl)
    have ha := inv.alphabet d1 d2
    rw [h2] at ha
    cases ha
    intro w hw e
    obtain ⟨v, hv, rfl⟩ := List.mem_map.1 hw
    exact ((h.sorted L S hn h1).getDict d1).nonempty v hv (List.map_eq_nil_iff.1 e)
  refine ⟨m, ws, h1, h2, fun hN seq hk hs hB => ?_⟩
  obtain ⟨ids, g1, g2, g3⟩ := h4 seq hk
  refine ⟨ids, g1, g2, fun ids' h' => ?_⟩
  have hlen := List.length_filter_le (fun x => decide (x ∈ vals ++ accepted calls)) seq
  by_cases hp : 0 < ws.length
  · refine near A hu h8 hp (fun f hf => ⟨h3 f hf, List.single_le_sum h3 f hf⟩) (List.sum_nonneg h3) hN hs hB
      ((Spec.Spells.length_le hw g2).trans hlen) ((Spec.Spells.length_le hw h').trans hlen) (g3 ids' h')
  · have hnil : ws = [] := List.length_eq_zero_iff.1 (by omega)
    subst hnil
    have : ∀ is sq, Spells [] is sq → is = [] := by
      rintro is sq ⟨us, a, _⟩
      cases a with
      | nil => rfl
      | cons hx _ => obtain ⟨_, hx⟩ := hx; simp at hx
    rw [this ids _ g2, this ids' _ h']
    have h0 : (0 : ℝ) ≤ Real.log ((m.freqs.sum : ℝ) + ([] : List IntSeq).length) := by
      simp only [List.length_nil, Nat.cast_zero, add_zero]
      exact Real.log_intCast_nonneg _
    have : (1 : ℝ) ≤ Real.exp (2 * u * ((seq.length : ℝ) ^ 2 + 10 * seq.length) * Real.log ((m.freqs.sum : ℝ) + ([] : List IntSeq).length)) :=
      Real.one_le_exp (by positivity)
    simpa [parseProb] using this

end

/-- Rounding without overflow. -/
theorem Accurate.near (A : Accurate rnd u N) (hl : LogAccurate lg u) (hu : 0 ≤ u) (h8 : u ≤ 1 / 8) (B : ℝ) :
    NearOps (Ext.rops rnd lg) (fun a x => a = .fin x) u B N where
  int n h0 h := by
    show Ext.fin (rnd n) = _
    rw [A.int n h0 h]
  log n h1 h := by
    have g1 : (1 : ℝ) ≤ (n : ℝ) := by exact_mod_cast h1
    have l0 := Real.log_nonneg g1
    refine ⟨rnd (lg n), ?_, ?_⟩
    · show Ext.round rnd (Ext.log lg (.fin (rnd (n : ℝ)))) = _
      rw [A.int n (by omega) h]
      simp only [Ext.log, if_pos (show (0 : ℝ) < (n : ℝ) by linarith), Ext.round]
    · have := near_of hu (A.err _) (hl n g1) (le_of_eq (abs_of_nonneg l0))
      have e : u * Real.log n + u * (Real.log n + u * Real.log n) = (2 * u + u * u) * Real.log n := by ring
      rw [e] at this
      exact this.trans (mul_le_mul_of_nonneg_right (by nlinarith) l0)
  add := by
    rintro _ _ x y rfl rfl _
    exact ⟨rnd (x + y), rfl, A.err _⟩
  sub := by
    rintro _ _ x y rfl rfl _
    exact ⟨rnd (x - y), by simp [Ext.rops, Ext.round, Ext.add, Ext.neg, sub_eq_add_neg], A.err _⟩
  lt := by
    rintro _ _ x y rfl rfl h
    simpa [Ext.rops, Ext.lt] using h

/-- **C79.** With rounding arithmetic (relative error `u` of every operation and of the logarithm, integers up to `N` exact) the
returned parse is nearly most probable: no parse has a product of smoothed probabilities `(freq + 1) / (total + size)` exceeding it by
more than the stated factor, which for doubles and short texts is 1 up to the last digits. -/
theorem C79_nearly_most_probable (R : Rounding rnd) (A : Accurate rnd u N) (hl : LogAccurate lg u) (hu : 0 ≤ u) (h8 : u ≤ 1 / 8)
    (l : List IntSeq) (hnd : l.Nodup) (hne : [] ∉ l) (d : IntDict) (h : IntDict.init l = .ok d)
    (seq : IntSeq) (hk : Knows d.seqs seq) (freqs : List Int) (total : Int) (hf : ∀ f ∈ freqs, 0 ≤ f ∧ f ≤ total) (ht : 0 ≤ total)
    (hN : total + d.seqs.length ≤ N) (hn : u * ((seq.length : ℝ) ^ 2 + 10 * seq.length) ≤ 1) (out : List Int) :
    ∃ ids, d.parse (Ext.rops rnd lg) seq freqs total out = .ok (d, out ++ ids, ((out ++ ids).length : Int)) ∧
      Spells d.seqs ids seq ∧ ∀ ids', Spells d.seqs ids' seq → parseProb freqs total d.seqs.length ids' ≤
        Real.exp (2 * u * ((seq.length : ℝ) ^ 2 + 10 * seq.length) * Real.log ((total : ℝ) + d.seqs.length)) *
          parseProb freqs total d.seqs.length ids :=
  nearly_parse (A.near hl hu h8 _) (Ext.rscoreLaws R lg) (Ext.rorderLaws R lg) hu h8 l hnd hne d h seq hk freqs total hf ht hN hn le_rfl out

/-- C79 for stream models: as C73, with rounding arithmetic. -/
theorem C79_stream_nearly_most_probable (R : Rounding rnd) (A : Accurate rnd u N) (hl : LogAccurate lg u) (hu : 0 ≤ u) (h8 : u ≤ 1 / 8)
    (srt : List (StatItem (Ext ℝ)) → List (StatItem (Ext ℝ))) (ord : PairMap → PairMap) (gam : List (Ext ℝ) → Nat → Ext ℝ)
    (L : EnvLaws (Ext.renv rnd lg srt ord gam)) (m0 : Stream (Ext ℝ)) (vals : List Int) (calls : List Call)
    (h : Admissible (Ext.rops rnd lg) m0 vals calls true) (hn : Covered (Ext.renv rnd lg srt ord gam) m0 vals calls) :
    ∃ m ws, run (Ext.renv rnd lg srt ord gam) m0 calls = .ok m ∧ m.alphabet = .ok ws ∧
      (m.freqs.sum + ws.length ≤ N → ∀ seq, (∀ x ∈ seq, x ∈ vals ++ accepted calls → [x] ∈ ws) →
        u * ((seq.length : ℝ) ^ 2 + 10 * seq.length) ≤ 1 → ∃ ids, m.parse (Ext.rops rnd lg) seq = .ok (m, ids) ∧
          Spells ws ids (seq.filter fun x => decide (x ∈ vals ++ accepted calls)) ∧
          ∀ ids', Spells ws ids' (seq.filter fun x => decide (x ∈ vals ++ accepted calls)) →
            parseProb m.freqs m.freqs.sum ws.length ids' ≤
              Real.exp (2 * u * ((seq.length : ℝ) ^ 2 + 10 * seq.length) * Real.log ((m.freqs.sum : ℝ) + ws.length)) *
                parseProb m.freqs m.freqs.sum ws.length ids) := by
  obtain ⟨m, ws, h1, h2, _⟩ := C73_best_score _ L (Ext.rscoreLaws R lg) (Ext.rorderLaws R lg) m0 vals calls h hn
  refine ⟨m, ws, h1, h2, fun hN seq hk hs => ?_⟩
  obtain ⟨m', ws', g1, g2, g3⟩ := nearly_stream (Ext.renv rnd lg srt ord gam) (A.near hl hu h8 (((seq.length : ℝ) + 2) * Real.log ((m.freqs.sum : ℝ) + ws.length)))
    L (Ext.rscoreLaws R lg) (Ext.rorderLaws R lg) hu h8 m0 vals calls h hn
  rw [h1] at g1
  cases g1
  rw [h2] at g2
  cases g2
  exact g3 hN seq hk hs le_rfl

/-! ## Doubles -/

theorem binary_accurate (p : Nat) : Accurate (binary p) (1 / 2 ^ (p + 1)) (2 ^ (p + 1)) where
  err x := by
    have := binary_err p x
    rwa [div_eq_mul_one_div, mul_comm] at this
  int n h0 h := binary_int p n h0 h

/-- C79 with 53-bit mantissas, rounding to nearest even and a correctly rounded logarithm, texts up to 60 million symbols. -/
theorem C79_doubles (l : List IntSeq) (hnd : l.Nodup) (hne : [] ∉ l) (d : IntDict) (h : IntDict.init l = .ok d)
    (seq : IntSeq) (hk : Knows d.seqs seq) (freqs : List Int) (total : Int) (hf : ∀ f ∈ freqs, 0 ≤ f ∧ f ≤ total) (ht : 0 ≤ total)
    (hN : total + d.seqs.length ≤ 2 ^ 53) (hn : seq.length ≤ 60000000) (out : List Int) :
    ∃ ids, d.parse (Ext.rops (binary 52) Real.log) seq freqs total out = .ok (d, out ++ ids, ((out ++ ids).length : Int)) ∧
      Spells d.seqs ids seq ∧ ∀ ids', Spells d.seqs ids' seq → parseProb freqs total d.seqs.length ids' ≤
        Real.exp (((seq.length : ℝ) ^ 2 + 10 * seq.length) / 2 ^ 52 * Real.log ((total : ℝ) + d.seqs.length)) *
          parseProb freqs total d.seqs.length ids := by
  have hlog : LogAccurate Real.log (1 / 2 ^ 53) := fun x hx => by
    rw [sub_self, abs_zero]
    have := Real.log_nonneg hx
    positivity
  have hn' : (seq.length : ℝ) ≤ 60000000 := by exact_mod_cast hn
  have h0 : (0 : ℝ) ≤ seq.length := Nat.cast_nonneg _
  obtain ⟨ids, q1, q2, q3⟩ := C79_nearly_most_probable (binary_rounding 52) (binary_accurate 52) hlog (by norm_num) (by norm_num) l hnd hne d h seq hk
    freqs total hf ht hN (by
      have : (seq.length : ℝ) ^ 2 ≤ 60000000 ^ 2 := pow_le_pow_left₀ h0 hn' 2
      rw [one_div, inv_mul_le_one₀ (by norm_num)]
      norm_num at this ⊢
      linarith) out
  refine ⟨ids, q1, q2, fun ids' h' => ?_⟩
  have e : 2 * (1 / 2 ^ (52 + 1)) * ((seq.length : ℝ) ^ 2 + 10 * seq.length) = ((seq.length : ℝ) ^ 2 + 10 * seq.length) / 2 ^ 52 := by
    ring
  rw [← e]
  exact q3 ids' h'

/-- `1/10` and a tie, rounded to a double. -/
example : binary 52 (1 / 10 : ℚ) = 3602879701896397 / 2 ^ 55 ∧ binary 52 (2 ^ 53 + 1 : ℚ) = 2 ^ 53 ∧ binary 52 (2 ^ 53 + 3 : ℚ) = 2 ^ 53 + 4 := by
  decide +kernel

/-- The hypotheses of C79 are met by two competing parses. -/
example : ∃ d ids, IntDict.init [[1], [2], [1, 2]] = .ok d ∧
    d.parse (Ext.rops (binary 52 : ℚ → ℚ) fun x => 1 - 1 / x) [1, 2, 1] [1, 5, 1] 7 [] = .ok (d, ids, 2) ∧ ids = [1, 0] ∧
    Knows d.seqs [1, 2, 1] ∧ Spells d.seqs [1, 0] [1, 2, 1] ∧ Spells d.seqs [0, 2, 0] [1, 2, 1] :=
  ⟨⟨[[1], [1, 2], [2]], [-1, 0, -1]⟩, _, by decide, by decide +kernel, rfl, by unfold Knows; decide,
    ⟨[[1, 2], [1]], by repeat' constructor, rfl⟩, ⟨[[1], [2], [1]], by repeat' constructor, rfl⟩⟩

/-- Doubles with any sort, hash order and gamma variates. -/
noncomputable def doubleEnv (srt : List (StatItem (Ext ℝ)) → List (StatItem (Ext ℝ))) (ord : PairMap → PairMap)
    (gam : List (Ext ℝ) → Nat → ℝ) : Env (Ext ℝ) := Ext.renv (binary 52) Real.log srt ord fun ps i => .fin (gam ps i)

/-- They satisfy the laws of the environment. -/
noncomputable def doubleLaws {srt : List (StatItem (Ext ℝ)) → List (StatItem (Ext ℝ))} {ord : PairMap → PairMap} {gam : List (Ext ℝ) → Nat → ℝ}
    (L : RealLaws srt ord gam) : EnvLaws (doubleEnv srt ord gam) :=
  Ext.renvLaws (binary_rounding 52) Real.log srt ord _ L.sort L.order fun ps i => ⟨_, L.gamma ps i, rfl⟩

/-- C38 in double arithmetic: after any admissible history that published a dictionary, `parse` succeeds and is lossless. -/
theorem C38_doubles {srt : List (StatItem (Ext ℝ)) → List (StatItem (Ext ℝ))} {ord : PairMap → PairMap} {gam : List (Ext ℝ) → Nat → ℝ}
    (L : RealLaws srt ord gam) (m0 : Stream (Ext ℝ)) (vals : List Int) (calls : List Call)
    (h : Admissible (doubleEnv srt ord gam).ops m0 vals calls true) : ∃ m, run (doubleEnv srt ord gam) m0 calls = .ok m ∧
      ∀ seq, ∃ m' ids ws ws', m.parse (doubleEnv srt ord gam).ops seq = .ok (m', ids) ∧ m.alphabet = .ok ws ∧ m'.alphabet = .ok ws' ∧ ws <+: ws' ∧
        Spells ws' ids (seq.filter fun x => decide (x ∈ vals ++ accepted calls)) :=
  C38_parse_total _ (doubleLaws L) (Ext.rscoreLaws (binary_rounding 52) Real.log) m0 vals calls h

/-- Training in rational floating-point arithmetic: a word is learned, the variates being the parameters themselves. -/
example : (do
    let E := Ext.renv (binary 52 : ℚ → ℚ) (fun x => (x - 1) / 10000) (insSort (Ext.ops ℚ fun x => x)) (fun p => p) fun ps i => ps.getD i (.fin 1)
    let m ← run E (Stream.new E.ops 4) [.accept [5, 6], .update, .accept [5, 6, 5, 6], .update]
    let (m', ids) ← m.parse E.ops [6, 5, 6]
    let ws ← m'.alphabet
    pure (ids, ws) : M (List Int × List IntSeq)) = .ok ([2, 1], [[5], [5, 6], [6]]) := by decide +kernel

end VGram.Props
