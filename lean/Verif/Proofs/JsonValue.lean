import Mathlib.Tactic.Linarith
import Mathlib.Tactic.Ring
import Mathlib.Tactic.FieldSimp
import Mathlib.Tactic.Positivity
import Mathlib.Algebra.Order.Field.Power
import Verif.Proofs.Decimal
import Verif.Proofs.JsonNum

/-!
# Lemmas about the values of the numbers in a file
-/

namespace VGram

variable {F : Type}

open _root_.VGram.Lex Dump Spec

theorem numeral_append (s t : Str) : numeral (s ++ t) = numeral s * 10 ^ t.length + numeral t := by
  induction t using List.reverseRecOn with
  | nil => simp [numeral]
  | append_singleton t c ih =>
    rw [← List.append_assoc, numeral_snoc, ih, numeral_snoc, List.length_append, List.length_singleton, pow_succ]
    ring

theorem numeral_zeros (n : Nat) : numeral (List.replicate n '0') = 0 := by
  induction n with
  | zero => rfl
  | succ n ih => rw [List.replicate_succ', numeral_snoc, ih]; rfl

theorem numeral_lt {s : Str} (h : ∀ c ∈ s, IsDigit c) : numeral s < 10 ^ s.length := by
  induction s using List.reverseRecOn with
  | nil => simp [numeral]
  | append_singleton s c ih =>
    have h1 := ih fun d hd => h d (by simp [hd])
    have h2 := h c (by simp)
    unfold IsDigit at h2
    rw [numeral_snoc, List.length_append, List.length_singleton, pow_succ]
    omega

theorem digit_isDigit {k : Nat} (h : k < 10) : IsDigit (digit k) ∧ (digit k).toNat - 48 = k := by
  obtain ⟨h1, h2, _⟩ := digit_spec h
  simp only [isDigit, Bool.and_eq_true, decide_eq_true_eq] at h1
  exact ⟨h1, h2⟩

theorem isDigit_zero : IsDigit '0' := by unfold IsDigit; decide

theorem appendExponent_isExp {e : Int} (h : -1000 < e ∧ e < 1000) : ∃ sg ds, (sg = '+' ∨ sg = '-') ∧ ds ≠ [] ∧ (∀ d ∈ ds, IsDigit d) ∧ ds.length ≤ 3 ∧
    appendExponent e = sg :: ds ∧ IsExp ('e' :: appendExponent e) e := by
  obtain ⟨ds, h0, h1, h2, h3, h4⟩ : ∃ ds, ds ≠ [] ∧ (∀ d ∈ ds, IsDigit d) ∧ ds.length ≤ 3 ∧ numeral ds = e.natAbs ∧
      appendExponent e = (if e < 0 then '-' else '+') :: ds := by
    refine ⟨_, ?_, ?_, ?_, ?_, rfl⟩
    · split
      · simp
      · split <;> simp
    · split
      · intro d hd
        simp only [List.mem_cons, List.not_mem_nil, or_false] at hd
        rcases hd with rfl | rfl
        · exact isDigit_zero
        · exact (digit_isDigit (by omega)).1
      · split <;>
        · intro d hd
          simp only [List.mem_cons, List.not_mem_nil, or_false] at hd
          rcases hd with rfl | rfl | rfl <;> exact (digit_isDigit (by omega)).1
    · split
      · simp
      · split <;> simp
    · split
      · simp only [numeral, List.foldl_cons, List.foldl_nil, (digit_isDigit (show e.natAbs < 10 by omega)).2]
        have : '0'.toNat = 48 := by decide
        omega
      · split
        · simp only [numeral, List.foldl_cons, List.foldl_nil, (digit_isDigit (show e.natAbs / 10 < 10 by omega)).2,
            (digit_isDigit (show e.natAbs % 10 < 10 by omega)).2]
          omega
        · simp only [numeral, List.foldl_cons, List.foldl_nil, (digit_isDigit (show e.natAbs / 100 < 10 by omega)).2,
            (digit_isDigit (show e.natAbs % 100 / 10 < 10 by omega)).2, (digit_isDigit (show e.natAbs % 100 % 10 < 10 by omega)).2]
          omega
  refine ⟨_, ds, ?_, h0, h1, h2, h4, ?_⟩
  · split <;> simp
  · rw [h4]
    by_cases he : e < 0
    · rw [if_pos he]
      have := IsExp.minus 'e' ds (Or.inl rfl) h0 h1
      rwa [h3, show -(e.natAbs : Int) = e by omega] at this
    · rw [if_neg he]
      have := IsExp.plus 'e' ['+'] ds (Or.inl rfl) (Or.inr rfl) h0 h1
      rwa [h3, show (e.natAbs : Int) = e by omega] at this

/-- The parts of a number written by `to_chars`. -/
def Parts (t : Str) (v : ℚ) : Prop := ∃ a f b x : Str, ∃ e : Int, t = a ++ (f ++ x) ∧ a ≠ [] ∧ (∀ c ∈ a, IsDigit c) ∧ (∀ c ∈ b, IsDigit c) ∧ a.length ≤ 16 ∧
  ((f = [] ∧ b = []) ∨ (f = '.' :: b ∧ b ≠ [])) ∧ IsExp x e ∧ v = (numeral (a ++ b) : ℚ) * 10 ^ (e - b.length) ∧
  (x = [] ∨ ∃ sg ds, (sg = '+' ∨ sg = '-') ∧ x = 'e' :: sg :: ds ∧ (∀ d ∈ ds, IsDigit d) ∧ ds.length ≤ 3)

theorem Parts.denotes {t : Str} {v : ℚ} (h : Parts t v) (neg : Bool) : Denotes ((if neg then ['-'] else []) ++ t) neg v := by
  obtain ⟨a, f, b, x, e, rfl, h1, h2, h3, _, h5, h6, rfl, _⟩ := h
  exact .mk neg a f b x e h1 h2 h3 h5 h6

theorem formatBuffer_parts {buf : Str} {e : Int} (h0 : buf ≠ []) (hd : ∀ c ∈ buf, IsDigit c) (he : -1000 < (buf.length : Int) + e - 1 ∧ (buf.length : Int) + e - 1 < 1000) :
    Parts (formatBuffer buf e (-4) 15) ((numeral buf : ℚ) * 10 ^ e) := by
  have z : IsDigit '0' := isDigit_zero
  have hl : 0 < buf.length := List.length_pos_of_ne_nil h0
  have t0 : (10 : ℚ) ≠ 0 := by norm_num
  unfold formatBuffer
  simp only
  generalize hn : (buf.length : Int) + e = n at he ⊢
  split
  · next h1 =>
    refine ⟨buf ++ List.replicate (n - buf.length).toNat '0', ['.', '0'], ['0'], [], 0, by simp, by simp [h0], ?_, by simp [z], ?_, Or.inr ⟨rfl, by simp⟩, .none, ?_, Or.inl rfl⟩
    · intro c hc
      rcases List.mem_append.1 hc with h | h
      · exact hd c h
      · rw [List.eq_of_mem_replicate h]; exact z
    · simp only [List.length_append, List.length_replicate]; omega
    · rw [numeral_append, numeral_append, numeral_zeros]
      obtain ⟨k, rfl⟩ : ∃ k : Nat, e = k := ⟨e.toNat, by omega⟩
      have : (n - buf.length).toNat = k := by omega
      rw [this]
      simp only [List.length_replicate, List.length_singleton, Nat.cast_one]
      have : numeral ['0'] = 0 := by decide
      rw [this]
      push_cast
      rw [zpow_natCast, zpow_neg_one]
      field_simp
      ring
  · next h1 =>
    split
    · next h2 =>
      have hn' : n.toNat < buf.length := by omega
      refine ⟨buf.take n.toNat, '.' :: buf.drop n.toNat, buf.drop n.toNat, [], 0, by simp, ?_, fun c hc => hd c (List.mem_of_mem_take hc), fun c hc => hd c (List.mem_of_mem_drop hc),
        ?_, Or.inr ⟨rfl, ?_⟩, .none, ?_, Or.inl rfl⟩
      · intro h; rw [List.take_eq_nil_iff] at h; rcases h with h | h
        · omega
        · exact h0 h
      · rw [List.length_take]; omega
      · intro h; rw [List.drop_eq_nil_iff] at h; omega
      · rw [List.take_append_drop, List.length_drop]
        congr 2
        omega
    · split
      · next h3 =>
        refine ⟨['0'], '.' :: (List.replicate (-n).toNat '0' ++ buf), List.replicate (-n).toNat '0' ++ buf, [], 0, by simp, by simp, by simp [z], ?_, by simp, Or.inr ⟨rfl, by simp [h0]⟩,
          .none, ?_, Or.inl rfl⟩
        · intro c hc
          rcases List.mem_append.1 hc with h | h
          · rw [List.eq_of_mem_replicate h]; exact z
          · exact hd c h
        · rw [numeral_append, numeral_append, numeral_zeros]
          have : numeral ['0'] = 0 := by decide
          rw [this, Nat.zero_mul, Nat.zero_mul, Nat.zero_add, Nat.zero_add]
          simp only [List.length_append, List.length_replicate]
          congr 2
          omega
      · obtain ⟨sg, ds, e1, _, e2, e3, e4, e5⟩ := appendExponent_isExp (e := n - 1) (by omega)
        split
        · next h4 =>
          refine ⟨buf, [], [], 'e' :: appendExponent (n - 1), n - 1, by simp, h0, hd, by simp, by omega, Or.inl ⟨rfl, rfl⟩, e5, ?_, Or.inr ⟨sg, ds, e1, by rw [e4], e2, e3⟩⟩
          rw [List.append_nil]
          congr 2
          simp only [List.length_nil]
          omega
        · next h4 =>
          refine ⟨buf.take 1, '.' :: buf.drop 1, buf.drop 1, 'e' :: appendExponent (n - 1), n - 1, by simp, ?_, fun c hc => hd c (List.mem_of_mem_take hc),
            fun c hc => hd c (List.mem_of_mem_drop hc), ?_, Or.inr ⟨rfl, ?_⟩, e5, ?_, Or.inr ⟨sg, ds, e1, by rw [e4], e2, e3⟩⟩
          · intro h; rw [List.take_eq_nil_iff] at h; rcases h with h | h
            · omega
            · exact h0 h
          · rw [List.length_take]; omega
          · intro h; rw [List.drop_eq_nil_iff] at h; omega
          · rw [List.take_append_drop, List.length_drop]
            congr 2
            omega

theorem toChars_parts {O : FloatOps F} {T : TextOps F} (L : TextLaws O T) {x : F} (h : O.isFinite x = true) :
    ∃ t v, Parts t v ∧ toChars T x = (if T.signbit x then ['-'] else []) ++ t ∧ v = if T.isZero x then 0 else (numeral (T.grisu x).1 : ℚ) * 10 ^ (T.grisu x).2 := by
  refine ⟨_, _, ?_, rfl, rfl⟩
  cases hz : T.isZero x with
  | true =>
    refine ⟨['0'], ['.', '0'], ['0'], [], 0, rfl, by simp, by simp [isDigit_zero], by simp [isDigit_zero], by decide, Or.inr ⟨rfl, by simp⟩, .none, ?_, Or.inl rfl⟩
    have : numeral (['0'] ++ ['0']) = 0 := by decide
    rw [this]
    simp
  | false =>
    simp only [Bool.false_eq_true, if_false]
    obtain ⟨d1, _, d3⟩ := L.digits x h hz
    exact formatBuffer_parts d1 d3 (L.exponent x h hz)

/-- What `to_chars` has written is read back. -/
theorem strtod_toChars {O : FloatOps F} {T : TextOps F} (L : TextLaws O T) {x : F} (h : O.isFinite x = true) : T.strtod (toChars T x) = x := by
  obtain ⟨t, v, h1, h2, h3⟩ := toChars_parts L h
  rw [h2]
  cases hz : T.isZero x with
  | true =>
    rw [hz, if_pos rfl] at h3
    subst h3
    exact L.zero x h hz _ (h1.denotes _)
  | false =>
    rw [hz, if_neg (by simp)] at h3
    subst h3
    exact L.read x h hz _ (h1.denotes _)

/-- A number does not end with a point, a sign or an `e`. -/
theorem numAll_snoc {p : Str} {c : Char} {s : NMode × NType} (hc : c = '.' ∨ c = 'e' ∨ c = '+' ∨ c = '-') (h : numAll (p ++ [c]) = some s) : s.1.final = false := by
  have step : ∀ {m ty}, numStep m ty c = some s → s.1.final = false := by
    intro m ty h
    rcases hc with rfl | rfl | rfl | rfl <;> cases m <;> first | (cases h; rfl) | cases h
  cases p with
  | nil =>
    simp only [List.nil_append, numAll] at h
    rcases hc with rfl | rfl | rfl | rfl
    · cases h
    · cases h
    · cases h
    · cases h; rfl
  | cons d p =>
    simp only [List.cons_append, numAll] at h
    cases hs : numStart d with
    | none => rw [hs] at h; cases h
    | some s0 =>
      rw [hs] at h
      simp only at h
      obtain ⟨s1, h1⟩ := numRun_prefix h
      rw [numRun_append h1] at h
      simp only [numRun] at h
      cases h2 : numStep s1.1 s1.2 c with
      | none => rw [h2] at h; cases h
      | some s2 => rw [h2] at h; cases h; exact step h2

theorem prefix_append_cases {α : Type} {p u v : List α} (h : p <+: u ++ v) : p <+: u ∨ ∃ q, p = u ++ q ∧ q <+: v := by
  rcases List.prefix_or_prefix_of_prefix h (List.prefix_append u v) with h1 | ⟨q, rfl⟩
  · exact Or.inl h1
  · exact Or.inr ⟨q, rfl, List.prefix_append_right_inj u |>.1 h⟩

theorem value_small {a b : Str} (ha : ∀ c ∈ a, IsDigit c) (hb : ∀ c ∈ b, IsDigit c) (hl : a.length ≤ 16) {e : Int} (he : e < 100) :
    (numeral (a ++ b) : ℚ) * 10 ^ (e - b.length) < 10 ^ 300 := by
  have h1 : numeral (a ++ b) < 10 ^ (a.length + b.length) := by
    rw [← List.length_append]
    exact numeral_lt fun c hc => (List.mem_append.1 hc).elim (ha c) (hb c)
  have h2 : (numeral (a ++ b) : ℚ) < 10 ^ ((a.length + b.length : Nat) : Int) := by
    rw [zpow_natCast]
    exact_mod_cast h1
  have h3 : (0 : ℚ) < 10 ^ (e - b.length) := by positivity
  calc (numeral (a ++ b) : ℚ) * 10 ^ (e - b.length) < 10 ^ ((a.length + b.length : Nat) : Int) * 10 ^ (e - b.length) := by
        exact mul_lt_mul_of_pos_right h2 h3
    _ = 10 ^ ((a.length : Int) + e) := by
        rw [← zpow_add₀ (by norm_num)]
        congr 1
        push_cast
        ring
    _ ≤ 10 ^ ((300 : Nat) : Int) := by
        apply zpow_le_zpow_right₀ (by norm_num)
        omega
    _ = 10 ^ 300 := by rw [zpow_natCast]

/-- A number that has been cut off and is still a number is small. -/
theorem Parts.cut {t : Str} {v : ℚ} (h : Parts t v) (neg : Bool) {p : Str} (hp : p <+: (if neg then ['-'] else []) ++ t) {s : NMode × NType}
    (hs : numAll p = some s) (hf : s.1.final = true) : p = (if neg then ['-'] else []) ++ t ∨ ∃ w, Denotes p neg w ∧ w < 10 ^ 300 := by
  obtain ⟨a, f, b, x, e, rfl, h1, h2, h3, h4, h5, h6, rfl, h7⟩ := h
  have bad : ∀ {q : Str} {c : Char}, p = q ++ [c] → c = '.' ∨ c = 'e' ∨ c = '+' ∨ c = '-' → False := by
    intro q c hq hc
    rw [hq] at hs
    rw [numAll_snoc hc hs] at hf
    cases hf
  have nopoint : ∀ q : Str, q ≠ [] → q <+: a → Denotes ((if neg then ['-'] else []) ++ q) neg ((numeral (q ++ []) : ℚ) * 10 ^ (0 - (([] : Str).length : Int))) := by
    intro q hq hqa
    have := Denotes.mk neg q [] [] [] 0 hq (fun c hc => h2 c (hqa.subset hc)) (by simp) (Or.inl ⟨rfl, rfl⟩) .none
    simpa only [List.append_nil] using this
  rcases prefix_append_cases hp with hp | ⟨q, hq, hp'⟩
  · exfalso
    cases neg with
    | false =>
      rw [if_neg (by simp)] at hp
      rw [List.prefix_nil.1 hp] at hs
      cases hs
    | true =>
      rw [if_pos rfl] at hp
      rcases List.prefix_cons_iff.1 hp with rfl | ⟨r, rfl, hr⟩
      · cases hs
      · rw [List.prefix_nil.1 hr] at bad
        exact bad (q := []) rfl (by simp)
  subst hq
  clear hp
  rcases prefix_append_cases hp' with hp | ⟨q, rfl, hp⟩
  · cases q with
    | nil =>
      exfalso
      cases neg with
      | false => cases hs
      | true => exact bad (q := []) rfl (by simp)
    | cons d q =>
      refine Or.inr ⟨_, nopoint _ (by simp) hp, ?_⟩
      exact value_small (fun c hc => h2 c (hp.subset hc)) (by simp) (hp.length_le.trans h4) (by omega)
  rcases prefix_append_cases hp with hp | ⟨q, rfl, hp2⟩
  · rcases h5 with ⟨rfl, rfl⟩ | ⟨rfl, h5⟩
    · rw [List.prefix_nil.1 hp, List.append_nil]
      exact Or.inr ⟨_, nopoint a h1 (List.prefix_refl _), value_small h2 (by simp) h4 (by omega)⟩
    · rcases List.prefix_cons_iff.1 hp with rfl | ⟨r, rfl, hr⟩
      · rw [List.append_nil]
        exact Or.inr ⟨_, nopoint a h1 (List.prefix_refl _), value_small h2 (by simp) h4 (by omega)⟩
      · cases r with
        | nil => exact (bad (q := (if neg then ['-'] else []) ++ a) (c := '.') (by simp) (by simp)).elim
        | cons d r =>
          have hr' : ∀ c ∈ d :: r, IsDigit c := fun c hc => h3 c (hr.subset hc)
          have := Denotes.mk neg a ('.' :: d :: r) (d :: r) [] 0 h1 h2 hr' (Or.inr ⟨rfl, by simp⟩) .none
          rw [List.append_nil] at this
          exact Or.inr ⟨_, this, value_small h2 hr' h4 (by omega)⟩
  · have whole : Denotes ((if neg then ['-'] else []) ++ (a ++ (f ++ []))) neg ((numeral (a ++ b) : ℚ) * 10 ^ (0 - (b.length : Int))) := .mk neg a f b [] 0 h1 h2 h3 h5 .none
    rcases h7 with rfl | ⟨sg, ds, e1, rfl, e2, e3⟩
    · rw [List.prefix_nil.1 hp2]
      exact Or.inl rfl
    · rcases List.prefix_cons_iff.1 hp2 with rfl | ⟨r, rfl, hr⟩
      · exact Or.inr ⟨_, whole, value_small h2 h3 h4 (by omega)⟩
      rcases List.prefix_cons_iff.1 hr with rfl | ⟨r, rfl, hr2⟩
      · exact (bad (q := (if neg then ['-'] else []) ++ (a ++ f)) (c := 'e') (by simp) (by simp)).elim
      by_cases hd : r = ds
      · subst hd; exact Or.inl rfl
      have hr' : ∀ c ∈ r, IsDigit c := fun c hc => e2 c (hr2.subset hc)
      have hl : r.length ≤ 2 := by
        have := hr2.length_le
        have h : r.length ≠ ds.length := fun h => hd (hr2.eq_of_length h)
        omega
      have hv : numeral r < 100 := (numeral_lt hr').trans_le (Nat.pow_le_pow_right (by omega) hl)
      by_cases h0 : r = []
      · subst h0
        exact (bad (q := (if neg then ['-'] else []) ++ (a ++ (f ++ ['e']))) (c := sg) (by simp) (by rcases e1 with rfl | rfl <;> simp)).elim
      rcases e1 with rfl | rfl
      · exact Or.inr ⟨_, .mk neg a f b _ _ h1 h2 h3 h5 (.plus 'e' ['+'] r (Or.inl rfl) (Or.inr rfl) h0 hr'), value_small h2 h3 h4 (by omega)⟩
      · exact Or.inr ⟨_, .mk neg a f b _ _ h1 h2 h3 h5 (.minus 'e' r (Or.inl rfl) h0 hr'), value_small h2 h3 h4 (by omega)⟩

/-- A part of a number written by `to_chars`. -/
theorem strtod_cut {O : FloatOps F} {T : TextOps F} (L : TextLaws O T) {x : F} (h : O.isFinite x = true) {p : Str} (hp : p <+: toChars T x) {s : NMode × NType}
    (hs : numAll p = some s) (hf : s.1.final = true) : O.isFinite (T.strtod p) = true := by
  obtain ⟨t, v, h1, h2, _⟩ := toChars_parts L h
  rw [h2] at hp
  rcases h1.cut _ hp hs hf with e | ⟨w, h3, h4⟩
  · rw [e, ← h2, strtod_toChars L h, h]
  · exact L.small _ _ _ h3 h4

/-! ## Significant digits -/

theorem isDigit_ne {c : Char} (h : IsDigit c) (h0 : c ≠ '0') : 1 ≤ c.toNat - 48 ∧ c.toNat - 48 < 10 := by
  unfold IsDigit at h
  have : c.toNat ≠ 48 := fun e => h0 (Char.toNat_inj.1 (e.trans (by decide)))
  omega

/-- Digits that neither start nor end with `0`. -/
structure Strict (s : Str) : Prop where
  nonempty : s ≠ []
  digits : ∀ c ∈ s, IsDigit c
  head : s.head? ≠ some '0'
  last : s.getLast? ≠ some '0'

theorem Strict.mod {s : Str} (h : Strict s) : numeral s % 10 ≠ 0 := by
  rcases List.eq_nil_or_concat s with e | ⟨t, c, e⟩
  · exact absurd e h.nonempty
  · rw [List.concat_eq_append] at e
    subst e
    have h1 := isDigit_ne (h.digits c (by simp)) (fun e => h.last (by rw [e]; simp))
    rw [numeral_snoc]
    omega

theorem Strict.unique_le {s t : Str} (hs : Strict s) (ht : Strict t) {x y : Int} (hxy : x ≤ y) (h : (numeral s : ℚ) * 10 ^ x = (numeral t : ℚ) * 10 ^ y) : s = t := by
  obtain ⟨k, rfl⟩ : ∃ k : Nat, y = x + k := ⟨(y - x).toNat, by omega⟩
  rw [zpow_add₀ (by norm_num), mul_left_comm, mul_comm (numeral s : ℚ), zpow_natCast] at h
  have h1 := mul_left_cancel₀ (by positivity) h
  have h2 : numeral s = numeral t * 10 ^ k := by exact_mod_cast h1
  cases k with
  | succ k =>
    exfalso
    apply hs.mod
    rw [h2, pow_succ, ← mul_assoc, Nat.mul_mod_left]
  | zero =>
    rw [pow_zero, mul_one] at h2
    exact IsNumeral.unique ⟨hs.nonempty, hs.digits, fun h => absurd h hs.head, h2⟩ ⟨ht.nonempty, ht.digits, fun h => absurd h ht.head, rfl⟩

/-- A decimal number has one form without superfluous zeros. -/
theorem Strict.unique {s t : Str} (hs : Strict s) (ht : Strict t) {x y : Int} (h : (numeral s : ℚ) * 10 ^ x = (numeral t : ℚ) * 10 ^ y) : s = t := by
  rcases le_total x y with hxy | hxy
  · exact hs.unique_le ht hxy h
  · exact (ht.unique_le hs hxy h.symm).symm

/-- Digits without the zeros at both ends. -/
def strip (s : Str) : Str := ((s.dropWhile (· = '0')).reverse.dropWhile (· = '0')).reverse

theorem dropWhile_zeros (s : Str) : ∃ n, s = List.replicate n '0' ++ s.dropWhile (· = '0') := by
  induction s with
  | nil => exact ⟨0, rfl⟩
  | cons c s ih =>
    by_cases h : c = '0'
    · obtain ⟨n, hn⟩ := ih
      refine ⟨n + 1, ?_⟩
      rw [List.dropWhile_cons_of_pos (by simp [h]), List.replicate_succ, List.cons_append, ← hn, h]
    · exact ⟨0, by rw [List.dropWhile_cons_of_neg (by simp [h])]; rfl⟩

theorem dropWhile_head (s : Str) : (s.dropWhile (· = '0')).head? ≠ some '0' := by
  induction s with
  | nil => simp
  | cons c s ih =>
    by_cases h : c = '0'
    · rw [List.dropWhile_cons_of_pos (by simp [h])]; exact ih
    · rw [List.dropWhile_cons_of_neg (by simp [h])]; simp [h]

theorem strip_spec (s : Str) : ∃ i j, s = List.replicate i '0' ++ (strip s ++ List.replicate j '0') := by
  obtain ⟨i, hi⟩ := dropWhile_zeros s
  obtain ⟨j, hj⟩ := dropWhile_zeros (s.dropWhile (· = '0')).reverse
  refine ⟨i, j, ?_⟩
  have : s.dropWhile (· = '0') = strip s ++ List.replicate j '0' := by
    rw [← List.reverse_inj, List.reverse_append, List.reverse_replicate, strip, List.reverse_reverse, ← hj]
  rw [← this, ← hi]

theorem strip_strict {s : Str} (h : ∀ c ∈ s, IsDigit c) (h0 : strip s ≠ []) : Strict (strip s) := by
  obtain ⟨i, j, hs⟩ := strip_spec s
  refine ⟨h0, fun c hc => h c ?_, ?_, ?_⟩
  · rw [hs]; simp [hc]
  · have h1 := dropWhile_head s
    obtain ⟨n, hn⟩ := dropWhile_zeros (s.dropWhile (· = '0')).reverse
    have : s.dropWhile (· = '0') = strip s ++ List.replicate n '0' := by
      rw [← List.reverse_inj, List.reverse_append, List.reverse_replicate, strip, List.reverse_reverse, ← hn]
    rw [this, List.head?_append_of_ne_nil _ h0] at h1
    exact h1
  · rw [strip, List.getLast?_reverse]
    exact dropWhile_head _

theorem numeral_strip (s : Str) : ∃ j, numeral s = numeral (strip s) * 10 ^ j := by
  obtain ⟨i, j, hs⟩ := strip_spec s
  refine ⟨j, ?_⟩
  conv_lhs => rw [hs]
  rw [numeral_append, numeral_append, numeral_zeros, numeral_zeros, List.length_replicate]
  ring

/-- The significant digits of a number. -/
def significant (s : Str) : Str := strip ((s.takeWhile fun c => c ≠ 'e' ∧ c ≠ 'E').filter isDigit)

theorem significant_eq {s : Str} {neg : Bool} {v : ℚ} (h : Denotes s neg v) :
    (s.head? = some '-' ↔ neg = true) ∧ (v = 0 ∧ significant s = [] ∨ Strict (significant s) ∧ ∃ e : Int, v = (numeral (significant s) : ℚ) * 10 ^ e) := by
  obtain ⟨_, a, f, b, x, e, h1, h2, h3, h4, h5⟩ := h
  have dig : ∀ {c : Char}, IsDigit c → isDigit c = true ∧ c ≠ 'e' ∧ c ≠ 'E' ∧ c ≠ '-' := by
    intro c hc
    refine ⟨by simpa [isDigit, IsDigit] using hc, ?_, ?_, ?_⟩ <;>
    · rintro rfl
      revert hc
      unfold IsDigit
      decide
  have hsig : ((((if neg then ['-'] else []) ++ (a ++ (f ++ x))).takeWhile fun c => decide (c ≠ 'e' ∧ c ≠ 'E')).filter isDigit) = a ++ b := by
    have hx : x.takeWhile (fun c => decide (c ≠ 'e' ∧ c ≠ 'E')) = [] := by
      cases h5 with
      | none => rfl
      | plus c sg ds hc => rw [List.takeWhile_cons_of_neg (by rcases hc with rfl | rfl <;> simp)]
      | minus c ds hc => rw [List.takeWhile_cons_of_neg (by rcases hc with rfl | rfl <;> simp)]
    rw [List.takeWhile_append_of_pos (by intro c hc; cases neg <;> simp at hc; subst hc; decide), List.takeWhile_append_of_pos (by intro c hc; have := dig (h2 c hc); simp [this]),
      List.takeWhile_append_of_pos (by
        intro c hc
        rcases h4 with ⟨rfl, _⟩ | ⟨rfl, _⟩
        · cases hc
        · rcases List.mem_cons.1 hc with rfl | hc
          · decide
          · have := dig (h3 c hc); simp [this]), hx, List.append_nil, List.filter_append, List.filter_append,
      List.filter_eq_self.2 (fun c hc => (dig (h2 c hc)).1)]
    have e1 : (if neg then ['-'] else []).filter isDigit = [] := by cases neg <;> decide
    have e2 : f.filter isDigit = b := by
      rcases h4 with ⟨rfl, rfl⟩ | ⟨rfl, _⟩
      · rfl
      · rw [List.filter_cons_of_neg (by decide), List.filter_eq_self.2 (fun c hc => (dig (h3 c hc)).1)]
    rw [e1, e2, List.nil_append]
  constructor
  · cases neg with
    | true => simp
    | false =>
      cases a with
      | nil => exact absurd rfl h1
      | cons c a => have := (dig (h2 c (by simp))).2.2.2; simp [this]
  · have hab : ∀ c ∈ a ++ b, IsDigit c := fun c hc => (List.mem_append.1 hc).elim (h2 c) (h3 c)
    unfold significant
    rw [hsig]
    obtain ⟨j, hj⟩ := numeral_strip (a ++ b)
    by_cases h0 : strip (a ++ b) = []
    · left
      rw [hj, h0]
      exact ⟨by simp [numeral], rfl⟩
    · right
      refine ⟨strip_strict hab h0, j + (e - b.length), ?_⟩
      rw [hj, zpow_add₀ (by norm_num), zpow_natCast]
      push_cast
      ring

theorem Strict.value_ne {s : Str} (h : Strict s) (e : Int) : (numeral s : ℚ) * 10 ^ e ≠ 0 := by
  have h1 : numeral s ≠ 0 := fun h2 => h.mod (by rw [h2])
  have : (numeral s : ℚ) ≠ 0 := by exact_mod_cast h1
  positivity

theorem significant_of {s g : Str} {neg : Bool} {e : Int} (h : Denotes s neg ((numeral g : ℚ) * 10 ^ e)) (hg : Strict g) : significant s = g := by
  obtain ⟨_, ⟨h1, _⟩ | ⟨h1, e', h2⟩⟩ := significant_eq h
  · exact absurd h1 (hg.value_ne e)
  · exact h1.unique hg h2.symm

theorem significant_zero {s : Str} {neg : Bool} (h : Denotes s neg 0) : significant s = [] := by
  obtain ⟨_, ⟨_, h1⟩ | ⟨h1, e', h2⟩⟩ := significant_eq h
  · exact h1
  · exact absurd h2.symm (h1.value_ne e')

end VGram
