import Verif.Proofs.JsonLex
import Verif.Spec.Text

/-!
# Lemmas about writing and scanning numbers
-/

namespace VGram

variable {F : Type}

open _root_.VGram.Lex Dump Spec

/-- Running `scan_number` over characters. -/
def numRun : NMode × NType → Str → Option (NMode × NType)
  | s, [] => some s
  | s, c :: cs => match numStep s.1 s.2 c with
    | none => none
    | some s' => numRun s' cs

/-- The label after the first character of a number. -/
def numStart (c : Char) : Option (NMode × NType) :=
  if c = '-' then some (.minus, .integer) else if c = '0' then some (.zero, .unsigned) else if isDigit c then some (.any1, .unsigned) else none

/-- Running over a whole number. -/
def numAll : Str → Option (NMode × NType)
  | [] => none
  | c :: cs => match numStart c with
    | none => none
    | some s => numRun s cs

/-- What follows a value in the file: nothing, a comma or a new line. -/
def Sep (r : Str) : Prop := ∀ c, r.head? = some c → c = ',' ∨ c = '\n'

theorem Sep.nil : Sep [] := by intro c h; cases h

theorem numRun_append {s s' : NMode × NType} {a b : Str} (h : numRun s a = some s') : numRun s (a ++ b) = numRun s' b := by
  induction a generalizing s with
  | nil => cases h; rfl
  | cons c a ih =>
    simp only [numRun, List.cons_append] at h ⊢
    cases hs : numStep s.1 s.2 c with
    | none => rw [hs] at h; cases h
    | some s1 => rw [hs] at h; exact ih h

theorem numRun_prefix {s s' : NMode × NType} {a b : Str} (h : numRun s (a ++ b) = some s') : ∃ s1, numRun s a = some s1 := by
  induction a generalizing s with
  | nil => exact ⟨s, rfl⟩
  | cons c a ih =>
    simp only [numRun, List.cons_append] at h ⊢
    cases hs : numStep s.1 s.2 c with
    | none => rw [hs] at h; cases h
    | some s1 => rw [hs] at h; exact ih h

theorem scanNumber_run (T : TextOps F) {s s' : NMode × NType} {a : Str} (h : numRun s a = some s') (r buf : Str) :
    scanNumber T (a ++ r) s.1 s.2 buf = scanNumber T r s'.1 s'.2 (buf ++ a) := by
  induction a generalizing s buf with
  | nil => cases h; simp
  | cons c a ih =>
    simp only [numRun] at h
    cases hs : numStep s.1 s.2 c with
    | none => rw [hs] at h; cases h
    | some s1 =>
      rw [hs] at h
      simp only [List.cons_append, scanNumber, hs, ih h, List.append_assoc, List.nil_append]

theorem scan_start (T : TextOps F) {c : Char} {s : NMode × NType} (h : numStart c = some s) (cs : Str) : scan T (c :: cs) = scanNumber T cs s.1 s.2 [c] := by
  have key : c = '-' ∨ c = '0' ∨ isDigit c = true := by
    unfold numStart at h
    by_cases h1 : c = '-'
    · exact Or.inl h1
    by_cases h2 : c = '0'
    · exact Or.inr (Or.inl h2)
    by_cases h3 : isDigit c = true
    · exact Or.inr (Or.inr h3)
    · rw [if_neg h1, if_neg h2, if_neg h3] at h; cases h
  have hd : c = '-' ∨ (48 ≤ c.toNat ∧ c.toNat ≤ 57) := by
    rcases key with rfl | rfl | h
    · exact Or.inl rfl
    · exact Or.inr (by decide)
    · exact Or.inr (by simpa [isDigit] using h)
  have ne : ∀ d : Char, d ≠ '-' → ¬ (48 ≤ d.toNat ∧ d.toNat ≤ 57) → c ≠ d := by
    rintro d h1 h2 rfl
    rcases hd with e | e
    · exact h1 e
    · exact h2 e
  rw [scan, if_neg (by
    rintro (e | e | e | e)
    · exact ne ' ' (by decide) (by decide) e
    · exact ne '\t' (by decide) (by decide) e
    · exact ne '\n' (by decide) (by decide) e
    · exact ne '\r' (by decide) (by decide) e), if_neg (ne '[' (by decide) (by decide)), if_neg (ne ']' (by decide) (by decide)),
    if_neg (ne '{' (by decide) (by decide)), if_neg (ne '}' (by decide) (by decide)), if_neg (ne ':' (by decide) (by decide)),
    if_neg (ne ',' (by decide) (by decide)), if_neg (ne 't' (by decide) (by decide)), if_neg (ne 'f' (by decide) (by decide)),
    if_neg (ne 'n' (by decide) (by decide)), if_neg (ne '"' (by decide) (by decide))]
  unfold numStart at h
  split at h
  · next e => cases h; rw [if_pos e]
  · next e =>
    rw [if_neg e]
    split at h
    · next e' => cases h; rw [if_pos e']
    · next e' =>
      rw [if_neg e']
      split at h
      · next e'' => cases h; rw [if_pos e'']
      · cases h

theorem numStep_sep (m : NMode) (ty : NType) {c : Char} (h : c = ',' ∨ c = '\n') : numStep m ty c = none := by
  rcases h with rfl | rfl <;> cases m <;> rfl

/-- A number is read back. -/
theorem scan_num (T : TextOps F) {t : Str} {m : NMode} {ty : NType} (h : numAll t = some (m, ty)) (hm : m.final = true) {r : Str} (hr : Sep r) :
    scan T (t ++ r) = (numDone T ty t, r) := by
  cases t with
  | nil => cases h
  | cons c cs =>
    simp only [numAll] at h
    cases hs : numStart c with
    | none => rw [hs] at h; cases h
    | some s =>
      rw [hs] at h
      rw [List.cons_append, scan_start T hs, scanNumber_run T h]
      cases r with
      | nil => simp [scanNumber, hm]
      | cons d r => simp [scanNumber, numStep_sep m ty (hr d rfl), hm]

/-- A number that has been cut off is nothing, a lexical error or another number. -/
theorem scan_num_cut (T : TextOps F) {t p : Str} {s : NMode × NType} (h : numAll t = some s) (hp : p <+: t) :
    p = [] ∨ scan T p = (.err, []) ∨ ∃ s', numAll p = some s' ∧ s'.1.final = true ∧ scan T p = (numDone T s'.2 p, []) := by
  cases p with
  | nil => exact Or.inl rfl
  | cons c cs =>
    obtain ⟨q, rfl⟩ := hp
    simp only [numAll, List.cons_append] at h
    cases hs : numStart c with
    | none => rw [hs] at h; cases h
    | some s0 =>
      rw [hs] at h
      obtain ⟨s1, h1⟩ := numRun_prefix h
      have := scanNumber_run T h1 [] [c]
      rw [List.append_nil] at this
      rw [scan_start T hs, this]
      simp only [scanNumber]
      split
      · next hf => exact Or.inr (Or.inr ⟨s1, by simp only [numAll, hs, h1], hf, by simp⟩)
      · exact Or.inr (Or.inl rfl)

/-! ## Digits -/

theorem digitsVal_append (s : Str) (c : Char) : digitsVal (s ++ [c]) = 10 * digitsVal s + (c.toNat - 48) := by
  simp [digitsVal]

theorem digitsVal_prefix {p t : Str} (h : p <+: t) : digitsVal p ≤ digitsVal t := by
  obtain ⟨q, rfl⟩ := h
  induction q using List.reverseRecOn with
  | nil => simp
  | append_singleton q c ih => rw [← List.append_assoc, digitsVal_append]; omega

theorem digit_spec {k : Nat} (h : k < 10) : isDigit (digit k) = true ∧ (digit k).toNat - 48 = k ∧ (digit k = '0' → k = 0) := by
  have : ∀ k : Fin 10, isDigit (digit k.val) = true ∧ (digit k.val).toNat - 48 = k.val ∧ (digit k.val = '0' → k.val = 0) := by decide
  exact this ⟨k, h⟩

theorem revDigits_spec : ∀ (fuel x : Nat), 0 < x → x ≤ fuel → (revDigits fuel x).reverse ≠ [] ∧ (∀ c ∈ (revDigits fuel x).reverse, isDigit c = true) ∧
    (revDigits fuel x).reverse.head? ≠ some '0' ∧ digitsVal (revDigits fuel x).reverse = x := by
  intro fuel
  induction fuel with
  | zero => intro x h1 h2; omega
  | succ fuel ih =>
    intro x h1 h2
    have hx : ¬ x = 0 := by omega
    obtain ⟨d1, d2, d3⟩ := digit_spec (k := x % 10) (by omega)
    simp only [revDigits, hx, if_false, List.reverse_cons]
    by_cases hs : x / 10 = 0
    · have e : revDigits fuel (x / 10) = [] := by rw [hs]; cases fuel <;> rfl
      rw [e]
      simp only [List.reverse_nil, List.nil_append, List.head?_cons]
      refine ⟨by simp, by simpa using d1, ?_, ?_⟩
      · intro h
        have := d3 (Option.some.inj h)
        omega
      · simp [digitsVal, d2]; omega
    · obtain ⟨i1, i2, i3, i4⟩ := ih (x / 10) (by omega) (by omega)
      refine ⟨by simp, ?_, ?_, ?_⟩
      · intro c hc
        rcases List.mem_append.1 hc with h | h
        · exact i2 c h
        · simp only [List.mem_singleton] at h; rw [h]; exact d1
      · rw [List.head?_append_of_ne_nil _ i1]; exact i3
      · rw [digitsVal_append, i4, d2]; omega

theorem numRun_any1 {ty : NType} {s : Str} (h : ∀ c ∈ s, isDigit c = true) : numRun (.any1, ty) s = some (.any1, ty) := by
  induction s with
  | nil => rfl
  | cons c s ih => simp only [numRun, numStep, h c (by simp), if_true]; exact ih fun d hd => h d (by simp [hd])

theorem numRun_decimal2 {ty : NType} {s : Str} (h : ∀ c ∈ s, isDigit c = true) : numRun (.decimal2, ty) s = some (.decimal2, ty) := by
  induction s with
  | nil => rfl
  | cons c s ih => simp only [numRun, numStep, h c (by simp), if_true]; exact ih fun d hd => h d (by simp [hd])

/-- The number part without sign: digits without a leading zero. -/
theorem numStart_digit {c : Char} (h : isDigit c = true) (h0 : c ≠ '0') : numStart c = some (.any1, .unsigned) ∧ numStep .minus .integer c = some (.any1, .integer) := by
  have hm : c ≠ '-' := by rintro rfl; revert h; decide
  simp [numStart, numStep, hm, h0, h]

theorem dumpInt_spec {i : Int} (h : -(2 ^ 63) ≤ i ∧ i < 2 ^ 64) : ∃ m ty, numAll (dumpInt i) = some (m, ty) ∧ m.final = true ∧
    (∀ T : TextOps F, numDone T ty (dumpInt i) = .int i) ∧
    ∀ p, p <+: dumpInt i → ∀ s', numAll p = some s' → ∀ T : TextOps F, ∃ k, numDone T s'.2 p = .int k := by
  by_cases h0 : i = 0
  · subst h0
    refine ⟨.zero, .unsigned, rfl, rfl, fun T => rfl, ?_⟩
    intro p hp s' hs T
    have : p = ['0'] := by
      rcases List.prefix_cons_iff.1 (show p <+: '0' :: [] from hp) with e | ⟨t, e, ht⟩
      · rw [e] at hs; cases hs
      · rw [e, List.prefix_nil.1 ht]
    subst this
    cases hs
    exact ⟨0, rfl⟩
  · obtain ⟨r1, r2, r3, r4⟩ := revDigits_spec i.natAbs i.natAbs (by omega) (Nat.le_refl _)
    generalize hr : (revDigits i.natAbs i.natAbs).reverse = ds at r1 r2 r3 r4
    cases ds with
    | nil => exact absurd rfl r1
    | cons c cs =>
      have hc : isDigit c = true := r2 c (by simp)
      have hc0 : c ≠ '0' := by intro e; exact r3 (by rw [e]; rfl)
      have hcs : ∀ d ∈ cs, isDigit d = true := fun d hd => r2 d (by simp [hd])
      obtain ⟨n1, n2⟩ := numStart_digit hc hc0
      by_cases hneg : i < 0
      · have e : dumpInt i = '-' :: c :: cs := by simp [dumpInt, h0, hneg, hr]
        rw [e]
        refine ⟨.any1, .integer, ?_, rfl, ?_, ?_⟩
        · simp only [numAll, numStart, if_true, numRun, n2]
          exact numRun_any1 hcs
        · intro T
          simp only [numDone, List.drop_succ_cons, List.drop_zero, r4]
          rw [if_pos (by omega)]
          congr 1; omega
        · intro p hp s' hs T
          rcases List.prefix_cons_iff.1 hp with e | ⟨t, rfl, ht⟩
          · rw [e] at hs; cases hs
          · have hv := digitsVal_prefix ht
            rw [r4] at hv
            have : s'.2 = .integer := by
              simp only [numAll, numStart, if_true] at hs
              rcases List.prefix_cons_iff.1 ht with rfl | ⟨u, rfl, hu⟩
              · cases hs; rfl
              · simp only [numRun, n2] at hs
                rw [numRun_any1 fun d hd => hcs d (hu.subset hd)] at hs
                cases hs; rfl
            rw [this]
            simp only [numDone, List.drop_succ_cons, List.drop_zero]
            rw [if_pos (by omega)]
            exact ⟨_, rfl⟩
      · have e : dumpInt i = c :: cs := by simp [dumpInt, h0, hneg, hr]
        rw [e]
        refine ⟨.any1, .unsigned, ?_, rfl, ?_, ?_⟩
        · simp only [numAll, n1]
          exact numRun_any1 hcs
        · intro T
          simp only [numDone, r4]
          rw [if_pos (by omega)]
          congr 1; omega
        · intro p hp s' hs T
          rcases List.prefix_cons_iff.1 hp with e | ⟨t, rfl, ht⟩
          · rw [e] at hs; cases hs
          · have hv := digitsVal_prefix hp
            rw [r4] at hv
            have : s'.2 = .unsigned := by
              simp only [numAll, n1] at hs
              rw [numRun_any1 fun d hd => hcs d (ht.subset hd)] at hs
              cases hs; rfl
            rw [this]
            simp only [numDone]
            rw [if_pos (by omega)]
            exact ⟨_, rfl⟩

/-! ## Doubles -/

theorem numRun_frac {ty : NType} {s : Str} (h0 : s ≠ []) (h : ∀ c ∈ s, isDigit c = true) : numRun (.decimal1, ty) s = some (.decimal2, ty) := by
  cases s with
  | nil => exact absurd rfl h0
  | cons c s => simp only [numRun, numStep, h c (by simp), if_true]; exact numRun_decimal2 fun d hd => h d (by simp [hd])

theorem numRun_exp {e : Int} (h : -1000 < e ∧ e < 1000) : numRun (.exponent, .float) (appendExponent e) = some (.any2, .float) := by
  have hsg : ∀ c, c = '-' ∨ c = '+' → numStep .exponent .float c = some (.sign, .float) := by rintro c (rfl | rfl) <;> rfl
  have hd : ∀ c, isDigit c = true → numStep .sign .float c = some (.any2, .float) ∧ numStep .any2 .float c = some (.any2, .float) := by
    intro c hc; simp [numStep, hc]
  have hs : numStep .exponent .float (if e < 0 then '-' else '+') = some (.sign, .float) := hsg _ (by split <;> simp)
  have z : isDigit '0' = true := by decide
  simp only [appendExponent]
  generalize (if e < 0 then '-' else '+') = sg at hs ⊢
  split
  · have := (digit_spec (k := e.natAbs) (by omega)).1
    simp only [numRun, hs, hd _ z, hd _ this]
  · split
    · have a := (digit_spec (k := e.natAbs / 10) (by omega)).1
      have b := (digit_spec (k := e.natAbs % 10) (by omega)).1
      simp only [numRun, hs, hd _ a, hd _ b]
    · have a := (digit_spec (k := e.natAbs / 100) (by omega)).1
      have b := (digit_spec (k := e.natAbs % 100 / 10) (by omega)).1
      have c := (digit_spec (k := e.natAbs % 100 % 10) (by omega)).1
      simp only [numRun, hs, hd _ a, hd _ b, hd _ c]

/-- A text that is a number with or without a sign. -/
def FloatText (t : Str) : Prop := ∃ m : NMode, m.final = true ∧ numAll t = some (m, .float) ∧ numAll ('-' :: t) = some (m, .float)

theorem floatText_any1 {c : Char} {cs : Str} {m : NMode} (hc : isDigit c = true) (h0 : c ≠ '0') (hm : m.final = true)
    (h : ∀ ty, numRun (.any1, ty) cs = some (m, .float)) : FloatText (c :: cs) := by
  obtain ⟨n1, n2⟩ := numStart_digit hc h0
  refine ⟨m, hm, by simp only [numAll, n1, h], ?_⟩
  simp only [numAll, numStart, if_true, numRun, n2, h]

theorem floatText_zero {cs : Str} {m : NMode} (hm : m.final = true) (h : ∀ ty, numRun (.zero, ty) cs = some (m, .float)) : FloatText ('0' :: cs) := by
  refine ⟨m, hm, ?_, ?_⟩
  · have : numStart '0' = some (.zero, .unsigned) := by decide
    simp only [numAll, this, h]
  · have : numStart '-' = some (.minus, .integer) := by decide
    have h2 : numStep .minus .integer '0' = some (.zero, .integer) := by decide
    simp only [numAll, this, numRun, h2, h]

theorem formatBuffer_text {d : Char} {ds : Str} {e : Int} (hd : isDigit d = true) (h0 : d ≠ '0') (hds : ∀ c ∈ ds, isDigit c = true)
    (he : -1000 < ((d :: ds).length : Int) + e - 1 ∧ ((d :: ds).length : Int) + e - 1 < 1000) : FloatText (formatBuffer (d :: ds) e (-4) 15) := by
  have z : isDigit '0' = true := by decide
  have dot : ∀ ty, numStep .any1 ty '.' = some (.decimal1, .float) := by intro ty; rfl
  have ee : ∀ ty, numStep .any1 ty 'e' = some (.exponent, .float) := by intro ty; rfl
  have ee2 : ∀ ty, numStep .decimal2 ty 'e' = some (.exponent, .float) := by intro ty; rfl
  have dot0 : ∀ ty, numStep .zero ty '.' = some (.decimal1, .float) := by intro ty; rfl
  unfold formatBuffer
  simp only
  generalize hn : ((d :: ds).length : Int) + e = n at he ⊢
  split
  · rw [List.cons_append, List.cons_append]
    refine floatText_any1 (m := .decimal2) hd h0 rfl fun ty => ?_
    rw [numRun_append (s' := (.any1, ty)) (numRun_any1 ?_)]
    · simp only [numRun, dot]
      simp [numStep, z]
    · intro c hc
      rcases List.mem_append.1 hc with h | h
      · exact hds c h
      · rw [List.eq_of_mem_replicate h]; exact z
  · next h1 =>
    split
    · next h2 =>
      obtain ⟨k, hk⟩ : ∃ k, n.toNat = k + 1 := ⟨n.toNat - 1, by omega⟩
      have hlen : k < ds.length := by simp only [List.length_cons] at h1 hn; omega
      rw [hk, List.take_succ_cons, List.drop_succ_cons, List.cons_append]
      refine floatText_any1 (m := .decimal2) hd h0 rfl fun ty => ?_
      rw [numRun_append (s' := (.any1, ty)) (numRun_any1 fun c hc => hds c (List.mem_of_mem_take hc))]
      simp only [numRun, dot]
      exact numRun_frac (by intro h; rw [List.drop_eq_nil_iff] at h; omega) fun c hc => hds c (List.mem_of_mem_drop hc)
    · split
      · refine floatText_zero (m := .decimal2) rfl fun ty => ?_
        simp only [numRun, dot0]
        refine numRun_frac (by simp) fun c hc => ?_
        rcases List.mem_append.1 hc with h | h
        · rw [List.eq_of_mem_replicate h]; exact z
        · rcases List.mem_cons.1 h with rfl | h
          · exact hd
          · exact hds c h
      · split
        · next h4 =>
          have : ds = [] := by
            cases ds with
            | nil => rfl
            | cons a l => simp only [List.length_cons] at h4; omega
          subst this
          rw [List.cons_append, List.nil_append]
          refine floatText_any1 (m := .any2) hd h0 rfl fun ty => ?_
          simp only [numRun, ee]
          exact numRun_exp he
        · next h4 =>
          have : ds ≠ [] := by rintro rfl; exact h4 rfl
          rw [List.take_succ_cons, List.take_zero, List.drop_succ_cons, List.drop_zero, List.cons_append, List.nil_append]
          refine floatText_any1 (m := .any2) hd h0 rfl fun ty => ?_
          simp only [numRun, dot]
          rw [numRun_append (s' := (.decimal2, .float)) (numRun_frac this hds)]
          simp only [numRun, ee2]
          exact numRun_exp he

theorem toChars_text {O : FloatOps F} {T : TextOps F} (L : TextLaws O T) {x : F} (h : O.isFinite x = true) :
    ∃ m : NMode, m.final = true ∧ numAll (toChars T x) = some (m, .float) := by
  have : ∃ t, FloatText t ∧ toChars T x = (if T.signbit x then ['-'] else []) ++ t := by
    refine ⟨_, ?_, rfl⟩
    cases hz : T.isZero x with
    | true => exact floatText_zero (cs := ['.', '0']) (m := .decimal2) rfl fun ty => by cases ty <;> decide
    | false =>
      rw [if_neg (by simp)]
      obtain ⟨d1, d2, d3⟩ := L.digits x h hz
      have he := L.exponent x h hz
      generalize (T.grisu x).1 = buf at d1 d2 d3 he
      cases buf with
      | nil => exact absurd rfl d1
      | cons d ds =>
        have dig : ∀ c ∈ d :: ds, isDigit c = true := by intro c hc; have := d3 c hc; simp [isDigit, this]
        exact formatBuffer_text (dig d (by simp)) (by intro e; exact d2 (by rw [e]; rfl)) (fun c hc => dig c (by simp [hc])) he
  obtain ⟨t, ⟨m, h1, h2, h3⟩, h4⟩ := this
  refine ⟨m, h1, ?_⟩
  rw [h4]
  split
  · exact h3
  · exact h2

end VGram
