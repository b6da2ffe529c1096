import Verif.Proofs.GrammarString

/-!
# The numbers of the lexer are those of the grammar
-/

namespace VGram

variable {F : Type}

open _root_.VGram.Lex Dump Spec

theorem isDigit_iff {c : Char} : isDigit c = true ↔ IsDigit c := by simp [isDigit, IsDigit]

theorem digitsVal_eq (s : Str) : digitsVal s = numeral s := rfl

/-- What follows the integer part. -/
def Tail (s : Str) (ty ty' : NType) : Prop :=
  ∃ f x e, s = f ++ x ∧ (f = [] ∨ ∃ b, f = '.' :: b ∧ b ≠ [] ∧ ∀ c ∈ b, IsDigit c) ∧ IsExp x e ∧
    ((f = [] ∧ x = [] ∧ ty' = ty) ∨ (¬ (f = [] ∧ x = []) ∧ ty' = .float))

/-! ## From the lexer to the grammar -/

theorem any2_inv {ty ty' : NType} {m : NMode} : ∀ {s : Str}, numRun (.any2, ty) s = some (m, ty') → (∀ c ∈ s, IsDigit c) ∧ ty' = ty := by
  intro s
  induction s with
  | nil => intro h; cases h; exact ⟨nofun, rfl⟩
  | cons c s ih =>
    intro h
    simp only [numRun, numStep] at h
    by_cases hc : isDigit c = true
    · rw [if_pos hc] at h
      obtain ⟨h1, h2⟩ := ih h
      exact ⟨fun d hd => by rcases List.mem_cons.1 hd with rfl | hd; exacts [isDigit_iff.1 hc, h1 d hd], h2⟩
    · rw [if_neg hc] at h; cases h

theorem exponent_inv {ty ty' : NType} {m : NMode} (hm : m.final = true) {s : Str} (h : numRun (.exponent, ty) s = some (m, ty')) {c : Char} (hc : c = 'e' ∨ c = 'E') :
    ty' = ty ∧ ∃ e, IsExp (c :: s) e := by
  cases s with
  | nil => cases h; cases hm
  | cons d s =>
    simp only [numRun, numStep] at h
    by_cases hd : d = '+' ∨ d = '-'
    · rw [if_pos hd] at h
      simp only at h
      cases s with
      | nil => cases h; cases hm
      | cons b s =>
        simp only [numRun, numStep] at h
        by_cases hb : isDigit b = true
        · rw [if_pos hb] at h
          obtain ⟨h1, h2⟩ := any2_inv h
          have hall : ∀ x ∈ b :: s, IsDigit x := fun x hx => by rcases List.mem_cons.1 hx with rfl | hx; exacts [isDigit_iff.1 hb, h1 x hx]
          refine ⟨h2, ?_⟩
          rcases hd with rfl | rfl
          · exact ⟨_, .plus c ['+'] (b :: s) hc (Or.inr rfl) (by simp) hall⟩
          · exact ⟨_, .minus c (b :: s) hc (by simp) hall⟩
        · rw [if_neg hb] at h; cases h
    · rw [if_neg hd] at h
      by_cases hb : isDigit d = true
      · rw [if_pos hb] at h
        obtain ⟨h1, h2⟩ := any2_inv h
        have hall : ∀ x ∈ d :: s, IsDigit x := fun x hx => by rcases List.mem_cons.1 hx with rfl | hx; exacts [isDigit_iff.1 hb, h1 x hx]
        exact ⟨h2, _, .plus c [] (d :: s) hc (Or.inl rfl) (by simp) hall⟩
      · rw [if_neg hb] at h; cases h

theorem decimal2_inv {ty' : NType} {m : NMode} (hm : m.final = true) : ∀ {s : Str}, numRun (.decimal2, .float) s = some (m, ty') →
    ∃ b x e, s = b ++ x ∧ (∀ c ∈ b, IsDigit c) ∧ IsExp x e ∧ ty' = .float := by
  intro s
  induction s with
  | nil => intro h; cases h; exact ⟨[], [], 0, rfl, nofun, .none, rfl⟩
  | cons c s ih =>
    intro h
    simp only [numRun, numStep] at h
    by_cases hc : isDigit c = true
    · rw [if_pos hc] at h
      obtain ⟨b, x, e, rfl, h1, h2, h3⟩ := ih h
      exact ⟨c :: b, x, e, rfl, fun d hd => by rcases List.mem_cons.1 hd with rfl | hd; exacts [isDigit_iff.1 hc, h1 d hd], h2, h3⟩
    · rw [if_neg hc] at h
      by_cases he : c = 'e' ∨ c = 'E'
      · rw [if_pos he] at h
        obtain ⟨h1, e, h2⟩ := exponent_inv hm h he
        exact ⟨[], c :: s, e, rfl, nofun, h2, h1⟩
      · rw [if_neg he] at h; cases h

theorem decimal1_inv {ty' : NType} {m : NMode} (hm : m.final = true) {s : Str} (h : numRun (.decimal1, .float) s = some (m, ty')) :
    ∃ b x e, s = b ++ x ∧ b ≠ [] ∧ (∀ c ∈ b, IsDigit c) ∧ IsExp x e ∧ ty' = .float := by
  cases s with
  | nil => cases h; cases hm
  | cons c s =>
    simp only [numRun, numStep] at h
    by_cases hc : isDigit c = true
    · rw [if_pos hc] at h
      obtain ⟨b, x, e, rfl, h1, h2, h3⟩ := decimal2_inv hm h
      exact ⟨c :: b, x, e, rfl, by simp, fun d hd => by rcases List.mem_cons.1 hd with rfl | hd; exacts [isDigit_iff.1 hc, h1 d hd], h2, h3⟩
    · rw [if_neg hc] at h; cases h

theorem tail_inv {ty ty' : NType} {m : NMode} (hm : m.final = true) {c : Char} {s : Str}
    (h : (if c = '.' then some (NMode.decimal1, NType.float) else if c = 'e' ∨ c = 'E' then some (.exponent, .float) else none).bind (fun st => numRun st s) = some (m, ty')) :
    Tail (c :: s) ty ty' := by
  split at h
  · next hc =>
    obtain ⟨b, x, e, rfl, h1, h2, h3, h4⟩ := decimal1_inv hm h
    subst hc
    exact ⟨'.' :: b, x, e, rfl, Or.inr ⟨b, rfl, h1, h2⟩, h3, Or.inr ⟨by simp, h4⟩⟩
  · split at h
    · next he =>
      obtain ⟨h1, e, h2⟩ := exponent_inv hm h he
      exact ⟨[], c :: s, e, rfl, Or.inl rfl, h2, Or.inr ⟨by simp, h1⟩⟩
    · cases h

theorem zero_inv {ty ty' : NType} {m : NMode} (hm : m.final = true) {s : Str} (h : numRun (.zero, ty) s = some (m, ty')) : Tail s ty ty' := by
  cases s with
  | nil => cases h; exact ⟨[], [], 0, rfl, Or.inl rfl, .none, Or.inl ⟨rfl, rfl, rfl⟩⟩
  | cons c s =>
    refine tail_inv hm ?_
    rw [← h]
    simp only [numRun, numStep]
    split
    · rfl
    · split <;> rfl

theorem any1_inv {ty ty' : NType} {m : NMode} (hm : m.final = true) : ∀ {s : Str}, numRun (.any1, ty) s = some (m, ty') →
    ∃ ds u, s = ds ++ u ∧ (∀ c ∈ ds, IsDigit c) ∧ Tail u ty ty' := by
  intro s
  induction s with
  | nil => intro h; cases h; exact ⟨[], [], rfl, nofun, [], [], 0, rfl, Or.inl rfl, .none, Or.inl ⟨rfl, rfl, rfl⟩⟩
  | cons c s ih =>
    intro h
    by_cases hc : isDigit c = true
    · simp only [numRun, numStep, if_pos hc] at h
      obtain ⟨ds, u, rfl, h1, h2⟩ := ih h
      exact ⟨c :: ds, u, rfl, fun d hd => by rcases List.mem_cons.1 hd with rfl | hd; exacts [isDigit_iff.1 hc, h1 d hd], h2⟩
    · refine ⟨[], c :: s, rfl, nofun, tail_inv hm ?_⟩
      rw [← h]
      simp only [numRun, numStep, if_neg hc]
      split
      · rfl
      · split <;> rfl

/-- The token of a number. -/
def NumToken (T : TextOps F) (t : Str) (o : Option Int) (tok : Tok F) : Prop :=
  (∃ i, o = some i ∧ Fits64 i ∧ tok = .int i) ∨ ((∀ i, o = some i → ¬ Fits64 i) ∧ tok = .num (T.strtod t))

theorem numDone_unsigned (T : TextOps F) {t : Str} {n : Nat} (h : numeral t = n) : NumToken T t (some (n : Int)) (numDone T .unsigned t) := by
  simp only [numDone, digitsVal_eq, h]
  split
  · next hn => exact Or.inl ⟨n, rfl, ⟨by omega, by omega⟩, rfl⟩
  · next hn => exact Or.inr ⟨by rintro i ⟨⟩ ⟨-, hi⟩; omega, rfl⟩

theorem numDone_integer (T : TextOps F) {t : Str} {n : Nat} (h : numeral t = n) : NumToken T ('-' :: t) (some (-(n : Int))) (numDone T .integer ('-' :: t)) := by
  simp only [numDone, digitsVal_eq, List.drop_one, List.tail_cons, h]
  split
  · next hn => exact Or.inl ⟨-n, rfl, ⟨by omega, by omega⟩, rfl⟩
  · next hn => exact Or.inr ⟨by rintro i ⟨⟩ ⟨hi, -⟩; omega, rfl⟩

theorem numDone_float (T : TextOps F) (t : Str) : NumToken T t none (numDone T .float t) := Or.inr ⟨nofun, rfl⟩

theorem num_sound (T : TextOps F) {t : Str} {m : NMode} {ty : NType} (h : numAll t = some (m, ty)) (hm : m.final = true) :
    ∃ o, NumberText t o ∧ NumToken T t o (numDone T ty t) := by
  have zero : IsNumeral ['0'] 0 := ⟨by simp, by simp [IsDigit], by simp, by decide⟩
  have digits : ∀ {c : Char} {ds : Str}, isDigit c = true → c ≠ '0' → (∀ d ∈ ds, IsDigit d) → IsNumeral (c :: ds) (numeral (c :: ds)) := by
    intro c ds hc h0 hd
    exact ⟨by simp, fun d hd' => by rcases List.mem_cons.1 hd' with rfl | hd'; exacts [isDigit_iff.1 hc, hd d hd'], fun e => absurd (by simpa using e) h0, rfl⟩
  have final : ∀ {sign a u : Str} {n : Nat} {ty0 : NType}, (sign = [] ∧ ty0 = .unsigned) ∨ (sign = ['-'] ∧ ty0 = .integer) → IsNumeral a n → Tail u ty0 ty → t = sign ++ (a ++ u) →
      ∃ o, NumberText t o ∧ NumToken T t o (numDone T ty t) := by
    rintro sign a u n ty0 hs ha ⟨f, x, e, rfl, hf, hx, ⟨rfl, rfl, rfl⟩ | ⟨hne, rfl⟩⟩ rfl
    · simp only [List.append_nil]
      rcases hs with ⟨rfl, rfl⟩ | ⟨rfl, rfl⟩
      · exact ⟨_, .pos a n ha, numDone_unsigned T ha.value⟩
      · exact ⟨_, .neg a n ha, numDone_integer T ha.value⟩
    · exact ⟨none, .real sign a f x n e (by rcases hs with ⟨rfl, -⟩ | ⟨rfl, -⟩ <;> simp) ha hf hx hne, numDone_float T _⟩
  cases t with
  | nil => cases h
  | cons c cs =>
    simp only [numAll, numStart] at h
    by_cases h1 : c = '-'
    · rw [if_pos h1] at h
      subst h1
      simp only at h
      cases cs with
      | nil => cases h; cases hm
      | cons d cs =>
        simp only [numRun, numStep] at h
        by_cases h2 : d = '0'
        · rw [if_pos h2] at h
          subst h2
          exact final (sign := ['-']) (Or.inr ⟨rfl, rfl⟩) zero (zero_inv hm h) rfl
        · rw [if_neg h2] at h
          by_cases h3 : isDigit d = true
          · rw [if_pos h3] at h
            obtain ⟨ds, u, rfl, h4, h5⟩ := any1_inv hm h
            exact final (sign := ['-']) (a := d :: ds) (Or.inr ⟨rfl, rfl⟩) (digits h3 h2 h4) h5 rfl
          · rw [if_neg h3] at h; cases h
    · rw [if_neg h1] at h
      by_cases h2 : c = '0'
      · rw [if_pos h2] at h
        subst h2
        exact final (sign := []) (Or.inl ⟨rfl, rfl⟩) zero (zero_inv hm h) rfl
      · rw [if_neg h2] at h
        by_cases h3 : isDigit c = true
        · rw [if_pos h3] at h
          obtain ⟨ds, u, rfl, h4, h5⟩ := any1_inv hm h
          exact final (sign := []) (a := c :: ds) (Or.inl ⟨rfl, rfl⟩) (digits h3 h2 h4) h5 rfl
        · rw [if_neg h3] at h; cases h

/-! ## From the grammar to the lexer -/

theorem numRun_any2 {ty : NType} {s : Str} (h : ∀ c ∈ s, IsDigit c) : numRun (.any2, ty) s = some (.any2, ty) := by
  induction s with
  | nil => rfl
  | cons c s ih =>
    simp only [numRun, numStep, isDigit_iff.2 (h c (by simp)), if_true]
    exact ih fun d hd => h d (List.mem_cons_of_mem _ hd)

theorem digit_ne {d : Char} (h : IsDigit d) : ¬ (d = '+' ∨ d = '-') ∧ d ≠ '.' ∧ ¬ (d = 'e' ∨ d = 'E') ∧ d ≠ '-' := by
  refine ⟨?_, ?_, ?_, ?_⟩
  · rintro (rfl | rfl) <;> exact absurd h (by unfold IsDigit; decide)
  · rintro rfl; exact absurd h (by unfold IsDigit; decide)
  · rintro (rfl | rfl) <;> exact absurd h (by unfold IsDigit; decide)
  · rintro rfl; exact absurd h (by unfold IsDigit; decide)

theorem IsExp.run {x : Str} {e : Int} (h : IsExp x e) : x = [] ∨ ∃ c s, x = c :: s ∧ (c = 'e' ∨ c = 'E') ∧ numRun (.exponent, .float) s = some (.any2, .float) := by
  have digits : ∀ {ds : Str}, ds ≠ [] → (∀ d ∈ ds, IsDigit d) → numRun (.exponent, .float) ds = some (.any2, .float) ∧ numRun (.sign, .float) ds = some (.any2, .float) := by
    intro ds h0 hd
    cases ds with
    | nil => exact absurd rfl h0
    | cons d ds =>
      have h1 := hd d (by simp)
      have := numRun_any2 (ty := .float) fun c hc => hd c (List.mem_cons_of_mem _ hc)
      simp only [numRun, numStep, if_neg (digit_ne h1).1, isDigit_iff.2 h1, if_true, this, and_self]
  cases h with
  | none => exact Or.inl rfl
  | plus c sg ds hc hs h0 hd =>
    refine Or.inr ⟨c, _, rfl, hc, ?_⟩
    rcases hs with rfl | rfl
    · exact (digits h0 hd).1
    · simp only [List.cons_append, List.nil_append, numRun, numStep, true_or, if_true]
      exact (digits h0 hd).2
  | minus c ds hc h0 hd =>
    refine Or.inr ⟨c, _, rfl, hc, ?_⟩
    simp only [numRun, numStep, or_true, if_true]
    exact (digits h0 hd).2

theorem Tail.run {s : Str} {ty ty' : NType} (h : Tail s ty ty') (m0 : NMode) (h0 : m0 = .zero ∨ m0 = .any1) : ∃ m, m.final = true ∧ numRun (m0, ty) s = some (m, ty') := by
  obtain ⟨f, x, e, rfl, hf, hx, hc⟩ := h
  have exp : ∀ {m1 : NMode} {ty1 : NType} {c : Char} {s : Str}, m1 = .zero ∨ m1 = .any1 ∨ m1 = .decimal2 → c = 'e' ∨ c = 'E' →
      numRun (.exponent, .float) s = some (.any2, .float) → numRun (m1, ty1) (c :: s) = some (.any2, .float) := by
    intro m1 ty1 c s hm1 hc hs
    have q1 : c ≠ '.' := by rcases hc with rfl | rfl <;> decide
    have q2 : ¬ isDigit c = true := by rcases hc with rfl | rfl <;> decide
    rcases hm1 with rfl | rfl | rfl <;> simp only [numRun, numStep, if_neg q1, if_neg q2, if_pos hc, hs]
  rcases hf with rfl | ⟨b, rfl, hb0, hb⟩
  · rcases IsExp.run hx with rfl | ⟨c, s, rfl, he, hs⟩
    · rcases hc with ⟨-, -, rfl⟩ | ⟨hne, -⟩
      · exact ⟨m0, by rcases h0 with rfl | rfl <;> rfl, rfl⟩
      · simp at hne
    · rcases hc with ⟨-, h, -⟩ | ⟨-, rfl⟩
      · cases h
      · exact ⟨.any2, rfl, exp (by rcases h0 with rfl | rfl <;> simp) he hs⟩
  · rcases hc with ⟨h, -⟩ | ⟨-, rfl⟩
    · cases h
    have h1 : numRun (m0, ty) ('.' :: b) = some (.decimal2, .float) := by
      have := numRun_frac (ty := .float) hb0 fun c hc => isDigit_iff.2 (hb c hc)
      rcases h0 with rfl | rfl
      · simp only [numRun, numStep, if_true, this]
      · have q : ¬ isDigit '.' = true := by decide
        simp only [numRun, numStep, if_true, this, if_neg q]
    rw [numRun_append h1]
    rcases IsExp.run hx with rfl | ⟨c, s, rfl, he, hs⟩
    · exact ⟨.decimal2, rfl, rfl⟩
    · exact ⟨.any2, rfl, exp (Or.inr (Or.inr rfl)) he hs⟩

theorem numAll_sign {sign a u : Str} {n : Nat} {ty0 ty : NType} (hs : (sign = [] ∧ ty0 = .unsigned) ∨ (sign = ['-'] ∧ ty0 = .integer)) (ha : IsNumeral a n)
    (hu : Tail u ty0 ty) : ∃ m, m.final = true ∧ numAll (sign ++ (a ++ u)) = some (m, ty) := by
  have main : ∃ (c : Char) (ds : Str) (m0 : NMode), a = c :: ds ∧ (m0 = .zero ∨ m0 = .any1) ∧ numStart c = some (m0, .unsigned) ∧ numStep .minus .integer c = some (m0, .integer) ∧
      ∀ ty, numRun (m0, ty) ds = some (m0, ty) := by
    cases a with
    | nil => exact absurd rfl ha.nonempty
    | cons c ds =>
      by_cases h0 : c = '0'
      · subst h0
        have := ha.lead rfl
        simp only [List.cons.injEq, true_and] at this
        subst this
        exact ⟨'0', [], .zero, rfl, Or.inl rfl, rfl, rfl, fun _ => rfl⟩
      · have hc := isDigit_iff.2 (ha.digits c (by simp))
        exact ⟨c, ds, .any1, rfl, Or.inr rfl, (numStart_digit hc h0).1, (numStart_digit hc h0).2, fun ty => numRun_any1 fun d hd => isDigit_iff.2 (ha.digits d (List.mem_cons_of_mem _ hd))⟩
  obtain ⟨c, ds, m0, rfl, hm0, h1, h2, h3⟩ := main
  obtain ⟨m, hm, hr⟩ := hu.run m0 hm0
  refine ⟨m, hm, ?_⟩
  rcases hs with ⟨rfl, rfl⟩ | ⟨rfl, rfl⟩
  · simp only [List.nil_append, List.cons_append, numAll, h1]
    rw [numRun_append (h3 _), hr]
  · simp only [List.cons_append, List.nil_append, numAll, numStart, if_true, numRun, h2]
    rw [numRun_append (h3 _), hr]

theorem num_complete (T : TextOps F) {t : Str} {o : Option Int} (h : NumberText t o) : ∃ m ty, numAll t = some (m, ty) ∧ m.final = true ∧ NumToken T t o (numDone T ty t) := by
  have none : ∀ ty, Tail [] ty ty := fun ty => ⟨[], [], 0, rfl, Or.inl rfl, .none, Or.inl ⟨rfl, rfl, rfl⟩⟩
  cases h with
  | pos t n h =>
    obtain ⟨m, hm, hr⟩ := numAll_sign (Or.inl ⟨rfl, rfl⟩) h (none _)
    simp only [List.nil_append, List.append_nil] at hr
    exact ⟨m, _, hr, hm, numDone_unsigned T h.value⟩
  | neg t n h =>
    obtain ⟨m, hm, hr⟩ := numAll_sign (Or.inr ⟨rfl, rfl⟩) h (none _)
    simp only [List.nil_append, List.cons_append, List.append_nil] at hr
    exact ⟨m, _, hr, hm, numDone_integer T h.value⟩
  | real sign t f x n e hs h hf hx hne =>
    have tail : ∀ ty, Tail (f ++ x) ty .float := fun ty => ⟨f, x, e, rfl, hf, hx, Or.inr ⟨hne, rfl⟩⟩
    rcases hs with rfl | rfl
    · obtain ⟨m, hm, hr⟩ := numAll_sign (Or.inl ⟨rfl, rfl⟩) h (tail _)
      exact ⟨m, _, hr, hm, numDone_float T _⟩
    · obtain ⟨m, hm, hr⟩ := numAll_sign (Or.inr ⟨rfl, rfl⟩) h (tail _)
      exact ⟨m, _, hr, hm, numDone_float T _⟩

/-- What may follow a number: nothing, white space, a comma or a closing bracket. -/
def Follow (r : Str) : Prop := ∀ c, r.head? = some c → c = ' ' ∨ c = '\t' ∨ c = '\n' ∨ c = '\r' ∨ c = ',' ∨ c = ']' ∨ c = '}'

theorem numStep_follow (m : NMode) (ty : NType) {c : Char} (h : c = ' ' ∨ c = '\t' ∨ c = '\n' ∨ c = '\r' ∨ c = ',' ∨ c = ']' ∨ c = '}') : numStep m ty c = none := by
  rcases h with rfl | rfl | rfl | rfl | rfl | rfl | rfl <;> cases m <;> rfl

theorem scan_number_grammar (T : TextOps F) {t : Str} {o : Option Int} (h : NumberText t o) {r : Str} (hr : Follow r) : ∃ tok, scan T (t ++ r) = (tok, r) ∧ NumToken T t o tok := by
  obtain ⟨m, ty, h1, h2, h3⟩ := num_complete T h
  refine ⟨_, ?_, h3⟩
  cases t with
  | nil => cases h1
  | cons c cs =>
    simp only [numAll] at h1
    cases hs : numStart c with
    | none => rw [hs] at h1; cases h1
    | some s =>
      rw [hs] at h1
      rw [List.cons_append, scan_start T hs, scanNumber_run T h1]
      cases r with
      | nil => simp [scanNumber, h2]
      | cons d r => simp [scanNumber, numStep_follow m ty (hr d rfl), h2]

/-- What the lexer accepts as a number. -/
theorem scanNumber_ok (T : TextOps F) : ∀ {cs : Str} {s : NMode × NType} {buf : Str} {tok : Tok F} {r : Str}, scanNumber T cs s.1 s.2 buf = (tok, r) → tok ≠ .err →
    ∃ a s', cs = a ++ r ∧ numRun s a = some s' ∧ s'.1.final = true ∧ tok = numDone T s'.2 (buf ++ a) := by
  intro cs
  induction cs with
  | nil =>
    intro s buf tok r h ht
    rw [scanNumber] at h
    split at h
    · next hf => cases h; exact ⟨[], s, rfl, rfl, hf, by simp⟩
    · cases h; exact absurd rfl ht
  | cons c cs ih =>
    intro s buf tok r h ht
    rw [scanNumber] at h
    split at h
    · next m' ty' hs =>
      obtain ⟨a, s', rfl, h1, h2, h3⟩ := ih (s := (m', ty')) h ht
      exact ⟨c :: a, s', rfl, by simp only [numRun, hs, h1], h2, by simpa using h3⟩
    · split at h
      · next hf => cases h; exact ⟨[], s, rfl, rfl, hf, by simp⟩
      · cases h; exact absurd rfl ht

end VGram
