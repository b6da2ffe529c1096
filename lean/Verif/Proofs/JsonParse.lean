import Verif.Proofs.JsonValue

/-!
# Lemmas about writing and parsing JSON trees
-/

namespace VGram

variable {F : Type}

open _root_.VGram.Lex Dump Spec Parse

theorem Out.seq_assoc (a b c : Out) : ((a ;; b) ;; c) = (a ;; (b ;; c)) := by
  obtain ⟨ta, da⟩ := a
  obtain ⟨tb, db⟩ := b
  cases da <;> cases db <;> simp [Out.seq]

/-! ## Scanning -/

theorem ite_ind {α : Type} (P : α → Prop) {p : Prop} [Decidable p] {a b : α} (ha : P a) (hb : P b) : P (if p then a else b) := by
  by_cases h : p
  · rwa [if_pos h]
  · rwa [if_neg h]

theorem scan_space (T : TextOps F) (p : Str) : scan T (' ' :: p) = scan T p := by rw [scan]; simp
theorem scan_newline (T : TextOps F) (p : Str) : scan T ('\n' :: p) = scan T p := by rw [scan]; simp

theorem scan_spaces (T : TextOps F) (n : Nat) (p : Str) : scan T (List.replicate n ' ' ++ p) = scan T p := by
  induction n with
  | zero => rfl
  | succ n ih => rw [List.replicate_succ, List.cons_append, scan_space, ih]

theorem prefix_spaces {n : Nat} {p : Str} (h : p <+: List.replicate n ' ') : ∃ m, p = List.replicate m ' ' :=
  ⟨_, List.eq_replicate_of_mem fun _ hb => List.eq_of_mem_replicate (h.subset hb)⟩

theorem scan_only_spaces (T : TextOps F) (n : Nat) : scan T (List.replicate n ' ') = (.eof, []) := by
  have := scan_spaces T n []
  rwa [List.append_nil] at this

theorem scan_comma (T : TextOps F) (p : Str) : scan T (',' :: p) = (.comma, p) := by rw [scan]; simp
theorem scan_colon (T : TextOps F) (p : Str) : scan T (':' :: p) = (.colon, p) := by rw [scan]; simp
theorem scan_lbrack (T : TextOps F) (p : Str) : scan T ('[' :: p) = (.lbrack, p) := by rw [scan]; simp
theorem scan_rbrack (T : TextOps F) (p : Str) : scan T (']' :: p) = (.rbrack, p) := by rw [scan]; simp
theorem scan_lbrace (T : TextOps F) (p : Str) : scan T ('{' :: p) = (.lbrace, p) := by rw [scan]; simp
theorem scan_rbrace (T : TextOps F) (p : Str) : scan T ('}' :: p) = (.rbrace, p) := by rw [scan]; simp

theorem scanLiteral_cases (t : Tok F) (ls : Str) : ∀ cs, (scanLiteral t ls cs).2.length ≤ cs.length ∧ ((scanLiteral t ls cs).1 = t ∨ (scanLiteral t ls cs).1 = .err) := by
  induction ls with
  | nil => intro cs; simp [scanLiteral]
  | cons l ls ih =>
    intro cs
    cases cs with
    | nil => simp [scanLiteral]
    | cons c cs =>
      simp only [scanLiteral]
      split
      · exact ⟨by have := (ih cs).1; simp; omega, (ih cs).2⟩
      · simp

theorem scanString_cases : ∀ (cs : Str) (m : SMode) (buf : Str), (scanString (F := F) cs m buf).2.length ≤ cs.length ∧
    ((scanString (F := F) cs m buf).1 = .err ∨ ∃ s, (scanString (F := F) cs m buf).1 = .str s) := by
  intro cs
  induction cs with
  | nil => intro m buf; rw [scanString_nil]; simp
  | cons c cs ih =>
    intro m buf
    have gen : ∀ m : SMode, (match stringStep m c with | some (m', add) => scanString (F := F) cs m' (buf ++ add) | none => (.err, cs)).2.length ≤ (c :: cs).length ∧
        ((match stringStep m c with | some (m', add) => scanString (F := F) cs m' (buf ++ add) | none => (.err, cs)).1 = .err ∨
          ∃ s, (match stringStep m c with | some (m', add) => scanString (F := F) cs m' (buf ++ add) | none => (.err, cs)).1 = .str s) := by
      intro m
      split
      · next m' add _ => exact ⟨by have := (ih m' (buf ++ add)).1; simp; omega, (ih m' (buf ++ add)).2⟩
      · simp
    cases m with
    | plain =>
      simp only [scanString]
      split
      · simp
      · exact gen .plain
    | esc => exact gen _
    | hex => exact gen _
    | lowBackslash => exact gen _
    | lowU => exact gen _
    | cont => exact gen _

theorem numDone_cases' (T : TextOps F) (ty : NType) (buf : Str) : (∃ i, numDone T ty buf = .int i) ∨ numDone T ty buf = .num (T.strtod buf) := by
  cases ty <;> simp only [numDone]
  · split
    · exact Or.inl ⟨_, rfl⟩
    · exact Or.inr rfl
  · split
    · exact Or.inl ⟨_, rfl⟩
    · exact Or.inr rfl
  · exact Or.inr trivial

theorem numDone_cases (T : TextOps F) (ty : NType) (buf : Str) : (∃ i, numDone T ty buf = .int i) ∨ ∃ x, numDone T ty buf = .num x :=
  (numDone_cases' T ty buf).imp id fun h => ⟨_, h⟩

theorem scanNumber_cases (T : TextOps F) : ∀ (cs : Str) (m : NMode) (ty : NType) (buf : Str), (scanNumber T cs m ty buf).2.length ≤ cs.length ∧
    ((scanNumber T cs m ty buf).1 = .err ∨ (∃ i, (scanNumber T cs m ty buf).1 = .int i) ∨ ∃ x, (scanNumber T cs m ty buf).1 = .num x) := by
  intro cs
  induction cs with
  | nil =>
    intro m ty buf
    simp only [scanNumber]
    split
    · exact ⟨by simp, Or.inr (numDone_cases T ty buf)⟩
    · simp
  | cons c cs ih =>
    intro m ty buf
    simp only [scanNumber]
    split
    · next m' ty' _ => exact ⟨by have := (ih m' ty' (buf ++ [c])).1; simp; omega, (ih _ _ _).2⟩
    · split
      · exact ⟨by simp, Or.inr (numDone_cases T ty buf)⟩
      · simp

/-- Scanning consumes something unless the input is at its end. -/
theorem scan_length (T : TextOps F) : ∀ p, (scan T p).2.length ≤ p.length ∧ ((scan T p).1 = .eof ∨ (scan T p).2.length < p.length) := by
  intro p
  induction p with
  | nil => simp [scan]
  | cons c cs ih =>
    have lit : ∀ t ls, (scanLiteral (F := F) t ls cs).2.length ≤ (c :: cs).length ∧ ((scanLiteral (F := F) t ls cs).1 = .eof ∨ (scanLiteral (F := F) t ls cs).2.length < (c :: cs).length) := by
      intro t ls
      have := (scanLiteral_cases t ls cs).1
      simp only [List.length_cons]
      omega
    have num : ∀ m ty buf, (scanNumber T cs m ty buf).2.length ≤ (c :: cs).length ∧ ((scanNumber T cs m ty buf).1 = .eof ∨ (scanNumber T cs m ty buf).2.length < (c :: cs).length) := by
      intro m ty buf
      have := (scanNumber_cases T cs m ty buf).1
      simp only [List.length_cons]
      omega
    have str : (scanString (F := F) cs .plain []).2.length ≤ (c :: cs).length ∧ ((scanString (F := F) cs .plain []).1 = .eof ∨ (scanString (F := F) cs .plain []).2.length < (c :: cs).length) := by
      have := (scanString_cases (F := F) cs .plain []).1
      simp only [List.length_cons]
      omega
    have tok : ∀ t : Tok F, ((t, cs) : Tok F × Str).2.length ≤ (c :: cs).length ∧ (((t, cs) : Tok F × Str).1 = .eof ∨ ((t, cs) : Tok F × Str).2.length < (c :: cs).length) := by
      intro t; simp
    have ws : (scan T cs).2.length ≤ (c :: cs).length ∧ ((scan T cs).1 = .eof ∨ (scan T cs).2.length < (c :: cs).length) := by
      have := ih.1
      simp only [List.length_cons]
      omega
    have ite := @ite_ind _ (fun x : Tok F × Str => x.2.length ≤ (c :: cs).length ∧ (x.1 = .eof ∨ x.2.length < (c :: cs).length))
    rw [scan]
    exact ite ws (ite (tok _) (ite (tok _) (ite (tok _) (ite (tok _) (ite (tok _) (ite (tok _) (ite (lit _ _) (ite (lit _ _) (ite (lit _ _) (ite str
      (ite (num _ _ _) (ite (num _ _ _) (ite (num _ _ _) (ite (tok _) (tok _)))))))))))))))

/-- Only the character `]` gives the token `]`. -/
theorem scan_ne_rbrack (T : TextOps F) {c : Char} {cs : Str} (hw : ¬ (c = ' ' ∨ c = '\t' ∨ c = '\n' ∨ c = '\r')) (h : c ≠ ']') :
    (scan T (c :: cs)).1 ≠ .rbrack := by
  have lit : ∀ t ls, t ≠ Tok.rbrack → (scanLiteral (F := F) t ls cs).1 ≠ .rbrack := by
    intro t ls ht
    rcases (scanLiteral_cases t ls cs).2 with e | e <;> rw [e]
    · exact ht
    · nofun
  have num : ∀ m ty buf, (scanNumber T cs m ty buf).1 ≠ .rbrack := by
    intro m ty buf
    rcases (scanNumber_cases T cs m ty buf).2 with e | ⟨i, e⟩ | ⟨i, e⟩ <;> rw [e] <;> nofun
  have str : (scanString (F := F) cs .plain []).1 ≠ .rbrack := by
    rcases (scanString_cases (F := F) cs .plain []).2 with e | ⟨i, e⟩ <;> rw [e] <;> nofun
  have ite := @ite_ind _ (fun x : Tok F × Str => x.1 ≠ .rbrack)
  rw [scan, if_neg hw, if_neg h]
  exact ite nofun (ite nofun (ite nofun (ite nofun (ite nofun (ite (lit _ _ nofun) (ite (lit _ _ nofun) (ite (lit _ _ nofun) (ite str
    (ite (num _ _ _) (ite (num _ _ _) (ite (num _ _ _) (ite nofun nofun))))))))))))

/-! ## The parser loop -/

/-- The run fails with a parse error, as far as the fuel reaches. -/
def Bad (x : M (Json F × Str)) : Prop := x = .error .jsonParse ∨ x = .error .diverge

/-- The loop at the start of a value, with the input before the first token. -/
def atValue (O : FloatOps F) (T : TextOps F) (f : Nat) (S : List (Frame F)) (p : Str) : M (Json F × Str) :=
  run O T f (.value (scan T p).1) S (scan T p).2

/-- The loop before a key of an object. -/
def atKey (O : FloatOps F) (T : TextOps F) (f : Nat) (S : List (Frame F)) (l : List (Str × Json F)) (p : Str) : M (Json F × Str) :=
  match scan T p with
  | (.str k, r1) =>
    match scan T r1 with
    | (.colon, r2) => atValue O T f (.obj l k :: S) r2
    | _ => .error .jsonParse
  | _ => .error .jsonParse

theorem run_eof (O : FloatOps F) (T : TextOps F) (f : Nat) (S : List (Frame F)) (r : Str) : Bad (run O T f (.value .eof) S r) := by
  cases f with
  | zero => exact Or.inr rfl
  | succ f => exact Or.inl rfl

theorem run_err (O : FloatOps F) (T : TextOps F) (f : Nat) (S : List (Frame F)) (r : Str) : Bad (run O T f (.value .err) S r) := by
  cases f with
  | zero => exact Or.inr rfl
  | succ f => exact Or.inl rfl

/-- After a value inside a container, the end of the input is an error. -/
theorem run_done_eof (O : FloatOps F) (T : TextOps F) (f : Nat) {S : List (Frame F)} (hS : S ≠ []) (v : Json F) {r r' : Str} (hr : scan T r = (.eof, r')) :
    Bad (run O T f (.done v) S r) := by
  cases f with
  | zero => exact Or.inr rfl
  | succ f =>
    cases S with
    | nil => exact absurd rfl hS
    | cons fr S => cases fr <;> simp only [run, hr] <;> exact Or.inl rfl

theorem atValue_cut (O : FloatOps F) (T : TextOps F) {p : Str} (h : p = [] ∨ scan T p = (.err, [])) (f : Nat) (S : List (Frame F)) : Bad (atValue O T f S p) := by
  unfold atValue
  rcases h with rfl | h
  · exact run_eof O T f S []
  · rw [h]; exact run_err O T f S []

/-- More fuel changes nothing. -/
theorem run_succ (O : FloatOps F) (T : TextOps F) : ∀ (f : Nat) (m : Mode F) (S : List (Frame F)) (r : Str),
    run O T f m S r ≠ .error .diverge → run O T (f + 1) m S r = run O T f m S r := by
  intro f
  induction f with
  | zero => intro m S r h; exact absurd rfl h
  | succ f ih =>
    intro m S r
    cases m with
    | value t =>
      cases t with
      | lbrace =>
        simp only [run]
        generalize scan T r = x
        obtain ⟨t1, r1⟩ := x
        cases t1 with
        | rbrace => exact ih _ _ _
        | str k =>
          simp only []
          generalize scan T r1 = y
          obtain ⟨t2, r2⟩ := y
          cases t2 with
          | colon => exact ih _ _ _
          | _ => exact fun _ => rfl
        | _ => exact fun _ => rfl
      | lbrack =>
        simp only [run]
        generalize scan T r = x
        obtain ⟨t1, r1⟩ := x
        cases t1 <;> exact ih _ _ _
      | num x =>
        simp only [run]
        by_cases hx : O.isFinite x = true
        · rw [if_pos hx, if_pos hx]; exact ih _ _ _
        · rw [if_neg hx, if_neg hx]; exact fun _ => rfl
      | tTrue => exact ih _ _ _
      | tFalse => exact ih _ _ _
      | tNull => exact ih _ _ _
      | int i => exact ih _ _ _
      | str s => exact ih _ _ _
      | _ => exact fun _ => rfl
    | done v =>
      cases S with
      | nil => exact fun _ => rfl
      | cons fr S =>
        cases fr with
        | arr l =>
          simp only [run]
          generalize scan T r = x
          obtain ⟨t1, r1⟩ := x
          cases t1 with
          | comma => exact ih _ _ _
          | rbrack => exact ih _ _ _
          | _ => exact fun _ => rfl
        | obj l k =>
          simp only [run]
          generalize scan T r = x
          obtain ⟨t1, r1⟩ := x
          cases t1 with
          | comma =>
            simp only []
            generalize scan T r1 = y
            obtain ⟨t2, r2⟩ := y
            cases t2 with
            | str k' =>
              simp only []
              generalize scan T r2 = z
              obtain ⟨t3, r3⟩ := z
              cases t3 with
              | colon => exact ih _ _ _
              | _ => exact fun _ => rfl
            | _ => exact fun _ => rfl
          | rbrace => exact ih _ _ _
          | _ => exact fun _ => rfl

theorem run_add (O : FloatOps F) (T : TextOps F) (f n : Nat) (m : Mode F) (S : List (Frame F)) (r : Str) (h : run O T f m S r ≠ .error .diverge) :
    run O T (f + n) m S r = run O T f m S r := by
  induction n with
  | zero => rfl
  | succ n ih => rw [← ih]; exact run_succ O T (f + n) m S r (by rwa [ih])

theorem Bad.less (O : FloatOps F) (T : TextOps F) {f n : Nat} {m : Mode F} {S : List (Frame F)} {r : Str} (h : Bad (run O T (f + n) m S r)) : Bad (run O T f m S r) := by
  by_cases hd : run O T f m S r = .error .diverge
  · exact Or.inr hd
  · rwa [run_add O T f n m S r hd] at h

/-- The fuel used by `parse` is enough. -/
theorem run_terminates (O : FloatOps F) (T : TextOps F) : ∀ (f : Nat) (m : Mode F) (S : List (Frame F)) (r : Str),
    (match m with | .value t => 2 * r.length + 2 ≤ f ∨ (1 ≤ f ∧ t = .eof) | .done _ => 2 * r.length + 1 ≤ f) → run O T f m S r ≠ .error .diverge := by
  intro f
  induction f with
  | zero => intro m S r h; cases m <;> simp at h
  | succ f ih =>
    have next : ∀ (S : List (Frame F)) (r : Str), 2 * r.length + 1 ≤ f → run O T f (.value (scan T r).1) S (scan T r).2 ≠ .error .diverge := by
      intro S r h
      refine ih _ _ _ ?_
      rcases (scan_length T r).2 with e | e
      · exact Or.inr ⟨by omega, e⟩
      · exact Or.inl (by omega)
    intro m S r h
    cases m with
    | value t =>
      cases t with
      | eof => nofun
      | lbrace =>
        replace h : 2 * r.length + 2 ≤ f + 1 := by rcases h with h | ⟨_, h⟩; exact h; cases h
        simp only [run]
        have h1 := scan_length T r
        generalize scan T r = x at h1
        obtain ⟨t1, r1⟩ := x
        cases t1 with
        | rbrace => exact ih _ _ _ (show 2 * r1.length + 1 ≤ f by have := h1.1; simp only at this; omega)
        | str k =>
          simp only []
          have h2 := scan_length T r1
          generalize scan T r1 = y at h2
          obtain ⟨t2, r2⟩ := y
          cases t2 with
          | colon => exact next _ _ (by have := h1.1; have := h2.1; simp only at *; omega)
          | _ => nofun
        | _ => nofun
      | lbrack =>
        replace h : 2 * r.length + 2 ≤ f + 1 := by rcases h with h | ⟨_, h⟩; exact h; cases h
        simp only [run]
        have h1 := scan_length T r
        have h2 := fun S => next S r (by omega)
        generalize scan T r = x at h1 h2
        obtain ⟨t1, r1⟩ := x
        cases t1 with
        | rbrack => exact ih _ _ _ (show 2 * r1.length + 1 ≤ f by have := h1.1; simp only at this; omega)
        | _ => exact h2 _
      | num x =>
        replace h : 2 * r.length + 2 ≤ f + 1 := by rcases h with h | ⟨_, h⟩; exact h; cases h
        simp only [run]
        by_cases hx : O.isFinite x = true
        · rw [if_pos hx]; exact ih _ _ _ (show 2 * r.length + 1 ≤ f by omega)
        · rw [if_neg hx]; nofun
      | tTrue => rcases h with h | ⟨_, h⟩; exact ih _ _ _ (show 2 * r.length + 1 ≤ f by omega); cases h
      | tFalse => rcases h with h | ⟨_, h⟩; exact ih _ _ _ (show 2 * r.length + 1 ≤ f by omega); cases h
      | tNull => rcases h with h | ⟨_, h⟩; exact ih _ _ _ (show 2 * r.length + 1 ≤ f by omega); cases h
      | int i => rcases h with h | ⟨_, h⟩; exact ih _ _ _ (show 2 * r.length + 1 ≤ f by omega); cases h
      | str s => rcases h with h | ⟨_, h⟩; exact ih _ _ _ (show 2 * r.length + 1 ≤ f by omega); cases h
      | _ => nofun
    | done v =>
      replace h : 2 * r.length + 1 ≤ f + 1 := h
      cases S with
      | nil => nofun
      | cons fr S =>
        cases fr with
        | arr l =>
          simp only [run]
          have h1 := scan_length T r
          generalize scan T r = x at h1
          obtain ⟨t1, r1⟩ := x
          cases t1 with
          | comma => exact next _ _ (by have := h1.2; simp at this; omega)
          | rbrack => exact ih _ _ _ (show 2 * r1.length + 1 ≤ f by have := h1.2; simp at this; omega)
          | _ => nofun
        | obj l k =>
          simp only [run]
          have h1 := scan_length T r
          generalize scan T r = x at h1
          obtain ⟨t1, r1⟩ := x
          cases t1 with
          | comma =>
            simp only []
            have h2 := scan_length T r1
            generalize scan T r1 = y at h2
            obtain ⟨t2, r2⟩ := y
            cases t2 with
            | str k' =>
              simp only []
              have h3 := scan_length T r2
              generalize scan T r2 = z at h3
              obtain ⟨t3, r3⟩ := z
              cases t3 with
              | colon => exact next _ _ (by have := h1.2; have := h2.1; have := h3.1; simp at *; omega)
              | _ => nofun
            | _ => nofun
          | rbrace => exact ih _ _ _ (show 2 * r1.length + 1 ≤ f by have := h1.2; simp at this; omega)
          | _ => nofun

/-! ## Reading back what was written -/

theorem Sep.prefix {p q r : Str} (hp : p <+: q ++ r) (hq : q ≠ []) (h : Sep q) : Sep p := by
  intro c hc
  cases p with
  | nil => cases hc
  | cons d p =>
    cases q with
    | nil => exact absurd rfl hq
    | cons e q =>
      have := (List.cons_prefix_cons.1 hp).1
      simp only [List.head?_cons, Option.some.injEq] at hc
      exact h c (by rw [← this, hc]; rfl)

/-- `o` writes the value `j` such that it can be read back, and such that any part of it is an error. -/
structure Reads (O : FloatOps F) (T : TextOps F) (o : Out) (j : Json F) : Prop where
  whole : o.done = true → ∀ (S : List (Frame F)) (r : Str), Sep r → ∃ n, ∀ f, atValue O T (f + n) S (o.text ++ r) = run O T f (.done j) S r
  part : ∀ p, Cut o p → ∀ S : List (Frame F), S ≠ [] ∨ IsContainer j → ∀ f, Bad (atValue O T f S p)
  head : ∃ c cs, o.text = c :: cs ∧ ¬ (c = ' ' ∨ c = '\t' ∨ c = '\n' ∨ c = '\r') ∧ c ≠ ']'

theorem Reads.not_rbrack {O : FloatOps F} {T : TextOps F} {o : Out} {j : Json F} (h : Reads O T o j) {p r : Str} (hp : p <+: o.text ++ r) : (scan T p).1 ≠ .rbrack := by
  obtain ⟨c, cs, e, h1, h2⟩ := h.head
  cases p with
  | nil => nofun
  | cons d p =>
    rw [e, List.cons_append] at hp
    have := (List.cons_prefix_cons.1 hp).1
    subst this
    exact scan_ne_rbrack T h1 h2

/-- A literal. -/
theorem reads_literal (O : FloatOps F) (T : TextOps F) {c : Char} {cs : Str} {t : Tok F} {j : Json F} (hw : ¬ (c = ' ' ∨ c = '\t' ∨ c = '\n' ∨ c = '\r') ∧ c ≠ ']')
    (hs : ∀ r, scan T (c :: r) = scanLiteral t cs r) (hr : ∀ f S r, run O T (f + 1) (.value t) S r = run O T f (.done j) S r) : Reads O T (.put (c :: cs)) j where
  whole := by
    intro _ S r _
    refine ⟨1, fun f => ?_⟩
    have : scan T (c :: cs ++ r) = (t, r) := by
      rw [List.cons_append, hs]
      clear hs
      clear * -
      induction cs with
      | nil => rfl
      | cons d cs ih => simp only [List.cons_append, scanLiteral, if_true]; exact ih
    unfold atValue
    simp only [Out.put, this, hr]
  part := by
    intro p hp S _ f
    obtain ⟨h1, h2⟩ := Cut.put.1 hp
    refine atValue_cut O T ?_ f S
    cases p with
    | nil => exact Or.inl rfl
    | cons d p =>
      obtain ⟨rfl, h3⟩ := List.cons_prefix_cons.1 h1
      refine Or.inr ?_
      rw [hs]
      have h4 : p ≠ cs := fun e => h2 (by rw [e])
      clear hs h1 h2 hp
      induction cs generalizing p with
      | nil => exact absurd (List.prefix_nil.1 h3) h4
      | cons e cs ih =>
        cases p with
        | nil => rfl
        | cons d p =>
          obtain ⟨rfl, h5⟩ := List.cons_prefix_cons.1 h3
          simp only [scanLiteral, if_true]
          exact ih p h5 (fun e => h4 (by rw [e]))
  head := ⟨c, cs, rfl, hw⟩

/-- A number. -/
theorem reads_num (O : FloatOps F) (T : TextOps F) {t : Str} {m : NMode} {ty : NType} {j : Json F} (h : numAll t = some (m, ty)) (hm : m.final = true)
    (hr : ∀ f S r, run O T (f + 1) (.value (numDone T ty t)) S r = run O T f (.done j) S r)
    (hc : ∀ p, p <+: t → ∀ s', numAll p = some s' → s'.1.final = true → (∃ k, numDone T s'.2 p = .int k) ∨ ∃ x, numDone T s'.2 p = .num x ∧ O.isFinite x = true)
    (hj : ¬ IsContainer j) : Reads O T (.put t) j where
  whole := by
    intro _ S r hS
    refine ⟨1, fun f => ?_⟩
    unfold atValue
    simp only [Out.put, scan_num T h hm hS, hr]
  part := by
    intro p hp S hS f
    have hS : S ≠ [] := hS.resolve_right hj
    rcases scan_num_cut T h hp.pre with h | h | ⟨s', h1, hf', h2⟩
    · exact atValue_cut O T (Or.inl h) f S
    · exact atValue_cut O T (Or.inr h) f S
    · unfold atValue
      rw [h2]
      cases f with
      | zero => exact Or.inr rfl
      | succ f =>
        rcases hc p hp.pre s' h1 hf' with ⟨k, hk⟩ | ⟨x, hx, hf⟩
        · rw [hk]; exact run_done_eof O T f hS _ (r' := []) rfl
        · rw [hx]; simp only [run, if_pos hf]; exact run_done_eof O T f hS _ (r' := []) rfl
  head := by
    cases t with
    | nil => cases h
    | cons c cs =>
      refine ⟨c, cs, rfl, ?_⟩
      simp only [numAll] at h
      cases hs : numStart c with
      | none => rw [hs] at h; cases h
      | some s => constructor <;> rintro e <;> rcases e with rfl | rfl | rfl | rfl <;> exact absurd hs (by simp [numStart, isDigit])

/-- A string. -/
theorem reads_str (O : FloatOps F) (T : TextOps F) (s : Str) : Reads O T (dumpStr s) (.str s) where
  whole := by
    intro h S r _
    refine ⟨1, fun f => ?_⟩
    unfold atValue
    rw [scan_str T h]
    rfl
  part := fun p hp S _ f => atValue_cut O T (scan_str_cut T hp) f S
  head := by
    refine ⟨'"', ?_⟩
    unfold dumpStr
    rw [Out.seq_text rfl]
    exact ⟨_, rfl, by decide, by decide⟩

/-- The end of an array or object. -/
def closing (ind : Nat) (c : Char) : Out := .put ['\n'] ;; spaces ind ;; .put [c]

theorem closing_text (ind : Nat) (c : Char) : (closing ind c).text = '\n' :: (List.replicate ind ' ' ++ [c]) := by
  unfold closing spaces
  rw [Out.seq_text rfl, Out.seq_text rfl]
  rfl

theorem closing_done (ind : Nat) (c : Char) : (closing ind c).done = true := by
  unfold closing spaces
  rw [Out.seq_done, Out.seq_done]
  exact ⟨rfl, rfl, rfl⟩

theorem scan_closing (T : TextOps F) (ind : Nat) (c : Char) (r : Str) : scan T ((closing ind c).text ++ r) = scan T (c :: r) := by
  rw [closing_text, List.cons_append, scan_newline, List.append_assoc, scan_spaces]
  rfl

theorem spaces_cut {n : Nat} {p : Str} (T : TextOps F) (h : Cut (spaces n) p) : scan T p = (.eof, []) := by
  obtain ⟨m, rfl⟩ := prefix_spaces h.pre
  exact scan_only_spaces T m

theorem closing_cut {ind : Nat} {c : Char} {p : Str} (T : TextOps F) (h : Cut (closing ind c) p) : scan T p = (.eof, []) := by
  rcases h.seq with h | ⟨_, q, rfl, h'⟩
  · obtain ⟨h1, h2⟩ := Cut.put.1 h
    rcases List.prefix_cons_iff.1 h1 with rfl | ⟨t, rfl, ht⟩
    · rfl
    · rw [List.prefix_nil.1 ht] at h2; exact absurd rfl h2
  · show scan T ('\n' :: q) = _
    rw [scan_newline]
    rcases h'.seq with h | ⟨_, q, rfl, h''⟩
    · exact spaces_cut T h
    · show scan T (List.replicate ind ' ' ++ q) = _
      rw [scan_spaces]
      obtain ⟨h1, h2⟩ := Cut.put.1 h''
      rcases List.prefix_cons_iff.1 h1 with rfl | ⟨t, rfl, ht⟩
      · rfl
      · rw [List.prefix_nil.1 ht] at h2; exact absurd rfl h2

theorem closing_sep (ind : Nat) (c : Char) : Sep (closing ind c).text := by
  rw [closing_text]
  intro d hd
  simp only [List.head?_cons, Option.some.injEq] at hd
  exact Or.inr hd.symm

/-- A value, indented, followed by something else. -/
theorem Reads.step {O : FloatOps F} {T : TextOps F} {o k : Out} {j : Json F} (h : Reads O T o j) (hk : Sep k.text) (hk' : k.text ≠ []) {S : List (Frame F)} (hS : S ≠ []) :
    ((o ;; k).done = true → ∀ r, ∃ n, ∀ f, atValue O T (f + n) S ((o ;; k).text ++ r) = run O T f (.done j) S (k.text ++ r)) ∧
    ∀ p, Cut (o ;; k) p → (∀ q, Cut k q → ∀ f, Bad (run O T f (.done j) S q)) → ∀ f, Bad (atValue O T f S p) := by
  constructor
  · intro hd r
    have hd := Out.seq_done.1 hd
    rw [Out.seq_text hd.1, List.append_assoc]
    exact h.whole hd.1 S _ (Sep.prefix (List.prefix_refl _) hk' hk)
  · intro p hp hq f
    rcases hp.seq with hp | ⟨hd, q, rfl, hp'⟩
    · exact h.part p hp S (Or.inl hS) f
    · obtain ⟨n, hn⟩ := h.whole hd S q (Sep.prefix (r := []) (by rw [List.append_nil]; exact hp'.pre) hk' hk)
      refine Bad.less O T (n := n) ?_
      have := hn f
      unfold atValue at this
      rw [this]
      exact hq q hp' f

theorem atValue_spaces (O : FloatOps F) (T : TextOps F) (f : Nat) (S : List (Frame F)) (n : Nat) (p : Str) : atValue O T f S (List.replicate n ' ' ++ p) = atValue O T f S p := by
  unfold atValue; rw [scan_spaces]

theorem atValue_newline (O : FloatOps F) (T : TextOps F) (f : Nat) (S : List (Frame F)) (p : Str) : atValue O T f S ('\n' :: p) = atValue O T f S p := by
  unfold atValue; rw [scan_newline]

theorem atValue_eof (O : FloatOps F) (T : TextOps F) (f : Nat) (S : List (Frame F)) {p : Str} (h : scan T p = (.eof, [])) : Bad (atValue O T f S p) := by
  unfold atValue; rw [h]; exact run_eof O T f S []

/-- The elements and the end of an array. -/
theorem reads_items (O : FloatOps F) (T : TextOps F) (ind c : Nat) : ∀ (l : List (Json F)) (x : Json F), (∀ j ∈ x :: l, Reads O T (dump O T ind j) j) →
    ∀ (acc : List (Json F)) (S : List (Frame F)), let o := dumpItems O T ind (x :: l) ;; closing c ']';
    (o.done = true → ∀ r, ∃ n, ∀ f, atValue O T (f + n) (.arr acc :: S) (o.text ++ r) = run O T f (.done (.arr (acc ++ x :: l))) S r) ∧
    (∀ p, Cut o p → ∀ f, Bad (atValue O T f (.arr acc :: S) p)) := by
  intro l
  induction l with
  | nil =>
    intro x h acc S o
    have hx := h x (by simp)
    have e : o = (spaces ind ;; (dump O T ind x ;; closing c ']')) := by
      show (dumpItems O T ind [x] ;; closing c ']') = _
      rw [dumpItems, Out.seq_assoc]
    rw [e]
    have st := hx.step (closing_sep c ']') (by rw [closing_text]; simp) (S := .arr acc :: S) (by simp)
    constructor
    · intro hd r
      obtain ⟨n, hn⟩ := st.1 (Out.seq_done.1 hd).2 r
      refine ⟨n + 1, fun f => ?_⟩
      rw [Out.seq_text rfl, show f + (n + 1) = (f + 1) + n by omega]
      simp only [spaces, Out.put, List.append_assoc, atValue_spaces]
      rw [hn]
      simp only [run, scan_closing, scan_rbrack]
    · intro p hp f
      rcases hp.seq with hp | ⟨_, q, rfl, hp'⟩
      · exact atValue_eof O T f _ (spaces_cut T hp)
      · simp only [spaces, Out.put, atValue_spaces]
        exact st.2 q hp' (fun q hq f => run_done_eof O T f (by simp) _ (closing_cut T hq)) f
  | cons y ys ih =>
    intro x h acc S o
    have hx := h x (by simp)
    obtain ⟨ih1, ih2⟩ := ih y (fun j hj => h j (by simp only [List.mem_cons] at hj ⊢; exact Or.inr hj)) (acc ++ [x]) S
    have e : o = (spaces ind ;; (dump O T ind x ;; (.put [',', '\n'] ;; (dumpItems O T ind (y :: ys) ;; closing c ']')))) := by
      show (dumpItems O T ind (x :: y :: ys) ;; closing c ']') = _
      rw [dumpItems, Out.seq_assoc, Out.seq_assoc, Out.seq_assoc]
    rw [e]
    generalize ho : (dumpItems O T ind (y :: ys) ;; closing c ']') = o' at ih1 ih2
    have ht : (Out.put [',', '\n'] ;; o').text = ',' :: '\n' :: o'.text := by rw [Out.seq_text rfl]; rfl
    have st := hx.step (k := .put [',', '\n'] ;; o') (by rw [ht]; intro d hd; simp only [List.head?_cons, Option.some.injEq] at hd; exact Or.inl hd.symm) (by rw [ht]; simp)
      (S := .arr acc :: S) (by simp)
    constructor
    · intro hd r
      have hd1 := Out.seq_done.1 (Out.seq_done.1 hd).2
      obtain ⟨n, hn⟩ := st.1 (Out.seq_done.1 hd).2 r
      obtain ⟨n', hn'⟩ := ih1 (Out.seq_done.1 hd1.2).2 r
      refine ⟨n + n' + 1, fun f => ?_⟩
      rw [Out.seq_text rfl, show f + (n + n' + 1) = (f + n' + 1) + n by omega]
      simp only [spaces, Out.put, List.append_assoc, atValue_spaces]
      have := hn (f + n' + 1)
      rw [ht] at this
      simp only [Out.put] at this
      rw [this]
      simp only [run, List.cons_append, scan_comma]
      have := hn' f
      rw [← atValue_newline] at this
      unfold atValue at this
      rw [this]
      simp
    · intro p hp f
      rcases hp.seq with hp | ⟨_, q, rfl, hp'⟩
      · exact atValue_eof O T f _ (spaces_cut T hp)
      · simp only [spaces, Out.put, atValue_spaces]
        refine st.2 q hp' (fun q hq f => ?_) f
        cases f with
        | zero => exact Or.inr rfl
        | succ f =>
          rcases hq.seq with hq | ⟨_, q, rfl, hq'⟩
          · obtain ⟨h1, h2⟩ := Cut.put.1 hq
            rcases List.prefix_cons_iff.1 h1 with rfl | ⟨t, rfl, h3⟩
            · exact Or.inl rfl
            · rcases List.prefix_cons_iff.1 h3 with rfl | ⟨t, rfl, h4⟩
              · simp only [run, scan_comma]; exact run_eof O T f _ _
              · rw [List.prefix_nil.1 h4] at h2; exact absurd rfl h2
          · simp only [run, Out.put, List.cons_append, scan_comma]
            have := ih2 q hq' f
            rw [← atValue_newline] at this
            exact this

/-! ## Objects -/

theorem keyLt_irrefl (a : Str) : keyLt a a = false := by
  induction a with
  | nil => rfl
  | cons c a ih => simp [keyLt, ih]

theorem keyLt_asymm : ∀ {a b : Str}, keyLt a b = true → keyLt b a = false := by
  intro a
  induction a with
  | nil => intro b h; cases b <;> simp_all [keyLt]
  | cons c a ih =>
    intro b h
    cases b with
    | nil => simp [keyLt] at h
    | cons d b =>
      simp only [keyLt, Bool.or_eq_true, decide_eq_true_eq, Bool.and_eq_true, Bool.or_eq_false_iff, decide_eq_false_iff_not, Bool.and_eq_false_iff] at h ⊢
      rcases h with h | ⟨h1, h2⟩
      · exact ⟨by omega, Or.inl (by omega)⟩
      · exact ⟨by omega, Or.inr (ih h2)⟩

theorem setKey_append {k : Str} (v : Json F) : ∀ {l : List (Str × Json F)}, (∀ e ∈ l, keyLt e.1 k = true) → setKey k v l = l ++ [(k, v)] := by
  intro l
  induction l with
  | nil => intro _; rfl
  | cons e l ih =>
    intro h
    obtain ⟨k', v'⟩ := e
    have h1 : keyLt k' k = true := h (k', v') (by simp)
    have h2 : k ≠ k' := by rintro rfl; rw [keyLt_irrefl] at h1; cases h1
    simp only [setKey, if_neg h2, keyLt_asymm h1, Bool.false_eq_true, if_false, List.cons_append]
    rw [ih fun e he => h e (List.mem_cons_of_mem _ he)]

theorem atKey_spaces (O : FloatOps F) (T : TextOps F) (f : Nat) (S : List (Frame F)) (l : List (Str × Json F)) (n : Nat) (p : Str) :
    atKey O T f S l (List.replicate n ' ' ++ p) = atKey O T f S l p := by
  unfold atKey; rw [scan_spaces]

theorem atKey_newline (O : FloatOps F) (T : TextOps F) (f : Nat) (S : List (Frame F)) (l : List (Str × Json F)) (p : Str) : atKey O T f S l ('\n' :: p) = atKey O T f S l p := by
  unfold atKey; rw [scan_newline]

theorem atKey_eof (O : FloatOps F) (T : TextOps F) (f : Nat) (S : List (Frame F)) (l : List (Str × Json F)) {p : Str} (h : scan T p = (.eof, [])) : Bad (atKey O T f S l p) := by
  unfold atKey; rw [h]; exact Or.inl rfl

/-- A key, indented, with its value and something else. -/
theorem Reads.key {O : FloatOps F} {T : TextOps F} {o k : Out} {j : Json F} (h : Reads O T o j) (hk : Sep k.text) (hk' : k.text ≠ []) (ind : Nat) (key : Str)
    (S : List (Frame F)) (acc : List (Str × Json F)) : let w := (spaces ind ;; (dumpStr key ;; (.put [':', ' '] ;; (o ;; k))));
    (w.done = true → ∀ r, ∃ n, ∀ f, atKey O T (f + n) S acc (w.text ++ r) = run O T f (.done j) (.obj acc key :: S) (k.text ++ r)) ∧
    ∀ p, Cut w p → (∀ q, Cut k q → ∀ f, Bad (run O T f (.done j) (.obj acc key :: S) q)) → ∀ f, Bad (atKey O T f S acc p) := by
  intro w
  have st := h.step hk hk' (S := .obj acc key :: S) (by simp)
  constructor
  · intro hd r
    obtain ⟨_, hd1⟩ := Out.seq_done.1 hd
    obtain ⟨hd2, hd3⟩ := Out.seq_done.1 hd1
    obtain ⟨_, hd4⟩ := Out.seq_done.1 hd3
    obtain ⟨n, hn⟩ := st.1 hd4 r
    refine ⟨n, fun f => ?_⟩
    show atKey O T (f + n) S acc ((spaces ind ;; (dumpStr key ;; (.put [':', ' '] ;; (o ;; k)))).text ++ r) = _
    rw [Out.seq_text rfl, Out.seq_text hd2, Out.seq_text rfl]
    simp only [spaces, Out.put, List.append_assoc, atKey_spaces]
    unfold atKey
    simp only [scan_str T hd2, List.cons_append, scan_colon, List.nil_append]
    have := hn f
    unfold atValue at this ⊢
    rw [scan_space, this]
  · intro p hp hq f
    rcases hp.seq with hp | ⟨_, q, rfl, hp1⟩
    · exact atKey_eof O T f S acc (spaces_cut T hp)
    simp only [spaces, Out.put, atKey_spaces]
    rcases hp1.seq with hp | ⟨hd, q, rfl, hp2⟩
    · rcases scan_str_cut T hp with rfl | h
      · exact Or.inl rfl
      · unfold atKey; rw [h]; exact Or.inl rfl
    unfold atKey
    simp only [scan_str T hd]
    rcases hp2.seq with hp | ⟨_, q, rfl, hp3⟩
    · obtain ⟨h1, h2⟩ := Cut.put.1 hp
      rcases List.prefix_cons_iff.1 h1 with rfl | ⟨t, rfl, h3⟩
      · exact Or.inl rfl
      · rcases List.prefix_cons_iff.1 h3 with rfl | ⟨t, rfl, h4⟩
        · simp only [scan_colon]; exact run_eof O T f _ _
        · rw [List.prefix_nil.1 h4] at h2; exact absurd rfl h2
    · simp only [Out.put, List.cons_append, scan_colon, List.nil_append]
      have := st.2 q hp3 hq f
      unfold atValue at this ⊢
      rwa [scan_space]

/-- The entries and the end of an object. -/
theorem reads_fields (O : FloatOps F) (T : TextOps F) (ind c : Nat) : ∀ (l : List (Str × Json F)) (x : Str × Json F), (∀ e ∈ x :: l, Reads O T (dump O T ind e.2) e.2) →
    (x :: l).Pairwise (fun a b => keyLt a.1 b.1 = true) →
    ∀ (acc : List (Str × Json F)) (S : List (Frame F)), (∀ a ∈ acc, ∀ b ∈ x :: l, keyLt a.1 b.1 = true) → let o := dumpFields O T ind (x :: l) ;; closing c '}';
    (o.done = true → ∀ r, ∃ n, ∀ f, atKey O T (f + n) S acc (o.text ++ r) = run O T f (.done (.obj (acc ++ x :: l))) S r) ∧
    (∀ p, Cut o p → ∀ f, Bad (atKey O T f S acc p)) := by
  intro l
  induction l with
  | nil =>
    intro x h hs acc S ha o
    obtain ⟨k, v⟩ := x
    have hx : Reads O T (dump O T ind v) v := h (k, v) (by simp)
    have hk := setKey_append v (fun a h => ha a h (k, v) (by simp))
    have e : o = (spaces ind ;; (dumpStr k ;; (.put [':', ' '] ;; (dump O T ind v ;; closing c '}')))) := by
      show (dumpFields O T ind [(k, v)] ;; closing c '}') = _
      rw [dumpFields, Out.seq_assoc, Out.seq_assoc, Out.seq_assoc]
    rw [e]
    obtain ⟨st1, st2⟩ := hx.key (closing_sep c '}') (by rw [closing_text]; simp) ind k S acc
    constructor
    · intro hd r
      obtain ⟨n, hn⟩ := st1 hd r
      refine ⟨n + 1, fun f => ?_⟩
      rw [show f + (n + 1) = (f + 1) + n by omega, hn]
      simp only [run, scan_closing, scan_rbrace, hk]
    · intro p hp f
      exact st2 p hp (fun q hq f => run_done_eof O T f (by simp) _ (closing_cut T hq)) f
  | cons y ys ih =>
    intro x h hs acc S ha o
    obtain ⟨k, v⟩ := x
    have hx : Reads O T (dump O T ind v) v := h (k, v) (by simp)
    have hk := setKey_append v (fun a h => ha a h (k, v) (by simp))
    obtain ⟨hs1, hs2⟩ := List.pairwise_cons.1 hs
    obtain ⟨ih1, ih2⟩ := ih y (fun j hj => h j (List.mem_cons_of_mem _ hj)) hs2 (acc ++ [(k, v)]) S (by
      intro a h1 b h2
      rcases List.mem_append.1 h1 with h1 | h1
      · exact ha a h1 b (List.mem_cons_of_mem _ h2)
      · rw [List.mem_singleton.1 h1]; exact hs1 b h2)
    have e : o = (spaces ind ;; (dumpStr k ;; (.put [':', ' '] ;; (dump O T ind v ;; (.put [',', '\n'] ;; (dumpFields O T ind (y :: ys) ;; closing c '}')))))) := by
      show (dumpFields O T ind ((k, v) :: y :: ys) ;; closing c '}') = _
      rw [dumpFields, Out.seq_assoc, Out.seq_assoc, Out.seq_assoc, Out.seq_assoc, Out.seq_assoc]
    rw [e]
    generalize ho : (dumpFields O T ind (y :: ys) ;; closing c '}') = o' at ih1 ih2
    have ht : (Out.put [',', '\n'] ;; o').text = ',' :: '\n' :: o'.text := by rw [Out.seq_text rfl]; rfl
    obtain ⟨st1, st2⟩ := hx.key (k := .put [',', '\n'] ;; o') (by rw [ht]; intro d hd; simp only [List.head?_cons, Option.some.injEq] at hd; exact Or.inl hd.symm) (by rw [ht]; simp)
      ind k S acc
    constructor
    · intro hd r
      obtain ⟨n, hn⟩ := st1 hd r
      have hd' : o'.done = true := by simp only [Out.seq_done] at hd; tauto
      obtain ⟨n', hn'⟩ := ih1 hd' r
      refine ⟨n + n' + 1, fun f => ?_⟩
      rw [show f + (n + n' + 1) = (f + n' + 1) + n by omega, hn, ht]
      have := hn' f
      rw [← atKey_newline] at this
      simp only [List.append_assoc, List.cons_append, List.nil_append] at this
      simp only [run, List.cons_append, scan_comma, hk]
      rw [← this]
      rfl
    · intro p hp f
      refine st2 p hp (fun q hq f => ?_) f
      cases f with
      | zero => exact Or.inr rfl
      | succ f =>
        rcases hq.seq with hq | ⟨_, q, rfl, hq'⟩
        · obtain ⟨h1, h2⟩ := Cut.put.1 hq
          rcases List.prefix_cons_iff.1 h1 with rfl | ⟨t, rfl, h3⟩
          · exact Or.inl rfl
          · rcases List.prefix_cons_iff.1 h3 with rfl | ⟨t, rfl, h4⟩
            · simp only [run, scan_comma]; exact Or.inl rfl
            · rw [List.prefix_nil.1 h4] at h2; exact absurd rfl h2
        · simp only [run, Out.put, List.cons_append, scan_comma, hk]
          have := ih2 q hq' f
          rw [← atKey_newline] at this
          exact this

theorem Out.seq_head {a b : Out} {c : Char} {cs : Str} (h : a.text = c :: cs) : ∃ cs', (a ;; b).text = c :: cs' := by
  unfold Out.seq
  split
  · exact ⟨cs ++ b.text, by simp [h]⟩
  · exact ⟨cs, h⟩

theorem dumpStr_head (s : Str) : ∃ cs, (dumpStr s).text = '"' :: cs := by
  unfold dumpStr
  exact Out.seq_head rfl

theorem fields_head (T : TextOps F) {ind : Nat} {k : Str} {o : Out} {p r : Str} (h : p <+: (spaces ind ;; (dumpStr k ;; o)).text ++ r) : (scan T p).1 ≠ .rbrace := by
  rw [Out.seq_text rfl] at h
  obtain ⟨cs, hc⟩ := Out.seq_head (b := o) (dumpStr_head k).choose_spec
  rw [hc, List.append_assoc] at h
  rcases List.prefix_or_prefix_of_prefix h (List.prefix_append (spaces ind).text _) with h1 | ⟨q, rfl⟩
  · obtain ⟨m, rfl⟩ := prefix_spaces h1
    rw [scan_only_spaces]; nofun
  · have h2 := (List.prefix_append_right_inj _).1 h
    show (scan T (List.replicate ind ' ' ++ q)).1 ≠ _
    rw [scan_spaces]
    cases q with
    | nil => nofun
    | cons d q =>
      have := (List.cons_prefix_cons.1 h2).1
      subst this
      rw [scan_quote]
      rcases (scanString_cases (F := F) q .plain []).2 with e | ⟨i, e⟩ <;> rw [e] <;> nofun

theorem run_lbrace (O : FloatOps F) (T : TextOps F) (f : Nat) (S : List (Frame F)) {p : Str} (h : (scan T p).1 ≠ .rbrace) :
    run O T (f + 1) (.value .lbrace) S p = atKey O T f S [] p := by
  simp only [run, atKey]
  generalize scan T p = x at h
  obtain ⟨t, r⟩ := x
  cases t with
  | rbrace => exact absurd rfl h
  | _ => rfl

theorem run_lbrack (O : FloatOps F) (T : TextOps F) (f : Nat) (S : List (Frame F)) {p : Str} (h : (scan T p).1 ≠ .rbrack) :
    run O T (f + 1) (.value .lbrack) S p = atValue O T f (.arr [] :: S) p := by
  unfold run atValue
  generalize scan T p = x at h
  obtain ⟨t, r⟩ := x
  cases t with
  | rbrack => exact absurd rfl h
  | _ => rfl

theorem items_head {O : FloatOps F} {T : TextOps F} {ind : Nat} {x : Json F} (hx : Reads O T (dump O T ind x) x) {o : Out} {p r : Str}
    (h : p <+: (spaces ind ;; (dump O T ind x ;; o)).text ++ r) : (scan T p).1 ≠ .rbrack := by
  rw [Out.seq_text rfl] at h
  obtain ⟨c, cs, hc, h1, h2⟩ := hx.head
  obtain ⟨cs, hc⟩ := Out.seq_head (b := o) hc
  rw [hc, List.append_assoc] at h
  rcases List.prefix_or_prefix_of_prefix h (List.prefix_append (spaces ind).text _) with h3 | ⟨q, rfl⟩
  · obtain ⟨m, rfl⟩ := prefix_spaces h3
    rw [scan_only_spaces]; nofun
  · have h4 := (List.prefix_append_right_inj _).1 h
    show (scan T (List.replicate ind ' ' ++ q)).1 ≠ _
    rw [scan_spaces]
    cases q with
    | nil => nofun
    | cons d q =>
      have := (List.cons_prefix_cons.1 h4).1
      subst this
      exact scan_ne_rbrack T h1 h2

/-- Two characters that open something. -/
theorem cut_open {c : Char} {o : Out} {p : Str} (h : Cut (.put [c, '\n'] ;; o) p) : p = [] ∨ p = [c] ∨ ∃ q, p = c :: '\n' :: q ∧ Cut o q := by
  rcases h.seq with h | ⟨_, q, rfl, h⟩
  · obtain ⟨h1, h2⟩ := Cut.put.1 h
    rcases List.prefix_cons_iff.1 h1 with rfl | ⟨t, rfl, h3⟩
    · exact Or.inl rfl
    · rcases List.prefix_cons_iff.1 h3 with rfl | ⟨t, rfl, h4⟩
      · exact Or.inr (Or.inl rfl)
      · rw [List.prefix_nil.1 h4] at h2; exact absurd rfl h2
  · exact Or.inr (Or.inr ⟨q, rfl, by assumption⟩)

/-- Every tree is read back from what has been written for it, and any part of that is an error. -/
theorem reads {O : FloatOps F} {T : TextOps F} (L : TextLaws O T) {j : Json F} (h : Tidy O j) : ∀ ind, Reads O T (dump O T ind j) j := by
  induction h with
  | null => intro ind; rw [dump]; exact reads_literal O T (t := .tNull) (by decide) (fun r => by rw [scan]; simp) (fun _ _ _ => rfl)
  | bool b =>
    intro ind
    cases b
    · rw [dump]; exact reads_literal O T (t := .tFalse) (by decide) (fun r => by rw [scan]; simp) (fun _ _ _ => rfl)
    · rw [dump]; exact reads_literal O T (t := .tTrue) (by decide) (fun r => by rw [scan]; simp) (fun _ _ _ => rfl)
  | int i hi =>
    intro ind
    rw [dump]
    obtain ⟨m, ty, h1, h2, h3, h4⟩ := dumpInt_spec (F := F) hi
    exact reads_num O T h1 h2 (fun f S r => by rw [h3]; rfl) (fun p hp s' hs _ => Or.inl (h4 p hp s' hs T)) (fun h => h)
  | num x hx =>
    intro ind
    rw [dump, if_pos hx]
    obtain ⟨m, h1, h2⟩ := toChars_text L hx
    refine reads_num O T h2 h1 (fun f S r => ?_) (fun p hp s' hs hf => ?_) (fun h => h)
    · simp only [numDone, strtod_toChars L hx, run, if_pos hx]
    · rcases numDone_cases' T s'.2 p with h | h
      · exact Or.inl h
      · exact Or.inr ⟨_, h, strtod_cut L hx hp hs hf⟩
  | str s => intro ind; rw [dump]; exact reads_str O T s
  | arr l _ ih =>
    intro ind
    cases l with
    | nil =>
      rw [dump]
      refine ⟨fun _ S r _ => ⟨1, fun f => ?_⟩, fun p hp S _ f => ?_, '[', [']'], rfl, by decide, by decide⟩
      · unfold atValue
        simp only [Out.put, List.cons_append, List.nil_append, scan_lbrack, run, scan_rbrack]
      · obtain ⟨h1, h2⟩ := Cut.put.1 hp
        rcases List.prefix_cons_iff.1 h1 with rfl | ⟨t, rfl, h3⟩
        · exact run_eof O T f S []
        · rcases List.prefix_cons_iff.1 h3 with rfl | ⟨t, rfl, h4⟩
          · unfold atValue
            rw [scan_lbrack]
            cases f with
            | zero => exact Or.inr rfl
            | succ f => exact run_eof O T f _ []
          · rw [List.prefix_nil.1 h4] at h2; exact absurd rfl h2
    | cons x xs =>
      have e : dump O T ind (.arr (x :: xs)) = (.put ['[', '\n'] ;; (dumpItems O T (ind + 2) (x :: xs) ;; closing ind ']')) := by rw [dump]; rfl
      have ihx := fun S => reads_items O T (ind + 2) ind xs x (fun j hj => ih j hj (ind + 2)) [] S
      have hh : ∀ p r, p <+: (dumpItems O T (ind + 2) (x :: xs) ;; closing ind ']').text ++ r → (scan T p).1 ≠ .rbrack := by
        intro p r hp
        cases xs with
        | nil =>
          rw [dumpItems, Out.seq_assoc] at hp
          exact items_head (ih x (by simp) _) hp
        | cons y ys =>
          rw [dumpItems, Out.seq_assoc, Out.seq_assoc] at hp
          exact items_head (ih x (by simp) _) hp
      rw [e]
      refine ⟨fun hd S r _ => ?_, fun p hp S _ f => ?_, ?_⟩
      · obtain ⟨n, hn⟩ := (ihx S).1 (Out.seq_done.1 hd).2 r
        refine ⟨n + 1, fun f => ?_⟩
        rw [Out.seq_text rfl]
        unfold atValue
        simp only [Out.put, List.cons_append, List.nil_append, scan_lbrack]
        rw [show f + (n + 1) = f + n + 1 by omega, run_lbrack O T (f + n) S (by rw [scan_newline]; exact hh _ r (List.prefix_refl _)), atValue_newline]
        exact hn f
      · rcases cut_open hp with rfl | rfl | ⟨q, rfl, hq⟩
        · exact run_eof O T f S []
        · unfold atValue
          rw [scan_lbrack]
          cases f with
          | zero => exact Or.inr rfl
          | succ f => exact run_eof O T f _ []
        · unfold atValue
          rw [scan_lbrack]
          cases f with
          | zero => exact Or.inr rfl
          | succ f =>
            simp only []
            rw [run_lbrack O T f S (by rw [scan_newline]; exact hh _ [] (by rw [List.append_nil]; exact hq.pre)), atValue_newline]
            exact (ihx S).2 q hq f
      · obtain ⟨cs, hc⟩ := Out.seq_head (a := .put ['[', '\n']) (b := dumpItems O T (ind + 2) (x :: xs) ;; closing ind ']') rfl
        exact ⟨_, cs, hc, by decide, by decide⟩
  | obj l _ hs ih =>
    intro ind
    cases l with
    | nil =>
      rw [dump]
      refine ⟨fun _ S r _ => ⟨1, fun f => ?_⟩, fun p hp S _ f => ?_, '{', ['}'], rfl, by decide, by decide⟩
      · unfold atValue
        simp only [Out.put, List.cons_append, List.nil_append, scan_lbrace, run, scan_rbrace]
      · obtain ⟨h1, h2⟩ := Cut.put.1 hp
        rcases List.prefix_cons_iff.1 h1 with rfl | ⟨t, rfl, h3⟩
        · exact run_eof O T f S []
        · rcases List.prefix_cons_iff.1 h3 with rfl | ⟨t, rfl, h4⟩
          · unfold atValue
            rw [scan_lbrace]
            cases f with
            | zero => exact Or.inr rfl
            | succ f => exact Or.inl rfl
          · rw [List.prefix_nil.1 h4] at h2; exact absurd rfl h2
    | cons x xs =>
      have e : dump O T ind (.obj (x :: xs)) = (.put ['{', '\n'] ;; (dumpFields O T (ind + 2) (x :: xs) ;; closing ind '}')) := by rw [dump]; rfl
      have ihx := fun S => reads_fields O T (ind + 2) ind xs x (fun j hj => ih j hj (ind + 2)) hs [] S (by intro a ha; cases ha)
      have hh : ∀ p r, p <+: (dumpFields O T (ind + 2) (x :: xs) ;; closing ind '}').text ++ r → (scan T p).1 ≠ .rbrace := by
        intro p r hp
        obtain ⟨k, v⟩ := x
        cases xs with
        | nil =>
          rw [dumpFields, Out.seq_assoc, Out.seq_assoc] at hp
          exact fields_head T hp
        | cons y ys =>
          rw [dumpFields, Out.seq_assoc, Out.seq_assoc] at hp
          exact fields_head T hp
      rw [e]
      refine ⟨fun hd S r _ => ?_, fun p hp S _ f => ?_, ?_⟩
      · obtain ⟨n, hn⟩ := (ihx S).1 (Out.seq_done.1 hd).2 r
        refine ⟨n + 1, fun f => ?_⟩
        rw [Out.seq_text rfl]
        unfold atValue
        simp only [Out.put, List.cons_append, List.nil_append, scan_lbrace]
        rw [show f + (n + 1) = f + n + 1 by omega, run_lbrace O T (f + n) S (by rw [scan_newline]; exact hh _ r (List.prefix_refl _)), atKey_newline]
        exact hn f
      · rcases cut_open hp with rfl | rfl | ⟨q, rfl, hq⟩
        · exact run_eof O T f S []
        · unfold atValue
          rw [scan_lbrace]
          cases f with
          | zero => exact Or.inr rfl
          | succ f => exact Or.inl rfl
        · unfold atValue
          rw [scan_lbrace]
          cases f with
          | zero => exact Or.inr rfl
          | succ f =>
            simp only []
            rw [run_lbrace O T f S (by rw [scan_newline]; exact hh _ [] (by rw [List.append_nil]; exact hq.pre)), atKey_newline]
            exact (ihx S).2 q hq f
      · obtain ⟨cs, hc⟩ := Out.seq_head (a := .put ['{', '\n']) (b := dumpFields O T (ind + 2) (x :: xs) ;; closing ind '}') rfl
        exact ⟨_, cs, hc, by decide, by decide⟩

/-! ## Whole files -/

theorem scanFirst_length (T : TextOps F) (s : Str) : (scanFirst T s).2.length ≤ s.length := by
  unfold scanFirst
  split
  · exact (scan_length T []).1
  · next c cs =>
    split
    · split
      · next a b r =>
        split
        · have := (scan_length T r).1
          simp only [List.length_cons]
          omega
        · simp
      · simp
    · exact (scan_length T _).1

theorem parse_terminates (O : FloatOps F) (T : TextOps F) (s : Str) : parse O T s ≠ .error .diverge := by
  unfold parse
  refine run_terminates O T _ _ _ _ (Or.inl ?_)
  have := scanFirst_length T s
  omega

theorem run_same (O : FloatOps F) (T : TextOps F) {f g : Nat} {m : Mode F} {S : List (Frame F)} {r : Str} (hf : run O T f m S r ≠ .error .diverge)
    (hg : run O T g m S r ≠ .error .diverge) : run O T f m S r = run O T g m S r := by
  rcases Nat.le_total f g with h | h
  · obtain ⟨n, rfl⟩ := Nat.exists_eq_add_of_le h
    exact (run_add O T f n m S r hf).symm
  · obtain ⟨n, rfl⟩ := Nat.exists_eq_add_of_le h
    exact run_add O T g n m S r hg

/-- The first character of an array or object. -/
theorem container_head (O : FloatOps F) (T : TextOps F) {j : Json F} (hj : IsContainer j) (ind : Nat) : ∃ c cs, (dump O T ind j).text = c :: cs ∧ (c = '[' ∨ c = '{') := by
  cases j with
  | arr l =>
    cases l with
    | nil => rw [dump]; exact ⟨_, _, rfl, Or.inl rfl⟩
    | cons x xs =>
      rw [dump]
      obtain ⟨cs, h⟩ := Out.seq_head (a := .put ['[', '\n']) (b := dumpItems O T (ind + 2) (x :: xs) ;; .put ['\n'] ;; spaces ind ;; .put [']']) rfl
      exact ⟨_, cs, h, Or.inl rfl⟩
  | obj l =>
    cases l with
    | nil => rw [dump]; exact ⟨_, _, rfl, Or.inr rfl⟩
    | cons x xs =>
      rw [dump]
      obtain ⟨cs, h⟩ := Out.seq_head (a := .put ['{', '\n']) (b := dumpFields O T (ind + 2) (x :: xs) ;; .put ['\n'] ;; spaces ind ;; .put ['}']) rfl
      exact ⟨_, cs, h, Or.inr rfl⟩
  | _ => exact absurd hj (fun h => h)

theorem parse_atValue (O : FloatOps F) (T : TextOps F) {j : Json F} (hj : IsContainer j) {ind : Nat} {p r : Str} (hp : p <+: (dump O T ind j).text ++ r) :
    parse O T p = atValue O T (2 * p.length + 4) [] p := by
  unfold parse atValue
  have : scanFirst T p = scan T p := by
    cases p with
    | nil => rfl
    | cons d p =>
      obtain ⟨c, cs, h1, h2⟩ := container_head O T hj ind
      rw [h1, List.cons_append] at hp
      have := (List.cons_prefix_cons.1 hp).1
      subst this
      unfold scanFirst
      exact if_neg (by rcases h2 with rfl | rfl <;> decide)
  rw [this]

theorem parse_whole {O : FloatOps F} {T : TextOps F} (L : TextLaws O T) {j : Json F} (h : Tidy O j) (hj : IsContainer j) {ind : Nat} (hd : (dump O T ind j).done = true)
    {r : Str} (hr : Sep r) : parse O T ((dump O T ind j).text ++ r) = .ok (j, r) := by
  obtain ⟨n, hn⟩ := (reads L h ind).whole hd [] r hr
  have h1 := parse_terminates O T ((dump O T ind j).text ++ r)
  rw [parse_atValue O T hj (List.prefix_refl _)] at h1 ⊢
  have h2 : atValue O T (1 + n) [] ((dump O T ind j).text ++ r) = .ok (j, r) := hn 1
  unfold atValue at h1 h2 ⊢
  rw [run_same O T h1 (g := 1 + n) (by rw [h2]; nofun), h2]

theorem parse_cut {O : FloatOps F} {T : TextOps F} (L : TextLaws O T) {j : Json F} (h : Tidy O j) (hj : IsContainer j) {ind : Nat} {p : Str}
    (hp : Cut (dump O T ind j) p) : parse O T p = .error .jsonParse := by
  have h1 := parse_terminates O T p
  have h2 := parse_atValue O T hj (p := p) (r := []) (ind := ind) (by rw [List.append_nil]; exact hp.pre)
  have := (reads L h ind).part p hp [] (Or.inr hj) (2 * p.length + 4)
  rw [← h2] at this
  exact this.resolve_right h1

end VGram
