import Verif.Proofs.GrammarParse

/-!
# Everything the parser accepts is in the grammar
-/

namespace VGram

variable {F : Type}

open _root_.VGram.Lex Dump Parse Spec

/-! ## Tokens -/

/-- The text of a token. -/
def TokText (T : TextOps F) (t : Str) : Tok F → Prop
  | .lbrack => t = ['[']
  | .rbrack => t = [']']
  | .lbrace => t = ['{']
  | .rbrace => t = ['}']
  | .colon => t = [':']
  | .comma => t = [',']
  | .tTrue => t = "true".toList
  | .tFalse => t = "false".toList
  | .tNull => t = "null".toList
  | .str s => ∃ u, t = '"' :: (u ++ ['"']) ∧ StringText u s
  | .int i => NumberText t (some i) ∧ Fits64 i
  | .num x => x = T.strtod t ∧ ∃ o, NumberText t o ∧ ∀ i, o = some i → ¬ Fits64 i
  | _ => True

theorem scanLiteral_ok {tok tok' : Tok F} : ∀ {ls cs r : Str}, scanLiteral tok ls cs = (tok', r) → tok' ≠ .err → tok' = tok ∧ cs = ls ++ r := by
  intro ls
  induction ls with
  | nil => intro cs r h _; cases h; exact ⟨rfl, rfl⟩
  | cons l ls ih =>
    intro cs r h ht
    cases cs with
    | nil => cases h; exact absurd rfl ht
    | cons c cs =>
      simp only [scanLiteral] at h
      split at h
      · next hc =>
        obtain ⟨h1, rfl⟩ := ih h ht
        exact ⟨h1, by rw [hc]; rfl⟩
      · cases h; exact absurd rfl ht

theorem number_ok (T : TextOps F) {c : Char} {cs r : Str} {s : NMode × NType} {tok : Tok F} (hs : numStart c = some s) (h : scanNumber T cs s.1 s.2 [c] = (tok, r)) (ht : tok ≠ .err) :
    ∃ a, c :: cs = a ++ r ∧ TokText T a tok := by
  obtain ⟨a, s', rfl, h1, h2, rfl⟩ := scanNumber_ok T h ht
  refine ⟨c :: a, rfl, ?_⟩
  have h3 : numAll (c :: a) = some (s'.1, s'.2) := by simp only [numAll, hs, h1]
  obtain ⟨o, h4, h5⟩ := num_sound T h3 h2
  rw [List.cons_append, List.nil_append]
  rcases h5 with ⟨i, rfl, h5, h6⟩ | ⟨h5, h6⟩
  · rw [h6]; exact ⟨h4, h5⟩
  · rw [h6]; exact ⟨rfl, o, h4, h5⟩

theorem scan_ok (T : TextOps F) : ∀ {p r : Str} {tok : Tok F}, scan T p = (tok, r) → tok ≠ .err → tok ≠ .eof → ∃ w t, p = w ++ (t ++ r) ∧ IsSpace w ∧ TokText T t tok := by
  intro p
  induction p with
  | nil => intro r tok h _ h2; cases h; exact absurd rfl h2
  | cons c cs ih =>
    intro r tok h h1 h2
    rw [scan] at h
    by_cases hw : c = ' ' ∨ c = '\t' ∨ c = '\n' ∨ c = '\r'
    · rw [if_pos hw] at h
      obtain ⟨w, t, rfl, h3, h4⟩ := ih h h1 h2
      exact ⟨c :: w, t, rfl, fun d hd => by rcases List.mem_cons.1 hd with rfl | hd; exacts [hw, h3 d hd], h4⟩
    rw [if_neg hw] at h
    have none : IsSpace [] := nofun
    by_cases e : c = '['
    · rw [if_pos e] at h; subst e; cases h; exact ⟨[], ['['], rfl, none, rfl⟩
    rw [if_neg e] at h
    clear e
    by_cases e : c = ']'
    · rw [if_pos e] at h; subst e; cases h; exact ⟨[], [']'], rfl, none, rfl⟩
    rw [if_neg e] at h
    clear e
    by_cases e : c = '{'
    · rw [if_pos e] at h; subst e; cases h; exact ⟨[], ['{'], rfl, none, rfl⟩
    rw [if_neg e] at h
    clear e
    by_cases e : c = '}'
    · rw [if_pos e] at h; subst e; cases h; exact ⟨[], ['}'], rfl, none, rfl⟩
    rw [if_neg e] at h
    clear e
    by_cases e : c = ':'
    · rw [if_pos e] at h; subst e; cases h; exact ⟨[], [':'], rfl, none, rfl⟩
    rw [if_neg e] at h
    clear e
    by_cases e : c = ','
    · rw [if_pos e] at h; subst e; cases h; exact ⟨[], [','], rfl, none, rfl⟩
    rw [if_neg e] at h
    clear e
    by_cases e : c = 't'
    · rw [if_pos e] at h; subst e; obtain ⟨rfl, rfl⟩ := scanLiteral_ok h h1; exact ⟨[], "true".toList, rfl, none, rfl⟩
    rw [if_neg e] at h
    clear e
    by_cases e : c = 'f'
    · rw [if_pos e] at h; subst e; obtain ⟨rfl, rfl⟩ := scanLiteral_ok h h1; exact ⟨[], "false".toList, rfl, none, rfl⟩
    rw [if_neg e] at h
    clear e
    by_cases e : c = 'n'
    · rw [if_pos e] at h; subst e; obtain ⟨rfl, rfl⟩ := scanLiteral_ok h h1; exact ⟨[], "null".toList, rfl, none, rfl⟩
    rw [if_neg e] at h
    clear e
    by_cases e : c = '"'
    · rw [if_pos e] at h
      subst e
      rcases (scanString_cases (F := F) cs .plain []).2 with e | ⟨i, e⟩
      · rw [h] at e; exact absurd e h1
      · rw [h] at e
        simp only at e
        subst e
        obtain ⟨t, a, rfl, h4, h5⟩ := scanString_ok h
        refine ⟨[], '"' :: (t ++ ['"']), by simp, none, t, rfl, ?_⟩
        rw [h5]
        exact strRun_text h4
    rw [if_neg e] at h
    have num : ∀ {s : NMode × NType}, numStart c = some s → scanNumber T cs s.1 s.2 [c] = (tok, r) → ∃ w t, c :: cs = w ++ (t ++ r) ∧ IsSpace w ∧ TokText T t tok := by
      intro s hs h
      obtain ⟨a, h3, h4⟩ := number_ok T hs h h1
      exact ⟨[], a, h3, none, h4⟩
    by_cases hm : c = '-'
    · rw [if_pos hm] at h; exact num (s := (.minus, .integer)) (by rw [numStart, if_pos hm]) h
    rw [if_neg hm] at h
    by_cases hz : c = '0'
    · rw [if_pos hz] at h; exact num (s := (.zero, .unsigned)) (by rw [numStart, if_neg hm, if_pos hz]) h
    rw [if_neg hz] at h
    by_cases hd : isDigit c = true
    · rw [if_pos hd] at h; exact num (s := (.any1, .unsigned)) (by rw [numStart, if_neg hm, if_neg hz, if_pos hd]) h
    rw [if_neg hd] at h
    by_cases h0 : c.toNat = 0
    · rw [if_pos h0] at h; cases h; exact absurd rfl h2
    · rw [if_neg h0] at h; cases h; exact absurd rfl h1

/-! ## Closing the open containers -/

/-- The value `v` has been read, `r` remains, and the text up to `r'` completes the containers on the stack to `j`. -/
inductive Close (O : FloatOps F) (T : TextOps F) (j : Json F) (r' : Str) : List (Frame F) → Json F → Str → Prop
  | nil : Close O T j r' [] j r'
  | arrEnd {S : List (Frame F)} {l : List (Json F)} {v : Json F} {w r : Str} : IsSpace w → Close O T j r' S (.arr (l ++ [v])) r →
      Close O T j r' (.arr l :: S) v (w ++ ']' :: r)
  | arrMore {S : List (Frame F)} {l : List (Json F)} {v v' : Json F} {w w1 t r : Str} : IsSpace w → IsSpace w1 → Value O T t v' →
      Close O T j r' (.arr (l ++ [v]) :: S) v' r → Close O T j r' (.arr l :: S) v (w ++ ',' :: (w1 ++ (t ++ r)))
  | objEnd {S : List (Frame F)} {l : List (Str × Json F)} {k : Str} {v : Json F} {w r : Str} : IsSpace w → Close O T j r' S (.obj (setKey k v l)) r →
      Close O T j r' (.obj l k :: S) v (w ++ '}' :: r)
  | objMore {S : List (Frame F)} {l : List (Str × Json F)} {k k' : Str} {v v' : Json F} {w w0 u w1 w2 t r : Str} : IsSpace w → IsSpace w0 → StringText u k' → IsSpace w1 →
      IsSpace w2 → Value O T t v' → Close O T j r' (.obj (setKey k v l) k' :: S) v' r →
      Close O T j r' (.obj l k :: S) v (w ++ ',' :: (w0 ++ ('"' :: (u ++ ('"' :: (w1 ++ (':' :: (w2 ++ (t ++ r)))))))))

theorem Close.arr {O : FloatOps F} {T : TextOps F} {j : Json F} {r' : Str} {S0 : List (Frame F)} {v : Json F} {r : Str} (h : Close O T j r' S0 v r) :
    ∀ {l : List (Json F)} {S : List (Frame F)}, S0 = .arr l :: S → ∃ u l' r2, r = u ++ ']' :: r2 ∧ (∀ w t, IsSpace w → Value O T t v → Grammar O T (w ++ (t ++ u)) (.items (v :: l'))) ∧
      Close O T j r' S (.arr (l ++ v :: l')) r2 := by
  induction h with
  | nil => nofun
  | @arrEnd S l v w r hw h _ =>
    intro l0 S0 e
    cases e
    exact ⟨w, [], r, rfl, fun w0 t hw0 ht => .item w0 t w v hw0 ht hw, h⟩
  | @arrMore S l v v' w w1 t r hw hw1 ht h ih =>
    intro l0 S0 e
    cases e
    obtain ⟨u, l', r2, rfl, h1, h2⟩ := ih rfl
    refine ⟨w ++ ',' :: (w1 ++ (t ++ u)), v' :: l', r2, by simp, fun w0 t0 hw0 ht0 => .items w0 t0 w _ v _ hw0 ht0 hw (h1 w1 t hw1 ht), ?_⟩
    rw [List.append_assoc] at h2
    exact h2
  | objEnd => nofun
  | objMore => nofun

theorem Close.obj {O : FloatOps F} {T : TextOps F} {j : Json F} {r' : Str} {S0 : List (Frame F)} {v : Json F} {r : Str} (h : Close O T j r' S0 v r) :
    ∀ {l : List (Str × Json F)} {k : Str} {S : List (Frame F)}, S0 = .obj l k :: S → ∃ u l' r2, r = u ++ '}' :: r2 ∧
      (∀ w q w1 w2 t, IsSpace w → StringText q k → IsSpace w1 → IsSpace w2 → Value O T t v →
        Grammar O T (w ++ ('"' :: (q ++ ('"' :: (w1 ++ (':' :: (w2 ++ (t ++ u)))))))) (.members ((k, v) :: l'))) ∧
      Close O T j r' S (.obj (addAll ((k, v) :: l') l)) r2 := by
  induction h with
  | nil => nofun
  | arrEnd => nofun
  | arrMore => nofun
  | @objEnd S l k v w r hw h _ =>
    intro l0 k0 S0 e
    cases e
    exact ⟨w, [], r, rfl, fun w0 q w1 w2 t hw0 hq hw1 hw2 ht => .member w0 q k w1 w2 t w v hw0 hq hw1 hw2 ht hw, h⟩
  | @objMore S l k k' v v' w w0 u w1 w2 t r hw hw0 hu hw1 hw2 ht h ih =>
    intro l0 k0 S0 e
    cases e
    obtain ⟨u', l', r2, rfl, h1, h2⟩ := ih rfl
    exact ⟨w ++ ',' :: (w0 ++ ('"' :: (u ++ ('"' :: (w1 ++ (':' :: (w2 ++ (t ++ u')))))))), (k', v') :: l', r2, by simp,
      fun a q a1 a2 t0 ha hq ha1 ha2 ht0 => .members a q k a1 a2 t0 w _ v _ ha hq ha1 ha2 ht0 hw (h1 w0 u w1 w2 t hw0 hu hw1 hw2 ht), h2⟩

/-! ## The loop -/

theorem scan_single (T : TextOps F) {p r : Str} {tok : Tok F} {c : Char} (h : scan T p = (tok, r)) (h1 : tok ≠ .err) (h2 : tok ≠ .eof) (h3 : ∀ t, TokText T t tok → t = [c]) :
    ∃ w, p = w ++ c :: r ∧ IsSpace w := by
  obtain ⟨w, t, rfl, hw, ht⟩ := scan_ok T h h1 h2
  obtain rfl := h3 t ht
  exact ⟨w, rfl, hw⟩

theorem scan_key (T : TextOps F) {p r k : Str} (h : scan T p = (.str k, r)) : ∃ w u, p = w ++ ('"' :: (u ++ ('"' :: r))) ∧ IsSpace w ∧ StringText u k := by
  obtain ⟨w, t, rfl, hw, u, rfl, hu⟩ := scan_ok T h (by nofun) (by nofun)
  exact ⟨w, u, by simp, hw, hu⟩

/-- What a successful run from the start of a value has read. -/
def ValueRead (O : FloatOps F) (T : TextOps F) (j : Json F) (r' : Str) (S : List (Frame F)) (p : Str) : Prop :=
  ∃ w t v r1, p = w ++ (t ++ r1) ∧ IsSpace w ∧ Value O T t v ∧ Close O T j r' S v r1

theorem run_sound (O : FloatOps F) (T : TextOps F) {j : Json F} {r' : Str} : ∀ (f : Nat),
    (∀ S p, atValue O T f S p = .ok (j, r') → ValueRead O T j r' S p) ∧ (∀ S v r, run O T f (.done v) S r = .ok (j, r') → Close O T j r' S v r) := by
  intro f
  induction f with
  | zero => exact ⟨fun S p h => by simp [atValue, run] at h, fun S v r h => by simp [run] at h⟩
  | succ f ih =>
    refine ⟨fun S p h => ?_, fun S v r h => ?_⟩
    · unfold atValue at h
      generalize hp : scan T p = x at h
      obtain ⟨tok, r⟩ := x
      have simple : ∀ {v : Json F}, tok ≠ .err → tok ≠ .eof → (∀ t, TokText T t tok → Value O T t v) → run O T f (.done v) S r = .ok (j, r') → ValueRead O T j r' S p := by
        intro v h1 h2 h3 h4
        obtain ⟨w, t, rfl, hw, ht⟩ := scan_ok T hp h1 h2
        exact ⟨w, t, v, r, rfl, hw, h3 t ht, ih.2 S v r h4⟩
      cases tok with
      | lbrace =>
        obtain ⟨w, rfl, hw⟩ := scan_single T (c := '{') hp (by nofun) (by nofun) (fun t h => h)
        simp only [run] at h
        generalize hq : scan T r = y at h
        obtain ⟨tok1, r1⟩ := y
        cases tok1 with
        | rbrace =>
          obtain ⟨w1, rfl, hw1⟩ := scan_single T (c := '}') hq (by nofun) (by nofun) (fun t h => h)
          exact ⟨w, '{' :: (w1 ++ ['}']), .obj [], r1, by simp, hw, .emptyObject w1 hw1, ih.2 _ _ _ h⟩
        | str k =>
          obtain ⟨w1, u, rfl, hw1, hu⟩ := scan_key T hq
          simp only at h
          generalize hq2 : scan T r1 = z at h
          obtain ⟨tok2, r2⟩ := z
          cases tok2 with
          | colon =>
            obtain ⟨w2, rfl, hw2⟩ := scan_single T (c := ':') hq2 (by nofun) (by nofun) (fun t h => h)
            simp only at h
            obtain ⟨w3, t, v, r3, rfl, hw3, hv, hc⟩ := ih.1 _ _ h
            obtain ⟨u', l', r4, rfl, h1, h2⟩ := Close.obj hc rfl
            refine ⟨w, '{' :: (w1 ++ ('"' :: (u ++ ('"' :: (w2 ++ (':' :: (w3 ++ (t ++ u')))))))) ++ ['}'], .obj (addAll ((k, v) :: l') []), r4, by simp, hw, ?_, h2⟩
            exact .object _ _ _ (h1 w1 u w2 w3 t hw1 hu hw2 hw3 hv) (addAll_map _)
          | _ => cases h
        | _ => cases h
      | lbrack =>
        obtain ⟨w, rfl, hw⟩ := scan_single T (c := '[') hp (by nofun) (by nofun) (fun t h => h)
        by_cases hb : (scan T r).1 = .rbrack
        · simp only [run] at h
          generalize hq : scan T r = y at h hb
          obtain ⟨tok1, r1⟩ := y
          simp only at hb
          subst hb
          obtain ⟨w1, rfl, hw1⟩ := scan_single T (c := ']') hq (by nofun) (by nofun) (fun t h => h)
          exact ⟨w, '[' :: (w1 ++ [']']), .arr [], r1, by simp, hw, .emptyArray w1 hw1, ih.2 _ _ _ h⟩
        · rw [run_lbrack O T f S hb] at h
          obtain ⟨w1, t, v, r1, rfl, hw1, hv, hc⟩ := ih.1 _ _ h
          obtain ⟨u, l', r2, rfl, h1, h2⟩ := Close.arr hc rfl
          exact ⟨w, '[' :: ((w1 ++ (t ++ u)) ++ [']']), .arr (v :: l'), r2, by simp, hw, .array _ _ (h1 w1 t hw1 hv), h2⟩
      | num x =>
        simp only [run] at h
        split at h
        · next hf =>
          refine simple (by nofun) (by nofun) (fun t ht => ?_) h
          obtain ⟨rfl, o, ho, hn⟩ := ht
          cases o with
          | none => exact .real t ho hf
          | some i => exact .big t i ho (hn i rfl) hf
        · cases h
      | tFalse => exact simple (by nofun) (by nofun) (fun t ht => by rw [show t = _ from ht]; exact .false) h
      | tTrue => exact simple (by nofun) (by nofun) (fun t ht => by rw [show t = _ from ht]; exact .true) h
      | tNull => exact simple (by nofun) (by nofun) (fun t ht => by rw [show t = _ from ht]; exact .null) h
      | int i => exact simple (by nofun) (by nofun) (fun t ht => .int t i ht.1 ht.2) h
      | str s => exact simple (by nofun) (by nofun) (fun t ht => by obtain ⟨u, rfl, hu⟩ := ht; exact .string u s hu) h
      | _ => cases h
    · cases S with
      | nil => simp only [run, Except.ok.injEq, Prod.mk.injEq] at h; obtain ⟨rfl, rfl⟩ := h; exact .nil
      | cons fr S =>
        cases fr with
        | arr l =>
          simp only [run] at h
          generalize hq : scan T r = y at h
          obtain ⟨tok1, r1⟩ := y
          cases tok1 with
          | comma =>
            obtain ⟨w, rfl, hw⟩ := scan_single T (c := ',') hq (by nofun) (by nofun) (fun t h => h)
            simp only at h
            obtain ⟨w1, t, v', r2, rfl, hw1, hv, hc⟩ := ih.1 _ _ h
            exact .arrMore hw hw1 hv hc
          | rbrack =>
            obtain ⟨w, rfl, hw⟩ := scan_single T (c := ']') hq (by nofun) (by nofun) (fun t h => h)
            exact .arrEnd hw (ih.2 _ _ _ h)
          | _ => cases h
        | obj l k =>
          simp only [run] at h
          generalize hq : scan T r = y at h
          obtain ⟨tok1, r1⟩ := y
          cases tok1 with
          | comma =>
            obtain ⟨w, rfl, hw⟩ := scan_single T (c := ',') hq (by nofun) (by nofun) (fun t h => h)
            simp only at h
            generalize hq1 : scan T r1 = y1 at h
            obtain ⟨tok2, r2⟩ := y1
            cases tok2 with
            | str k' =>
              obtain ⟨w0, u, rfl, hw0, hu⟩ := scan_key T hq1
              simp only at h
              generalize hq2 : scan T r2 = y2 at h
              obtain ⟨tok3, r3⟩ := y2
              cases tok3 with
              | colon =>
                obtain ⟨w1, rfl, hw1⟩ := scan_single T (c := ':') hq2 (by nofun) (by nofun) (fun t h => h)
                simp only at h
                obtain ⟨w2, t, v', r4, rfl, hw2, hv, hc⟩ := ih.1 _ _ h
                exact .objMore hw hw0 hu hw1 hw2 hv hc
              | _ => cases h
            | _ => cases h
          | rbrace =>
            obtain ⟨w, rfl, hw⟩ := scan_single T (c := '}') hq (by nofun) (by nofun) (fun t h => h)
            exact .objEnd hw (ih.2 _ _ _ h)
          | _ => cases h

/-- The loop ends with a value, a parse error, an overflow or without fuel. -/
theorem run_outcome (O : FloatOps F) (T : TextOps F) : ∀ (f : Nat) (m : Mode F) (S : List (Frame F)) (r : Str),
    (∃ x, run O T f m S r = .ok x) ∨ run O T f m S r = .error .jsonParse ∨ run O T f m S r = .error .outOfRange ∨ run O T f m S r = .error .diverge := by
  intro f
  have err : ∀ {e : M (Json F × Str)}, e = .error .jsonParse → (∃ x, e = .ok x) ∨ e = .error .jsonParse ∨ e = .error .outOfRange ∨ e = .error .diverge := fun h => Or.inr (Or.inl h)
  induction f with
  | zero => intro m S r; exact Or.inr (Or.inr (Or.inr (by simp [run])))
  | succ f ih =>
    intro m S r
    cases m with
    | value t =>
      cases t with
      | lbrace =>
        simp only [run]
        generalize scan T r = y
        obtain ⟨tok1, r1⟩ := y
        cases tok1 with
        | rbrace => exact ih _ _ _
        | str k =>
          simp only
          generalize scan T r1 = z
          obtain ⟨tok2, r2⟩ := z
          cases tok2 with
          | colon => exact ih _ _ _
          | _ => exact err rfl
        | _ => exact err rfl
      | lbrack =>
        by_cases hb : (scan T r).1 = .rbrack
        · simp only [run]
          generalize scan T r = y at hb
          obtain ⟨tok1, r1⟩ := y
          simp only at hb
          subst hb
          exact ih _ _ _
        · rw [run_lbrack O T f S hb]; exact ih _ _ _
      | num x =>
        simp only [run]
        split
        · exact ih _ _ _
        · exact Or.inr (Or.inr (Or.inl rfl))
      | tFalse => exact ih _ _ _
      | tTrue => exact ih _ _ _
      | tNull => exact ih _ _ _
      | int i => exact ih _ _ _
      | str s => exact ih _ _ _
      | _ => exact err rfl
    | done v =>
      cases S with
      | nil => exact Or.inl ⟨_, rfl⟩
      | cons fr S =>
        cases fr with
        | arr l =>
          simp only [run]
          generalize scan T r = y
          obtain ⟨tok1, r1⟩ := y
          cases tok1 with
          | comma => exact ih _ _ _
          | rbrack => exact ih _ _ _
          | _ => exact err rfl
        | obj l k =>
          simp only [run]
          generalize scan T r = y
          obtain ⟨tok1, r1⟩ := y
          cases tok1 with
          | comma =>
            simp only
            generalize scan T r1 = y1
            obtain ⟨tok2, r2⟩ := y1
            cases tok2 with
            | str k' =>
              simp only
              generalize scan T r2 = y2
              obtain ⟨tok3, r3⟩ := y2
              cases tok3 with
              | colon => exact ih _ _ _
              | _ => exact err rfl
            | _ => exact err rfl
          | rbrace => exact ih _ _ _
          | _ => exact err rfl

/-! ## Whole files -/

theorem parse_sound {O : FloatOps F} {T : TextOps F} {s r : Str} {j : Json F} (h : parse O T s = .ok (j, r)) :
    ∃ b w t, s = b ++ (w ++ (t ++ r)) ∧ (b = [] ∨ b = byteOrderMark) ∧ IsSpace w ∧ Value O T t j := by
  have main : ∀ {f : Nat} {p : Str}, atValue O T f [] p = .ok (j, r) → ∃ w t, p = w ++ (t ++ r) ∧ IsSpace w ∧ Value O T t j := by
    intro f p h
    obtain ⟨w, t, v, r1, rfl, hw, hv, hc⟩ := (run_sound O T f).1 [] p h
    cases hc
    exact ⟨w, t, rfl, hw, hv⟩
  unfold parse at h
  generalize 2 * s.length + 4 = f at h
  unfold scanFirst at h
  cases s with
  | nil => obtain ⟨w, t, e, hw, hv⟩ := main (p := []) h; exact ⟨[], w, t, e, Or.inl rfl, hw, hv⟩
  | cons c cs =>
    simp only at h
    by_cases hc : c.toNat = 0xEF
    · rw [if_pos hc] at h
      match cs, h with
      | [], h => cases f <;> simp [run] at h
      | [_], h => cases f <;> simp [run] at h
      | a :: b :: q, h =>
        simp only at h
        by_cases hb : a.toNat = 0xBB ∧ b.toNat = 0xBF
        · rw [if_pos hb] at h
          obtain ⟨w, t, rfl, hw, hv⟩ := main h
          refine ⟨byteOrderMark, w, t, ?_, Or.inr rfl, hw, hv⟩
          rw [byteOrderMark, ← hc, ← hb.1, ← hb.2, char_of_toNat, char_of_toNat, char_of_toNat]
          rfl
        · rw [if_neg hb] at h; cases f <;> simp [run] at h
    · rw [if_neg hc] at h
      obtain ⟨w, t, e, hw, hv⟩ := main h
      exact ⟨[], w, t, e, Or.inl rfl, hw, hv⟩

theorem parse_complete {O : FloatOps F} {T : TextOps F} {b w t r : Str} {j : Json F} (hb : b = [] ∨ b = byteOrderMark) (hw : IsSpace w) (hv : Value O T t j) (hr : IsContainer j ∨ Follow r) :
    parse O T (b ++ (w ++ (t ++ r))) = .ok (j, r) := by
  obtain ⟨⟨c, cs, ht, h1, h2, h3⟩, h4⟩ := grammar_reads hv
  obtain ⟨n, hn⟩ := h4 [] r hr
  have e : scanFirst T (b ++ (w ++ (t ++ r))) = scan T (t ++ r) := by
    rcases hb with rfl | rfl
    · rw [List.nil_append]
      cases w with
      | nil =>
        rw [List.nil_append, ht, List.cons_append]
        simp only [scanFirst]
        rw [if_neg h3]
      | cons d w =>
        rw [← scan_ws T hw (t ++ r), List.cons_append]
        simp only [scanFirst]
        rw [if_neg (by rcases hw d (by simp) with rfl | rfl | rfl | rfl <;> decide)]
    · rw [← scan_ws T hw (t ++ r)]
      simp only [byteOrderMark, List.cons_append, List.nil_append, scanFirst]
      rw [if_pos (by decide), if_pos (by decide)]
  have h5 := parse_terminates O T (b ++ (w ++ (t ++ r)))
  unfold parse at h5 ⊢
  rw [e] at h5 ⊢
  have h6 : run O T (1 + n) (.value (scan T (t ++ r)).1) [] (scan T (t ++ r)).2 = .ok (j, r) := hn 1
  rw [run_same O T h5 (g := 1 + n) (by rw [h6]; nofun), h6]

end VGram
