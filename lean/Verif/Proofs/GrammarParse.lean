import Verif.Proofs.GrammarNumber
import Verif.Proofs.JsonParse

/-!
# The parser accepts the grammar
-/

namespace VGram

variable {F : Type}

open _root_.VGram.Lex Dump Parse Spec

/-! ## Objects as maps -/

theorem keyLt_iff : ∀ {a b : Str}, keyLt a b = true ↔ a.map Char.toNat < b.map Char.toNat := by
  intro a
  induction a with
  | nil => intro b; cases b <;> simp [keyLt]
  | cons c a ih =>
    intro b
    cases b with
    | nil => simp [keyLt]
    | cons d b =>
      simp only [keyLt, List.map_cons, Bool.or_eq_true, Bool.and_eq_true, decide_eq_true_eq, List.cons_lt_cons_iff, ih]

theorem keyLt_total {a b : Str} (h1 : keyLt a b = false) (h2 : a ≠ b) : keyLt b a = true := by
  rw [keyLt_iff]
  have h1 : ¬ a.map Char.toNat < b.map Char.toNat := by rw [← keyLt_iff, h1]; simp
  refine lt_of_le_of_ne (not_lt.1 h1) fun e => h2 ?_
  have := congrArg (List.map Char.ofNat) e
  simp only [List.map_map] at this
  have id' : ∀ l : Str, l.map (Char.ofNat ∘ Char.toNat) = l := fun l => by
    conv_rhs => rw [← List.map_id l]
    exact List.map_congr_left fun x _ => char_of_toNat x
  rw [id', id'] at this
  exact this.symm

theorem keyLt_trans {a b c : Str} (h1 : keyLt a b = true) (h2 : keyLt b c = true) : keyLt a c = true := by
  rw [keyLt_iff] at *
  exact lt_trans h1 h2

/-- The keys are strictly increasing. -/
def KeySorted (m : List (Str × Json F)) : Prop := m.Pairwise (fun a b => keyLt a.1 b.1 = true)

theorem mem_setKey {k : Str} {v : Json F} : ∀ {m : List (Str × Json F)}, KeySorted m → ∀ e, e ∈ setKey k v m ↔ e = (k, v) ∨ (e.1 ≠ k ∧ e ∈ m) := by
  intro m
  induction m with
  | nil => intro _ e; simp [setKey]
  | cons x m ih =>
    intro hs e
    obtain ⟨k', v'⟩ := x
    obtain ⟨h1, h2⟩ := List.pairwise_cons.1 hs
    rw [setKey]
    split
    · next hk =>
      subst hk
      rw [List.mem_cons, List.mem_cons]
      constructor
      · rintro (h | h)
        · exact Or.inl h
        · refine Or.inr ⟨?_, Or.inr h⟩
          rintro rfl
          have := h1 e h
          rw [keyLt_irrefl] at this; cases this
      · rintro (h | ⟨h, rfl | h'⟩)
        · exact Or.inl h
        · exact absurd rfl h
        · exact Or.inr h'
    · next hk =>
      split
      · next hl =>
        rw [List.mem_cons]
        refine or_congr Iff.rfl ⟨fun h => ⟨?_, h⟩, fun h => h.2⟩
        rintro rfl
        rcases List.mem_cons.1 h with rfl | h
        · exact hk rfl
        · have := keyLt_trans hl (h1 e h)
          rw [keyLt_irrefl] at this; cases this
      · rw [List.mem_cons, ih h2, List.mem_cons]
        constructor
        · rintro (rfl | h | ⟨h, h'⟩)
          · exact Or.inr ⟨fun e => hk e.symm, Or.inl rfl⟩
          · exact Or.inl h
          · exact Or.inr ⟨h, Or.inr h'⟩
        · rintro (h | ⟨h, rfl | h'⟩)
          · exact Or.inr (Or.inl h)
          · exact Or.inl rfl
          · exact Or.inr (Or.inr ⟨h, h'⟩)

theorem setKey_sorted {k : Str} {v : Json F} : ∀ {m : List (Str × Json F)}, KeySorted m → KeySorted (setKey k v m) := by
  intro m
  induction m with
  | nil => intro _; simp [setKey, KeySorted]
  | cons x m ih =>
    intro hs
    obtain ⟨k', v'⟩ := x
    obtain ⟨h1, h2⟩ := List.pairwise_cons.1 hs
    rw [setKey]
    split
    · next hk => subst hk; exact List.pairwise_cons.2 ⟨h1, h2⟩
    · next hk =>
      split
      · next hl =>
        refine List.pairwise_cons.2 ⟨fun e he => ?_, hs⟩
        rcases List.mem_cons.1 he with rfl | he
        · exact hl
        · exact keyLt_trans hl (h1 e he)
      · next hl =>
        refine List.pairwise_cons.2 ⟨fun e he => ?_, ih h2⟩
        rcases (mem_setKey h2 e).1 he with rfl | ⟨-, he⟩
        · exact keyLt_total (by simpa using hl) hk
        · exact h1 e he

/-- The map after reading the members `l`. -/
def addAll (l : List (Str × Json F)) (acc : List (Str × Json F)) : List (Str × Json F) := l.foldl (fun m e => setKey e.1 e.2 m) acc

theorem addAll_map (l : List (Str × Json F)) : IsMap l (addAll l []) := by
  have main : KeySorted (addAll l []) ∧ ∀ k v, (k, v) ∈ addAll l [] ↔ ∃ l₁ l₂, l = l₁ ++ (k, v) :: l₂ ∧ ∀ e ∈ l₂, e.1 ≠ k := by
    induction l using List.reverseRecOn with
    | nil => exact ⟨List.Pairwise.nil, by simp [addAll]⟩
    | append_singleton l x ih =>
      obtain ⟨k0, v0⟩ := x
      have e : addAll (l ++ [(k0, v0)]) [] = setKey k0 v0 (addAll l []) := by simp [addAll, List.foldl_append]
      rw [e]
      refine ⟨setKey_sorted ih.1, fun k v => ?_⟩
      rw [mem_setKey ih.1, ih.2]
      constructor
      · rintro (h | ⟨hk, l1, l2, rfl, h2⟩)
        · cases h; exact ⟨l, [], rfl, nofun⟩
        · refine ⟨l1, l2 ++ [(k0, v0)], by simp, fun e he => ?_⟩
          rcases List.mem_append.1 he with he | he
          · exact h2 e he
          · simp only [List.mem_singleton] at he; subst he; exact fun h => hk h.symm
      · rintro ⟨l1, l2, h1, h2⟩
        rcases List.eq_nil_or_concat l2 with rfl | ⟨l3, y, rfl⟩
        · have := List.append_inj' h1 rfl
          simp only [List.cons.injEq, and_true] at this
          exact Or.inl this.2.symm
        · have h1 : l ++ [(k0, v0)] = (l1 ++ (k, v) :: l3) ++ [y] := by simp [h1]
          have := List.append_inj' h1 rfl
          simp only [List.cons.injEq, and_true] at this
          obtain ⟨rfl, rfl⟩ := this
          exact Or.inr ⟨fun h => h2 (k0, v0) (by simp) h.symm, l1, l3, rfl, fun e he => h2 e (by simp [he])⟩
  refine ⟨main.1.imp fun {a b} h => keyLt_iff.1 h, main.2⟩

theorem IsMap.unique {l m m' : List (Str × Json F)} (h : IsMap l m) (h' : IsMap l m') : m = m' := by
  have nodup : ∀ {m : List (Str × Json F)}, IsMap l m → m.Nodup := fun h => h.1.imp fun {a b} hab e => by subst e; exact lt_irrefl _ hab
  have perm : m.Perm m' := (List.perm_ext_iff_of_nodup (nodup h) (nodup h')).2 fun e => by
    obtain ⟨k, v⟩ := e
    rw [h.2, h'.2]
  exact perm.eq_of_pairwise (fun a b _ _ h1 h2 => absurd (lt_trans h1 h2) (lt_irrefl _)) h.1 h'.1

theorem isMap_iff {l m : List (Str × Json F)} : IsMap l m ↔ m = addAll l [] :=
  ⟨fun h => IsMap.unique h (addAll_map l), fun h => h ▸ addAll_map l⟩

/-! ## White space -/

theorem scan_ws (T : TextOps F) {w : Str} (hw : IsSpace w) (p : Str) : scan T (w ++ p) = scan T p := by
  induction w with
  | nil => rfl
  | cons c w ih =>
    rw [List.cons_append, scan, if_pos (hw c (by simp))]
    exact ih fun d hd => hw d (List.mem_cons_of_mem _ hd)

theorem Follow.space {w r : Str} {c : Char} (hw : IsSpace w) (hc : c = ',' ∨ c = ']' ∨ c = '}') : Follow (w ++ c :: r) := by
  intro d hd
  cases w with
  | nil =>
    simp only [List.nil_append, List.head?_cons, Option.some.injEq] at hd
    subst hd
    rcases hc with h | h | h <;> simp [h]
  | cons e w =>
    simp only [List.cons_append, List.head?_cons, Option.some.injEq] at hd
    subst hd
    rcases hw e (by simp) with h | h | h | h <;> simp [h]

theorem atValue_ws (O : FloatOps F) (T : TextOps F) (f : Nat) (S : List (Frame F)) {w : Str} (hw : IsSpace w) (p : Str) : atValue O T f S (w ++ p) = atValue O T f S p := by
  unfold atValue; rw [scan_ws T hw]

/-! ## Everything in the grammar is read -/

/-- The first character of a value. -/
def ValueHead (t : Str) : Prop := ∃ c cs, t = c :: cs ∧ ¬ (c = ' ' ∨ c = '\t' ∨ c = '\n' ∨ c = '\r') ∧ c ≠ ']' ∧ c.toNat ≠ 0xEF

theorem ValueHead.mk {c : Char} {cs : Str} (h : ¬ (c = ' ' ∨ c = '\t' ∨ c = '\n' ∨ c = '\r') ∧ c ≠ ']' ∧ c.toNat ≠ 0xEF) : ValueHead (c :: cs) := ⟨c, cs, rfl, h⟩

theorem number_head {t : Str} {o : Option Int} (h : NumberText t o) : ValueHead t := by
  have digit : ∀ {c : Char} {cs : Str}, IsDigit c → ValueHead (c :: cs) := by
    intro c cs hc
    refine .mk ⟨?_, ?_, ?_⟩
    · rintro (rfl | rfl | rfl | rfl) <;> exact absurd hc (by unfold IsDigit; decide)
    · rintro rfl; exact absurd hc (by unfold IsDigit; decide)
    · intro e; unfold IsDigit at hc; omega
  have num : ∀ {a u : Str} {n : Nat}, IsNumeral a n → ValueHead (a ++ u) := by
    intro a u n ha
    cases a with
    | nil => exact absurd rfl ha.nonempty
    | cons c cs => exact digit (ha.digits c (by simp))
  cases h with
  | pos _ n h => have := @num t [] n h; rwa [List.append_nil] at this
  | neg t n h => exact .mk (by decide)
  | real sign t f x n e hs h _ _ _ =>
    rcases hs with rfl | rfl
    · rw [List.nil_append]; exact num h
    · exact .mk (by decide)

/-- What it means that the parser reads a piece. -/
def ReadsPiece (O : FloatOps F) (T : TextOps F) (t : Str) : Piece F → Prop
  | .value j => ValueHead t ∧ ∀ S r, IsContainer j ∨ Follow r → ∃ n, ∀ f, atValue O T (f + n) S (t ++ r) = run O T f (.done j) S r
  | .items l => (∀ r, (scan T (t ++ r)).1 ≠ .rbrack) ∧
      ∀ S r acc, ∃ n, ∀ f, atValue O T (f + n) (.arr acc :: S) (t ++ ']' :: r) = run O T f (.done (.arr (acc ++ l))) S r
  | .members l => (∀ r, (scan T (t ++ r)).1 ≠ .rbrace) ∧
      ∀ S r acc, ∃ n, ∀ f, atKey O T (f + n) S acc (t ++ '}' :: r) = run O T f (.done (.obj (addAll l acc))) S r

theorem reads_lit (O : FloatOps F) (T : TextOps F) {t : Str} {tok : Tok F} {j : Json F} (h : ∀ r, scan T (t ++ r) = (tok, r))
    (hr : ∀ f S r, run O T (f + 1) (.value tok) S r = run O T f (.done j) S r) : ∀ S r, IsContainer j ∨ Follow r → ∃ n, ∀ f, atValue O T (f + n) S (t ++ r) = run O T f (.done j) S r := by
  intro S r _
  exact ⟨1, fun f => by unfold atValue; rw [h r]; exact hr f S r⟩

theorem value_space {O : FloatOps F} {T : TextOps F} {t : Str} {j : Json F} (h : ReadsPiece O T t (.value j)) {w : Str} (hw : IsSpace w) (r : Str) : (scan T (w ++ (t ++ r))).1 ≠ .rbrack := by
  obtain ⟨⟨c, cs, rfl, h1, h2, -⟩, -⟩ := h
  rw [scan_ws T hw, List.cons_append]
  exact scan_ne_rbrack T h1 h2

theorem key_space (T : TextOps F) {w k s : Str} (hw : IsSpace w) (hk : StringText k s) (r : Str) : (scan T (w ++ ('"' :: (k ++ ('"' :: r))))).1 ≠ .rbrace := by
  rw [scan_ws T hw, scan_string_grammar T hk]
  nofun

theorem reads_member {O : FloatOps F} {T : TextOps F} {w k s w₁ w₂ t w₃ q : Str} {j : Json F} {c : Char} (hw : IsSpace w) (hk : StringText k s) (h1 : IsSpace w₁) (h2 : IsSpace w₂)
    (ht : ReadsPiece O T t (.value j)) (h3 : IsSpace w₃) (hc : c = ',' ∨ c = ']' ∨ c = '}') (S : List (Frame F)) (acc : List (Str × Json F)) :
    ∃ n, ∀ f, atKey O T (f + n) S acc (w ++ ('"' :: (k ++ ('"' :: (w₁ ++ (':' :: (w₂ ++ (t ++ (w₃ ++ c :: q))))))))) =
      run O T f (.done j) (.obj acc s :: S) (w₃ ++ c :: q) := by
  obtain ⟨n, hn⟩ := ht.2 (.obj acc s :: S) (w₃ ++ c :: q) (Or.inr (Follow.space h3 hc))
  refine ⟨n, fun f => ?_⟩
  rw [← hn f]
  unfold atKey
  rw [scan_ws T hw, scan_string_grammar T hk]
  simp only [scan_ws T h1, scan_colon]
  rw [atValue_ws O T _ _ h2]

theorem grammar_reads {O : FloatOps F} {T : TextOps F} {t : Str} {p : Piece F} (h : Grammar O T t p) : ReadsPiece O T t p := by
  induction h with
  | null => exact ⟨.mk (by decide), reads_lit O T (tok := .tNull) (fun r => by rw [show "null".toList ++ r = 'n' :: 'u' :: 'l' :: 'l' :: r from rfl, scan]; simp [scanLiteral]) fun f S r => rfl⟩
  | true => exact ⟨.mk (by decide), reads_lit O T (tok := .tTrue) (fun r => by rw [show "true".toList ++ r = 't' :: 'r' :: 'u' :: 'e' :: r from rfl, scan]; simp [scanLiteral]) fun f S r => rfl⟩
  | false => exact ⟨.mk (by decide), reads_lit O T (tok := .tFalse) (fun r => by rw [show "false".toList ++ r = 'f' :: 'a' :: 'l' :: 's' :: 'e' :: r from rfl, scan]; simp [scanLiteral]) fun f S r => rfl⟩
  | int t i h hi =>
    refine ⟨number_head h, fun S r hr => ⟨1, fun f => ?_⟩⟩
    obtain ⟨tok, h1, h2⟩ := scan_number_grammar T h (hr.resolve_left fun h => h)
    unfold atValue
    rw [h1]
    rcases h2 with ⟨_, ⟨⟩, _, rfl⟩ | ⟨h2, -⟩
    · rfl
    · exact absurd hi (h2 i rfl)
  | big t i h hi hf =>
    refine ⟨number_head h, fun S r hr => ⟨1, fun f => ?_⟩⟩
    obtain ⟨tok, h1, h2⟩ := scan_number_grammar T h (hr.resolve_left fun h => h)
    unfold atValue
    rw [h1]
    rcases h2 with ⟨_, ⟨⟩, h2, -⟩ | ⟨-, rfl⟩
    · exact absurd h2 hi
    · simp only [run, hf, if_true]
  | real t h hf =>
    refine ⟨number_head h, fun S r hr => ⟨1, fun f => ?_⟩⟩
    obtain ⟨tok, h1, h2⟩ := scan_number_grammar T h (hr.resolve_left fun h => h)
    unfold atValue
    rw [h1]
    rcases h2 with ⟨_, h2, -⟩ | ⟨-, rfl⟩
    · cases h2
    · simp only [run, hf, if_true]
  | string t s h =>
    refine ⟨.mk (by decide), reads_lit O T (tok := .str s) (fun r => ?_) fun f S r => rfl⟩
    have := scan_string_grammar T h r
    simpa using this
  | emptyArray w hw =>
    refine ⟨.mk (by decide), fun S r _ => ⟨1, fun f => ?_⟩⟩
    unfold atValue
    rw [List.cons_append, scan_lbrack]
    simp only [run, List.append_assoc, scan_ws T hw, List.cons_append, List.nil_append, scan_rbrack]
  | array t l _ ih =>
    refine ⟨.mk (by decide), fun S r _ => ?_⟩
    obtain ⟨n, hn⟩ := ih.2 S r []
    refine ⟨n + 1, fun f => ?_⟩
    unfold atValue
    rw [List.cons_append, scan_lbrack, ← Nat.add_assoc]
    simp only [List.append_assoc, List.cons_append, List.nil_append]
    rw [run_lbrack O T _ _ (ih.1 _), hn f, List.nil_append]
  | emptyObject w hw =>
    refine ⟨.mk (by decide), fun S r _ => ⟨1, fun f => ?_⟩⟩
    unfold atValue
    rw [List.cons_append, scan_lbrace]
    simp only [run, List.append_assoc, scan_ws T hw, List.cons_append, List.nil_append, scan_rbrace]
  | object t l m _ hm ih =>
    refine ⟨.mk (by decide), fun S r _ => ?_⟩
    obtain ⟨n, hn⟩ := ih.2 S r []
    refine ⟨n + 1, fun f => ?_⟩
    unfold atValue
    rw [List.cons_append, scan_lbrace, ← Nat.add_assoc]
    simp only [List.append_assoc, List.cons_append, List.nil_append]
    rw [run_lbrace O T _ _ (ih.1 _), hn f, isMap_iff.1 hm]
  | item w t w' j hw _ hw' ih =>
    refine ⟨fun r => ?_, fun S r acc => ?_⟩
    · simp only [List.append_assoc]; exact value_space ih hw _
    · obtain ⟨n, hn⟩ := ih.2 (.arr acc :: S) (w' ++ ']' :: r) (Or.inr (Follow.space hw' (by simp)))
      refine ⟨n + 1, fun f => ?_⟩
      simp only [List.append_assoc]
      rw [atValue_ws O T _ _ hw, show f + (n + 1) = (f + 1) + n by omega, hn (f + 1)]
      simp only [run, scan_ws T hw', scan_rbrack]
  | items w t w' u j l hw _ hw' _ ih ihl =>
    refine ⟨fun r => ?_, fun S r acc => ?_⟩
    · simp only [List.append_assoc]; exact value_space ih hw _
    · obtain ⟨n, hn⟩ := ih.2 (.arr acc :: S) (w' ++ ',' :: (u ++ ']' :: r)) (Or.inr (Follow.space hw' (by simp)))
      obtain ⟨n2, hn2⟩ := ihl.2 S r (acc ++ [j])
      refine ⟨n2 + 1 + n, fun f => ?_⟩
      simp only [List.append_assoc, List.cons_append]
      rw [atValue_ws O T _ _ hw, show f + (n2 + 1 + n) = (f + n2 + 1) + n by omega, hn (f + n2 + 1)]
      simp only [run, scan_ws T hw', scan_comma]
      have := hn2 f
      rw [List.append_assoc, List.cons_append, List.nil_append] at this
      exact this
  | member w k s w₁ w₂ t w₃ j hw hk h1 h2 _ h3 ih =>
    refine ⟨fun r => ?_, fun S r acc => ?_⟩
    · simp only [List.append_assoc, List.cons_append]; exact key_space T hw hk _
    · obtain ⟨n, hn⟩ := reads_member hw hk h1 h2 ih h3 (c := '}') (by simp) S acc (q := r)
      refine ⟨n + 1, fun f => ?_⟩
      simp only [List.append_assoc, List.cons_append]
      rw [show f + (n + 1) = (f + 1) + n by omega, hn (f + 1)]
      simp only [run, scan_ws T h3, scan_rbrace]
      rfl
  | members w k s w₁ w₂ t w₃ u j l hw hk h1 h2 _ h3 _ ih ihl =>
    refine ⟨fun r => ?_, fun S r acc => ?_⟩
    · simp only [List.append_assoc, List.cons_append]; exact key_space T hw hk _
    · obtain ⟨n, hn⟩ := reads_member hw hk h1 h2 ih h3 (c := ',') (by simp) S acc (q := u ++ '}' :: r)
      obtain ⟨n2, hn2⟩ := ihl.2 S r (setKey s j acc)
      refine ⟨n2 + 1 + n, fun f => ?_⟩
      simp only [List.append_assoc, List.cons_append]
      rw [show f + (n2 + 1 + n) = (f + n2 + 1) + n by omega, hn (f + n2 + 1)]
      have := hn2 f
      simp only [run, scan_ws T h3, scan_comma]
      exact this

end VGram
