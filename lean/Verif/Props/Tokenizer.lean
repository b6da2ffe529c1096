import Verif.Proofs.Tokenizer

/-!
# Tokenizers (C32-C36)

`tokAfter o k hist` is a new tokenizer of kind `k` after the calls `transform(s)` for `s` in `hist`.
`o` is the order in which the compiler evaluates the assignment at base_tokenizer.cc:36, which
C++14 leaves unspecified.
-/

namespace VGram.Props

open VGram Spec

/-- The ASCII lower-case letters and digits. -/
def lowerDigits : List Char := "abcdefghijklmnopqrstuvwxyz0123456789".toList

/-- The ASCII upper-case letters, each with its lower-case form. -/
def upperPairs : List (Char × Char) := "ABCDEFGHIJKLMNOPQRSTUVWXYZ".toList.zip "abcdefghijklmnopqrstuvwxyz".toList

/-- What a character contributes to the normalised text: itself if it is a lower-case letter or a digit,
its lower-case form if it is an upper-case letter, nothing otherwise. -/
def normalForm (c : Char) : List Char :=
  if c ∈ lowerDigits then [c] else (upperPairs.filter fun p => p.1 = c).map fun p => p.2

theorem ofNat_toNat_mem {c : Char} {n : Nat} (h : c.toNat = n) : c = Char.ofNat n := by
  rw [← h, Char.ofNat_toNat]

theorem normalForm_eq (c : Char) : normalForm c = if isAlnum c then [lower c] else [] := by
  by_cases hlt : c.toNat < 128
  · have key : ∀ n : Fin 128, normalForm (Char.ofNat n) = if isAlnum (Char.ofNat n) then [lower (Char.ofNat n)] else [] := by
      decide +kernel
    have := key ⟨c.toNat, hlt⟩
    rwa [show Char.ofNat (⟨c.toNat, hlt⟩ : Fin 128).val = c from Char.ofNat_toNat c] at this
  · have h1 : isAlnum c = false := by
      unfold isAlnum
      simp
      omega
    rw [h1]
    have hld : ∀ x ∈ lowerDigits, x.toNat < 128 := by decide +kernel
    have hup : ∀ p ∈ upperPairs, p.1.toNat < 128 := by decide +kernel
    unfold normalForm
    rw [if_neg fun hc => hlt (hld c hc), List.filter_eq_nil_iff.2]
    · rfl
    · intro p hp
      simp only [decide_eq_true_eq]
      rintro rfl
      exact hlt (hup _ hp)

/-- **C32.** The character tokenizer's normalisation is the concatenation of the normal forms of the characters. -/
theorem C32_normalize (s : Str) : Tokenizer.normalize .char s = (s.map normalForm).flatten := by
  simp only [Tokenizer.normalize]
  induction s with
  | nil => rfl
  | cons c cs ih =>
    rw [List.map_cons, List.flatten_cons, ← ih, normalForm_eq]
    by_cases h : isAlnum c <;> simp [h]

theorem normalForm_lower (c x : Char) (h : x ∈ normalForm c) : x ∈ lowerDigits := by
  unfold normalForm at h
  split at h
  · next hc =>
    rw [List.mem_singleton] at h
    exact h ▸ hc
  · obtain ⟨p, hp, rfl⟩ := List.mem_map.1 h
    have hup : ∀ p ∈ upperPairs, p.2 ∈ lowerDigits := by decide +kernel
    exact hup p (List.mem_of_mem_filter hp)

/-- **C32.** The result has only lower-case letters and digits. -/
theorem C32_only_lower_digits (s : Str) : ∀ c ∈ Tokenizer.normalize .char s, c ∈ lowerDigits := by
  rw [C32_normalize]
  intro c hc
  obtain ⟨l, hl, hc⟩ := List.mem_flatten.1 hc
  obtain ⟨x, _, rfl⟩ := List.mem_map.1 hl
  exact normalForm_lower x c hc

theorem normalize_fixed (s : Str) (h : ∀ c ∈ s, c ∈ lowerDigits) : Tokenizer.normalize .char s = s := by
  rw [C32_normalize]
  induction s with
  | nil => rfl
  | cons c cs ih =>
    rw [List.map_cons, List.flatten_cons, ih fun x hx => h x (by simp [hx])]
    have hc := h c (by simp)
    simp [normalForm, hc]

/-- **C32.** Normalising twice is normalising once (both tokenizers). -/
theorem C32_idempotent (k : TokKind) (s : Str) : Tokenizer.normalize k (Tokenizer.normalize k s) = Tokenizer.normalize k s := by
  cases k with
  | char => exact normalize_fixed _ (C32_only_lower_digits s)
  | word => rfl

example : Tokenizer.normalize .char "Ab-C 9é!".toList = "abc9".toList := by decide +kernel

/-! ## Codes -/

/-- The tokenizer after transforming the texts of `hist`. -/
def tokAfter (o : EvalOrder) (k : TokKind) (hist : List Str) : Tokenizer := ((Tokenizer.new k).transformAll o hist).1

/-- The tokens of a text. -/
def tokensOf (k : TokKind) (s : Str) : List Str := Tokenizer.tokenize k (Tokenizer.normalize k s)

theorem transformAll_inv {o : EvalOrder} {t : Tokenizer} {l : List Str} (h : TokInv o t (seen l)) (hist : List Str) :
    TokInv o (t.transformAll o hist).1 (seen (l ++ (hist.map (tokensOf t.kind)).flatten)) ∧ (t.transformAll o hist).1.kind = t.kind := by
  induction hist generalizing t l with
  | nil => simpa [Tokenizer.transformAll] using h
  | cons s ss ih =>
    have h1 := h.all (tokensOf t.kind s)
    have h2 := ih (t := (t.transform o s).1) h1.1
    rw [transform_kind] at h2
    simp only [Tokenizer.transformAll]
    refine ⟨?_, h2.2⟩
    have := h2.1
    rwa [List.append_assoc] at this

theorem tokAfter_inv (o : EvalOrder) (k : TokKind) (hist : List Str) :
    TokInv o (tokAfter o k hist) (seen (hist.map (tokensOf k)).flatten) ∧ (tokAfter o k hist).kind = k := by
  have := transformAll_inv (l := []) (TokInv.new o k) hist
  rwa [List.nil_append] at this

theorem transformAll_append (o : EvalOrder) (t : Tokenizer) (a b : List Str) :
    (t.transformAll o (a ++ b)).1 = ((t.transformAll o a).1.transformAll o b).1 := by
  induction a generalizing t with
  | nil => rfl
  | cons s ss ih => simp [Tokenizer.transformAll, ih]

theorem tokAfter_transform (o : EvalOrder) (k : TokKind) (hist : List Str) (s : Str) :
    ((tokAfter o k hist).transform o s).2 =
      (tokensOf k s).map fun x => ((o.first + (seen ((hist.map (tokensOf k)).flatten ++ tokensOf k s)).idxOf x : Nat) : Int) := by
  have h := tokAfter_inv o k hist
  have := (h.1.all (tokensOf k s)).2
  unfold Tokenizer.transform
  rw [h.2]
  exact this

/-- **C33 (partial).** With the right-hand side of base_tokenizer.cc:36 evaluated first, decoding the codes of a text
gives the concatenation of its tokens, immediately and after any later calls.
Missing: the other evaluation order, for which the property fails (`C33_lhs_first_false`). -/
theorem C33_decode_transform_tokens_partial (k : TokKind) (hist later : List Str) (s : Str) :
    (tokAfter .rhsFirst k (hist ++ s :: later)).decode ((tokAfter .rhsFirst k hist).transform .rhsFirst s).2 =
      (tokensOf k s).flatten := by
  have hp : seen ((hist.map (tokensOf k)).flatten ++ tokensOf k s) <+: seen ((hist ++ s :: later).map (tokensOf k)).flatten := by
    have := seen_append_prefix ((hist.map (tokensOf k)).flatten ++ tokensOf k s) (later.map (tokensOf k)).flatten
    simpa using this
  have hmem : ∀ x ∈ tokensOf k s, x ∈ seen ((hist.map (tokensOf k)).flatten ++ tokensOf k s) := fun x hx => by
    rw [seen_mem]
    exact List.mem_append_right _ hx
  rw [tokAfter_transform, show ((tokensOf k s).map fun x => ((EvalOrder.rhsFirst.first + (seen ((hist.map (tokensOf k)).flatten ++ tokensOf k s)).idxOf x : Nat) : Int)) =
    (tokensOf k s).map fun x => ((EvalOrder.rhsFirst.first + (seen ((hist ++ s :: later).map (tokensOf k)).flatten).idxOf x : Nat) : Int) from
      List.map_congr_left fun x hx => by rw [idxOf_prefix hp (hmem x hx)]]
  exact (tokAfter_inv _ _ _).1.decode_codes fun x hx => hp.subset (hmem x hx)

/-- **C33 (partial).** Character tokenizer: `decode(transform(text)) = normalize(text)`; same restriction. -/
theorem C33_decode_transform_partial (hist later : List Str) (s : Str) :
    (tokAfter .rhsFirst .char (hist ++ s :: later)).decode ((tokAfter .rhsFirst .char hist).transform .rhsFirst s).2 =
      Tokenizer.normalize .char s := by
  rw [C33_decode_transform_tokens_partial]
  exact tokenize_char_flatten _

/-- **C33 is false** when the left-hand side is evaluated first: the text `ab` is decoded to `b`. -/
theorem C33_lhs_first_false :
    (tokAfter .lhsFirst .char ["ab".toList]).decode ((tokAfter .lhsFirst .char []).transform .lhsFirst "ab".toList).2 = "b".toList ∧
      Tokenizer.normalize .char "ab".toList = "ab".toList := by decide +kernel

example : ((tokAfter .rhsFirst .char ["Hi".toList]).transform .rhsFirst "ih, 7".toList).2 = [1, 0, 2] ∧
    (tokAfter .rhsFirst .char ["Hi".toList, "ih, 7".toList, "x".toList]).decode [1, 0, 2] = "ih7".toList := by decide +kernel

/-- **C34 (partial).** The code table after any history: token number `i` in order of first occurrence has code `i`
when the right-hand side is evaluated first and `i + 1` otherwise.  Missing: for the second order codes
do not start at 0 (`C34_lhs_first_false`). -/
theorem C34_codes_first_occurrence_partial (o : EvalOrder) (k : TokKind) (hist : List Str) (i : Nat) (x : Str) :
    (tokAfter o k hist).forward.get? x = some ((o.first + i : Nat) : Int) ↔ (seen (hist.map (tokensOf k)).flatten)[i]? = some x := by
  have h := (tokAfter_inv o k hist).1
  rw [h.fwd]
  split
  · next hm =>
    rw [Option.some_inj, Int.natCast_inj, Nat.add_left_cancel_iff]
    constructor
    · rintro rfl
      rw [List.getElem?_eq_getElem (List.idxOf_lt_length_iff.2 hm)]
      simp
    · intro hi
      obtain ⟨hlt, rfl⟩ := List.getElem?_eq_some_iff.1 hi
      exact (seen_nodup _).idxOf_getElem i hlt
  · next hm =>
    simp only [reduceCtorEq, false_iff]
    exact fun hi => hm (List.mem_of_getElem? hi)

/-- **C34.** Codes are exactly `first … first + n - 1`. -/
theorem C34_codes_dense_partial (o : EvalOrder) (k : TokKind) (hist : List Str) (c : Int) :
    (∃ x, (tokAfter o k hist).forward.get? x = some c) ↔ (o.first : Int) ≤ c ∧ c < o.first + (tokAfter o k hist).forward.length := by
  have h := (tokAfter_inv o k hist).1
  rw [h.flen]
  constructor
  · rintro ⟨x, hx⟩
    rw [h.fwd] at hx
    split at hx
    · next hm =>
      rw [Option.some_inj] at hx
      have := List.idxOf_lt_length_iff.2 hm
      omega
    · cases hx
  · rintro ⟨h0, hlt⟩
    have hi : (c - o.first).toNat < (seen (hist.map (tokensOf k)).flatten).length := by omega
    refine ⟨(seen (hist.map (tokensOf k)).flatten)[(c - o.first).toNat], ?_⟩
    have := (C34_codes_first_occurrence_partial o k hist (c - o.first).toNat _).2 (List.getElem?_eq_getElem hi)
    rw [this]
    congr 1
    omega

/-- **C34.** Two tokens never share a code, whatever the evaluation order. -/
theorem C34_codes_injective (o : EvalOrder) (k : TokKind) (hist : List Str) (x y : Str) (c : Int)
    (hx : (tokAfter o k hist).forward.get? x = some c) (hy : (tokAfter o k hist).forward.get? y = some c) : x = y := by
  have hc := (C34_codes_dense_partial o k hist c).1 ⟨x, hx⟩
  have he : c = ((o.first + (c - o.first).toNat : Nat) : Int) := by omega
  rw [he] at hx hy
  rw [C34_codes_first_occurrence_partial] at hx hy
  rw [hx] at hy
  exact Option.some_inj.1 hy

/-- **C34.** A token's code never changes, whatever the evaluation order. -/
theorem C34_codes_permanent (o : EvalOrder) (k : TokKind) (hist later : List Str) (x : Str) (c : Int)
    (h : (tokAfter o k hist).forward.get? x = some c) : (tokAfter o k (hist ++ later)).forward.get? x = some c := by
  have hc := (C34_codes_dense_partial o k hist c).1 ⟨x, h⟩
  have he : c = ((o.first + (c - o.first).toNat : Nat) : Int) := by omega
  rw [he] at h ⊢
  rw [C34_codes_first_occurrence_partial] at h ⊢
  obtain ⟨t, ht⟩ := seen_append_prefix (hist.map (tokensOf k)).flatten (later.map (tokensOf k)).flatten
  rw [List.map_append, List.flatten_append, ← ht, List.getElem?_append_left (List.getElem?_eq_some_iff.1 h).1]
  exact h

/-- **C34 is false** when the left-hand side is evaluated first: the first code is 1, not 0. -/
theorem C34_lhs_first_false :
    (tokAfter .lhsFirst .char ["a".toList]).forward = [("a".toList, 1)] ∧ (tokAfter .rhsFirst .char ["a".toList]).forward = [("a".toList, 0)] := by
  decide +kernel

example : (tokAfter .rhsFirst .word ["to be or not to be".toList]).forward =
    [("to".toList, 0), ("be".toList, 1), ("or".toList, 2), ("not".toList, 3)] := by decide +kernel

/-! ## Word tokenizer -/

/-- Joins with single spaces. -/
def joinSp : List Str → Str
  | [] => []
  | [x] => x
  | x :: xs => x ++ ' ' :: joinSp xs

theorem wordLoop_ne_nil (cur cs : Str) (h : cur ≠ []) : Tokenizer.wordLoop cur cs ≠ [] := by
  induction cs generalizing cur with
  | nil => simp [Tokenizer.wordLoop, h]
  | cons c cs ih =>
    simp only [Tokenizer.wordLoop]
    split
    · simp
    · exact ih _ (by simp)

theorem wordLoop_nil {cs : Str} (h : Tokenizer.wordLoop [] cs = []) : cs = [] := by
  cases cs with
  | nil => rfl
  | cons c cs =>
    simp only [Tokenizer.wordLoop] at h
    rw [if_neg (by simp)] at h
    exact absurd h (wordLoop_ne_nil _ _ (by simp))

theorem wordLoop_join (cur cs : Str) :
    joinSp (Tokenizer.wordLoop cur cs) = cur ++ cs ∨ joinSp (Tokenizer.wordLoop cur cs) ++ [' '] = cur ++ cs := by
  induction cs generalizing cur with
  | nil =>
    simp only [Tokenizer.wordLoop]
    split
    · next h => subst h; exact .inl rfl
    · exact .inl (by simp [joinSp])
  | cons c cs ih =>
    simp only [Tokenizer.wordLoop]
    split
    · next h =>
      obtain ⟨rfl, hcur⟩ := h
      by_cases he : Tokenizer.wordLoop [] cs = []
      · have := wordLoop_nil he
        subst this
        rw [he]
        exact .inr rfl
      · have hj : joinSp (cur :: Tokenizer.wordLoop [] cs) = cur ++ ' ' :: joinSp (Tokenizer.wordLoop [] cs) := by
          cases hw : Tokenizer.wordLoop [] cs with
          | nil => exact absurd hw he
          | cons y ys => rfl
        rw [hj]
        rcases ih [] with h1 | h1
        · exact .inl (by rw [h1]; rfl)
        · refine .inr ?_
          rw [List.append_assoc, List.cons_append, h1]
          rfl
    · rcases ih (cur ++ [c]) with h1 | h1
      · exact .inl (by rw [h1]; simp)
      · exact .inr (by rw [h1]; simp)

/-- **C35.** The tokens of a text joined with single spaces give the text back, up to one trailing space. -/
theorem C35_words_join (s : Str) :
    joinSp (tokensOf .word s) = s ∨ joinSp (tokensOf .word s) ++ [' '] = s := wordLoop_join [] s

theorem wordLoop_tokens (cur cs : Str) : (∀ c ∈ cur.drop 1, c ≠ ' ') →
    ∀ w ∈ Tokenizer.wordLoop cur cs, w ≠ [] ∧ ∀ c ∈ w.drop 1, c ≠ ' ' := by
  induction cs generalizing cur with
  | nil =>
    intro hcur w hw
    simp only [Tokenizer.wordLoop] at hw
    split at hw
    · cases hw
    · next h =>
      rw [List.mem_singleton] at hw
      subst hw
      exact ⟨h, hcur⟩
  | cons c cs ih =>
    intro hcur w hw
    simp only [Tokenizer.wordLoop] at hw
    split at hw
    · next h =>
      rcases List.mem_cons.1 hw with rfl | hw
      · exact ⟨h.2, hcur⟩
      · exact ih [] (by simp) w hw
    · next h =>
      refine ih (cur ++ [c]) ?_ w hw
      cases cur with
      | nil => simp
      | cons a as =>
        intro x hx
        simp only [List.cons_append, List.drop_succ_cons, List.drop_zero, List.mem_append, List.mem_singleton] at hx
        rcases hx with hx | rfl
        · exact hcur x (by simpa using hx)
        · exact fun e => h ⟨e, by simp⟩

/-- **C35.** No token is empty and no token has a space except possibly as its first character. -/
theorem C35_words_shape (s : Str) : ∀ w ∈ tokensOf .word s, w ≠ [] ∧ ∀ c ∈ w.drop 1, c ≠ ' ' :=
  wordLoop_tokens [] s (by simp)

example : tokensOf .word "to  be ".toList = ["to".toList, " be".toList] ∧ joinSp ["to".toList, " be".toList] = "to  be".toList ∧
    tokensOf .word "  x".toList = [" ".toList, "x".toList] := by decide +kernel

/-! ## Restored tokenizers -/

/-- All entries of `t` are those of `m`, unchanged, and entries with codes that are at least `n`. -/
def Above (m : AMap Str Int) (n : Nat) (t : Tokenizer) : Prop :=
  n ≤ t.forward.length ∧ (∀ y k, m.get? y = some k → t.forward.get? y = some k) ∧
    ∀ y k, t.forward.get? y = some k → m.get? y = none → (n : Int) ≤ k

theorem Above.one {m : AMap Str Int} {n : Nat} {t : Tokenizer} (h : Above m n t) (o : EvalOrder) (x : Str) :
    Above m n (t.codeOne o x).1 := by
  unfold Tokenizer.codeOne
  cases hx : t.forward.get? x with
  | some k => exact h
  | none =>
    obtain ⟨h1, h2, h3⟩ := h
    refine ⟨?_, ?_, ?_⟩
    · simp only [AMap.length_set]
      split <;> omega
    · intro y k hy
      simp only [AMap.get?_set]
      rw [if_neg]
      · exact h2 y k hy
      · rintro rfl
        rw [h2 _ _ hy] at hx
        cases hx
    · intro y k hy hm
      simp only [AMap.get?_set] at hy
      split at hy
      · cases hy
        cases o
        · show (n : Int) ≤ (t.forward.length : Int)
          omega
        · show (n : Int) ≤ (t.forward.length : Int) + 1
          omega
      · exact h3 y k hy hm

theorem Above.all {m : AMap Str Int} {n : Nat} {t : Tokenizer} (h : Above m n t) (o : EvalOrder) (xs : List Str) :
    Above m n (t.codeAll o xs).1 := by
  induction xs generalizing t with
  | nil => exact h
  | cons x xs ih => exact ih (h.one o x)

theorem Above.texts {m : AMap Str Int} {n : Nat} {t : Tokenizer} (h : Above m n t) (o : EvalOrder) (ss : List Str) :
    Above m n (t.transformAll o ss).1 := by
  induction ss generalizing t with
  | nil => exact h
  | cons s ss ih => exact ih (h.all o _)

/-- **C36 (partial).** When the restored codes have no gaps (every code is below the number of tokens), codes of restored
tokens never change and tokens that were not restored get codes different from all restored ones.
Missing: saved models with gaps, for which codes collide (`C36_collision_false`). -/
theorem C36_restored_partial (o : EvalOrder) (k : TokKind) (m : AMap Str Int) (hgap : ∀ y c, m.get? y = some c → c < (m.length : Int))
    (texts : List Str) :
    let t := ((Tokenizer.ofMap k m).transformAll o texts).1
    (∀ y c, m.get? y = some c → t.forward.get? y = some c) ∧
      ∀ x c, m.get? x = none → t.forward.get? x = some c → ∀ y, m.get? y ≠ some c := by
  intro t
  have h : Above m m.length t := by
    refine Above.texts (m := m) (t := Tokenizer.ofMap k m) ⟨Nat.le_refl _, fun y c hy => hy, fun y c hy hm => ?_⟩ o texts
    change m.get? y = some c at hy
    rw [hm] at hy
    cases hy
  refine ⟨h.2.1, fun x c hx hc y hy => ?_⟩
  have := h.2.2 x c hc hx
  have := hgap y c hy
  omega

example : ((Tokenizer.ofMap .char [("a".toList, 0), ("b".toList, 1)]).transformAll .rhsFirst ["cab".toList]).1.forward =
    [("a".toList, 0), ("b".toList, 1), ("c".toList, 2)] := by decide +kernel

end VGram.Props
