import Verif.Proofs.JsonParse

/-!
# The automaton of `dump_escaped` accepts the UTF-8 encodings
-/

namespace VGram

variable {F : Type}

open Dump Spec

/-! ## The transition table by ranges -/

theorem nextSt_one (n : Nat) : nextSt 1 n = 1 := by
  by_cases h : n < 256
  · have : ∀ n : Fin 256, nextSt 1 n.val = 1 := by decide +kernel
    exact this ⟨n, h⟩
  · exact nextSt_big (by decide) (by omega)

/-- The state after the first byte. -/
def firstSt (n : Nat) : Nat :=
  if n < 0x80 then 0 else if n < 0xC2 then 1 else if n < 0xE0 then 2 else if n = 0xE0 then 4 else if n = 0xED then 5 else if n < 0xF0 then 3
  else if n = 0xF0 then 6 else if n < 0xF4 then 7 else if n = 0xF4 then 8 else 1

theorem nextSt_zero (n : Nat) : nextSt 0 n = firstSt n := by
  by_cases h : n < 256
  · have : ∀ n : Fin 256, nextSt 0 n.val = firstSt n.val := by decide +kernel
    exact this ⟨n, h⟩
  · rw [nextSt_big (by decide) (by omega)]
    unfold firstSt
    repeat rw [if_neg (by omega)]

/-- Range of the next byte and the state after it. -/
def contSt : Nat → Nat × Nat × Nat
  | 2 => (0x80, 0xBF, 0)
  | 3 => (0x80, 0xBF, 2)
  | 4 => (0xA0, 0xBF, 2)
  | 5 => (0x80, 0x9F, 2)
  | 6 => (0x90, 0xBF, 3)
  | 7 => (0x80, 0xBF, 3)
  | _ => (0x80, 0x8F, 3)

theorem nextSt_cont {st : Nat} (h2 : 2 ≤ st) (h9 : st < 9) (n : Nat) :
    nextSt st n = if (contSt st).1 ≤ n ∧ n ≤ (contSt st).2.1 then (contSt st).2.2 else 1 := by
  by_cases h : n < 256
  · have : ∀ st : Fin 9, 2 ≤ st.val → ∀ n : Fin 256, nextSt st.val n.val = if (contSt st.val).1 ≤ n.val ∧ n.val ≤ (contSt st.val).2.1 then (contSt st.val).2.2 else 1 := by
      decide +kernel
    exact this ⟨st, h9⟩ h2 ⟨n, h⟩
  · rw [nextSt_big h9 (by omega), if_neg]
    have : ∀ st : Fin 9, 2 ≤ st.val → (contSt st.val).2.1 < 256 := by decide
    have := this ⟨st, h9⟩ h2
    simp only at this
    omega

theorem nextSt_lt {st : Nat} (h : st < 9) (n : Nat) : nextSt st n < 9 := by
  by_cases hn : n < 256
  · have : ∀ st : Fin 9, ∀ n : Fin 256, nextSt st.val n.val < 9 := by decide +kernel
    exact this ⟨st, h⟩ ⟨n, hn⟩
  · rw [nextSt_big h (by omega)]; decide

theorem fold_one (l : List Nat) : l.foldl nextSt 1 = 1 := by
  induction l with
  | nil => rfl
  | cons n l ih => rw [List.foldl_cons, nextSt_one, ih]

/-- Writing a string succeeds when the automaton ends in its initial state. -/
theorem escapeLoop_done : ∀ (s : Str) (st cp : Nat) (out buf : Str), st < 9 → st ≠ 1 →
    ((escapeLoop s st cp out buf).done = true ↔ (s.map Char.toNat).foldl nextSt st = 0) := by
  intro s
  induction s with
  | nil =>
    intro st cp out buf _ _
    simp only [escapeLoop, List.map_nil, List.foldl_nil]
    by_cases h : st = 0 <;> simp [h]
  | cons c s ih =>
    intro st cp out buf h9 h1
    rw [escapeLoop_cons, List.map_cons, List.foldl_cons]
    have hl := nextSt_lt h9 c.toNat
    generalize nextSt st c.toNat = st' at hl
    unfold escapeCont
    by_cases h0 : st' = 0
    · rw [if_pos h0]
      subst h0
      split <;> exact ih 0 _ _ _ hl (by decide)
    · rw [if_neg h0]
      by_cases h1' : st' = 1
      · rw [if_pos h1', h1', fold_one]; simp
      · rw [if_neg h1']; exact ih st' _ _ _ hl h1'

theorem dumpStr_done {s : Str} : (dumpStr s).done = true ↔ (s.map Char.toNat).foldl nextSt 0 = 0 := by
  unfold dumpStr
  rw [Out.seq_done, Out.seq_done, escapeLoop_done s 0 0 [] [] (by decide) (by decide)]
  simp [Out.put]

/-! ## Encodings are accepted -/

theorem toNat_valid (c : Char) : c.toNat < 0xD800 ∨ (0xDFFF < c.toNat ∧ c.toNat < 0x110000) := c.valid

theorem cont_ok {st n : Nat} (h2 : 2 ≤ st) (h9 : st < 9) (hn : (contSt st).1 ≤ n ∧ n ≤ (contSt st).2.1) : nextSt st n = (contSt st).2.2 := by
  rw [nextSt_cont h2 h9, if_pos hn]

theorem fold_utf8 (c : Char) : (utf8 c).foldl nextSt 0 = 0 := by
  have hv := toNat_valid c
  unfold utf8
  generalize c.toNat = n at hv
  simp only
  split
  · simp only [List.foldl_cons, List.foldl_nil, nextSt_zero, firstSt, *, if_true]
  split
  · have : nextSt 0 (0xC0 + n / 64) = 2 := by
      rw [nextSt_zero]; unfold firstSt
      rw [if_neg (by omega), if_neg (by omega), if_pos (by omega)]
    simp only [List.foldl_cons, List.foldl_nil, this]
    exact cont_ok (by decide) (by decide) (by simp only [contSt]; omega)
  split
  · have h3 : ∀ k, nextSt 2 (0x80 + k % 64) = 0 := fun k => cont_ok (by decide) (by decide) (by simp only [contSt]; omega)
    simp only [List.foldl_cons, List.foldl_nil, nextSt_zero]
    have : nextSt (firstSt (0xE0 + n / 4096)) (0x80 + n / 64 % 64) = 2 := by
      unfold firstSt
      rw [if_neg (by omega), if_neg (by omega), if_neg (by omega)]
      split
      · exact cont_ok (by decide) (by decide) (by simp only [contSt]; omega)
      split
      · exact cont_ok (by decide) (by decide) (by simp only [contSt]; omega)
      rw [if_pos (by omega)]
      exact cont_ok (by decide) (by decide) (by simp only [contSt]; omega)
    rw [this, h3]
  · have h3 : ∀ k, nextSt 2 (0x80 + k % 64) = 0 := fun k => cont_ok (by decide) (by decide) (by simp only [contSt]; omega)
    have h4 : ∀ k, nextSt 3 (0x80 + k % 64) = 2 := fun k => cont_ok (by decide) (by decide) (by simp only [contSt]; omega)
    simp only [List.foldl_cons, List.foldl_nil, nextSt_zero]
    have : nextSt (firstSt (0xF0 + n / 262144)) (0x80 + n / 4096 % 64) = 3 := by
      unfold firstSt
      rw [if_neg (by omega), if_neg (by omega), if_neg (by omega), if_neg (by omega), if_neg (by omega), if_neg (by omega)]
      split
      · exact cont_ok (by decide) (by decide) (by simp only [contSt]; omega)
      split
      · exact cont_ok (by decide) (by decide) (by simp only [contSt]; omega)
      rw [if_pos (by omega)]
      exact cont_ok (by decide) (by decide) (by simp only [contSt]; omega)
    rw [this, h4, h3]

theorem fold_flat (t : List Char) : (t.flatMap utf8).foldl nextSt 0 = 0 := by
  induction t with
  | nil => rfl
  | cons c t ih => rw [List.flatMap_cons, List.foldl_append, fold_utf8, ih]

/-! ## Only encodings are accepted -/

theorem cont_split {st : Nat} (h2 : 2 ≤ st) (h9 : st < 9) {l : List Nat} (h : l.foldl nextSt st = 0) :
    ∃ n r, l = n :: r ∧ (contSt st).1 ≤ n ∧ n ≤ (contSt st).2.1 ∧ r.foldl nextSt (contSt st).2.2 = 0 := by
  cases l with
  | nil => simp only [List.foldl_nil] at h; omega
  | cons n r =>
    rw [List.foldl_cons, nextSt_cont h2 h9] at h
    by_cases hn : (contSt st).1 ≤ n ∧ n ≤ (contSt st).2.1
    · rw [if_pos hn] at h; exact ⟨n, r, rfl, hn.1, hn.2, h⟩
    · rw [if_neg hn, fold_one] at h; cases h

theorem toNat_ofNat {n : Nat} (h : n < 0xD800 ∨ (0xDFFF < n ∧ n < 0x110000)) : (Char.ofNat n).toNat = n := by
  have : n.isValidChar := h
  simp [Char.ofNat, this, Char.toNat, Char.ofNatAux]

/-- One character at the front of an accepted list. -/
theorem accepted_cons {n : Nat} {l : List Nat} (h : (n :: l).foldl nextSt 0 = 0) : ∃ c r, n :: l = utf8 c ++ r ∧ r.foldl nextSt 0 = 0 := by
  rw [List.foldl_cons, nextSt_zero] at h
  unfold firstSt at h
  have two : ∀ lo, 0xC2 ≤ n → n < 0xE0 → lo = 0x80 → l.foldl nextSt 2 = 0 → ∃ c r, n :: l = utf8 c ++ r ∧ r.foldl nextSt 0 = 0 := by
    intro _ h1 h2 _ h
    obtain ⟨a, r, rfl, ha1, ha2, hr⟩ := cont_split (by decide) (by decide) h
    simp only [contSt] at ha1 ha2 hr
    have hc := toNat_ofNat (n := (n - 0xC0) * 64 + (a - 0x80)) (Or.inl (by omega))
    refine ⟨Char.ofNat ((n - 0xC0) * 64 + (a - 0x80)), r, ?_, hr⟩
    simp only [utf8, hc]
    rw [if_neg (by omega), if_pos (by omega)]
    simp only [List.cons_append, List.nil_append, List.cons.injEq, and_true]
    omega
  have three : ∀ st, st = 3 ∨ st = 4 ∨ st = 5 → 0xE0 ≤ n → n < 0xF0 → (st = 3 → n ≠ 0xE0 ∧ n ≠ 0xED) → (st = 4 → n = 0xE0) → (st = 5 → n = 0xED) →
      l.foldl nextSt st = 0 → ∃ c r, n :: l = utf8 c ++ r ∧ r.foldl nextSt 0 = 0 := by
    intro st hst h1 h2 e3 e4 e5 h
    obtain ⟨a, r, rfl, ha1, ha2, hr⟩ := cont_split (by omega) (by omega) h
    have hs : (contSt st).2.2 = 2 := by rcases hst with rfl | rfl | rfl <;> rfl
    rw [hs] at hr
    obtain ⟨b, r, rfl, hb1, hb2, hr⟩ := cont_split (by decide) (by decide) hr
    simp only [contSt] at hb1 hb2 hr
    have hb : 0x80 ≤ a ∧ a ≤ 0xBF ∧ (st = 4 → 0xA0 ≤ a) ∧ (st = 5 → a ≤ 0x9F) := by
      rcases hst with rfl | rfl | rfl <;> simp only [contSt] at ha1 ha2 <;> omega
    have hc := toNat_ofNat (n := (n - 0xE0) * 4096 + (a - 0x80) * 64 + (b - 0x80)) (by omega)
    refine ⟨Char.ofNat ((n - 0xE0) * 4096 + (a - 0x80) * 64 + (b - 0x80)), r, ?_, hr⟩
    simp only [utf8, hc]
    rw [if_neg (by omega), if_neg (by omega), if_pos (by omega)]
    simp only [List.cons_append, List.nil_append, List.cons.injEq, and_true]
    omega
  have four : ∀ st, st = 6 ∨ st = 7 ∨ st = 8 → 0xF0 ≤ n → n ≤ 0xF4 → (st = 7 → n ≠ 0xF0 ∧ n ≠ 0xF4) → (st = 6 → n = 0xF0) → (st = 8 → n = 0xF4) →
      l.foldl nextSt st = 0 → ∃ c r, n :: l = utf8 c ++ r ∧ r.foldl nextSt 0 = 0 := by
    intro st hst h1 h2 e3 e4 e5 h
    obtain ⟨a, r, rfl, ha1, ha2, hr⟩ := cont_split (by omega) (by omega) h
    have hs : (contSt st).2.2 = 3 := by rcases hst with rfl | rfl | rfl <;> rfl
    rw [hs] at hr
    obtain ⟨b, r, rfl, hb1, hb2, hr⟩ := cont_split (by decide) (by decide) hr
    simp only [contSt] at hb1 hb2 hr
    obtain ⟨d, r, rfl, hd1, hd2, hr⟩ := cont_split (by decide) (by decide) hr
    simp only [contSt] at hd1 hd2 hr
    have hb : 0x80 ≤ a ∧ a ≤ 0xBF ∧ (st = 6 → 0x90 ≤ a) ∧ (st = 8 → a ≤ 0x8F) := by
      rcases hst with rfl | rfl | rfl <;> simp only [contSt] at ha1 ha2 <;> omega
    have hc := toNat_ofNat (n := (n - 0xF0) * 262144 + (a - 0x80) * 4096 + (b - 0x80) * 64 + (d - 0x80)) (by omega)
    refine ⟨Char.ofNat ((n - 0xF0) * 262144 + (a - 0x80) * 4096 + (b - 0x80) * 64 + (d - 0x80)), r, ?_, hr⟩
    simp only [utf8, hc]
    rw [if_neg (by omega), if_neg (by omega), if_neg (by omega)]
    simp only [List.cons_append, List.nil_append, List.cons.injEq, and_true]
    omega
  by_cases h1 : n < 0x80
  · rw [if_pos h1] at h
    refine ⟨Char.ofNat n, l, ?_, h⟩
    have hc := toNat_ofNat (n := n) (by omega)
    simp only [utf8, hc]
    rw [if_pos h1]
    rfl
  rw [if_neg h1] at h
  by_cases h2 : n < 0xC2
  · rw [if_pos h2, fold_one] at h; cases h
  rw [if_neg h2] at h
  by_cases h3 : n < 0xE0
  · rw [if_pos h3] at h; exact two _ (by omega) h3 rfl h
  rw [if_neg h3] at h
  by_cases h4 : n = 0xE0
  · rw [if_pos h4] at h; exact three 4 (by omega) (by omega) (by omega) (by omega) (by omega) (by omega) h
  rw [if_neg h4] at h
  by_cases h5 : n = 0xED
  · rw [if_pos h5] at h; exact three 5 (by omega) (by omega) (by omega) (by omega) (by omega) (by omega) h
  rw [if_neg h5] at h
  by_cases h6 : n < 0xF0
  · rw [if_pos h6] at h; exact three 3 (by omega) (by omega) (by omega) (by omega) (by omega) (by omega) h
  rw [if_neg h6] at h
  by_cases h7 : n = 0xF0
  · rw [if_pos h7] at h; exact four 6 (by omega) (by omega) (by omega) (by omega) (by omega) (by omega) h
  rw [if_neg h7] at h
  by_cases h8 : n < 0xF4
  · rw [if_pos h8] at h; exact four 7 (by omega) (by omega) (by omega) (by omega) (by omega) (by omega) h
  rw [if_neg h8] at h
  by_cases h9 : n = 0xF4
  · rw [if_pos h9] at h; exact four 8 (by omega) (by omega) (by omega) (by omega) (by omega) (by omega) h
  rw [if_neg h9, fold_one] at h
  cases h

theorem utf8_ne (c : Char) : utf8 c ≠ [] := by
  unfold utf8
  simp only
  split
  · simp
  split
  · simp
  split <;> simp

theorem accepted : ∀ (k : Nat) (l : List Nat), l.length ≤ k → l.foldl nextSt 0 = 0 → ∃ t : List Char, l = t.flatMap utf8 := by
  intro k
  induction k with
  | zero => intro l hl _; exact ⟨[], by simpa using hl⟩
  | succ k ih =>
    intro l hl h
    cases l with
    | nil => exact ⟨[], rfl⟩
    | cons n l =>
      obtain ⟨c, r, e, hr⟩ := accepted_cons h
      have : r.length ≤ k := by
        have h1 := congrArg List.length e
        have h2 := List.length_pos_iff.2 (utf8_ne c)
        simp only [List.length_cons, List.length_append] at h1 hl
        omega
      obtain ⟨t, rfl⟩ := ih r this hr
      exact ⟨c :: t, by rw [e, List.flatMap_cons]⟩

/-- A string is written without an exception exactly if it is UTF-8. -/
theorem dumpStr_utf8 (s : Str) : (dumpStr s).done = true ↔ Utf8 s := by
  rw [dumpStr_done]
  constructor
  · exact fun h => accepted _ _ (Nat.le_refl _) h
  · rintro ⟨t, ht⟩
    rw [ht]
    exact fold_flat t

end VGram
