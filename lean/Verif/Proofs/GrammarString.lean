import Verif.Proofs.JsonNum
import Verif.Spec.Grammar

/-!
# The strings of the lexer are those of the grammar
-/

namespace VGram

variable {F : Type}

open _root_.VGram.Lex Dump Spec

/-! ## Hexadecimal digits -/

private theorem hex_table : ∀ k : Fin 128, ∀ n : Fin 16,
    (hexVal (Char.ofNat k.val) = some n.val ↔
      ("0123456789abcdef".toList[n.val]? = some (Char.ofNat k.val) ∨ "0123456789ABCDEF".toList[n.val]? = some (Char.ofNat k.val))) := by
  decide +kernel

private theorem hex_members : ∀ n : Fin 16, (∀ c ∈ "0123456789abcdef".toList[n.val]?, c.toNat < 128) ∧ ∀ c ∈ "0123456789ABCDEF".toList[n.val]?, c.toNat < 128 := by
  decide +kernel

theorem HexDigit.bounds {c : Char} {n : Nat} (h : HexDigit c n) : c.toNat < 128 ∧ n < 16 := by
  have hn : n < 16 := by
    rcases h with h | h <;> (obtain ⟨h, -⟩ := List.getElem?_eq_some_iff.1 h; exact h)
  refine ⟨?_, hn⟩
  have := hex_members ⟨n, hn⟩
  rcases h with h | h
  · exact this.1 c h
  · exact this.2 c h

theorem hexVal_bounds {c : Char} {n : Nat} (h : hexVal c = some n) : c.toNat < 128 ∧ n < 16 := by
  simp only [hexVal] at h
  split at h
  · cases h; omega
  · split at h
    · cases h; omega
    · split at h
      · cases h; omega
      · cases h

theorem hexVal_iff {c : Char} {n : Nat} : hexVal c = some n ↔ HexDigit c n := by
  constructor <;> intro h
  · obtain ⟨h1, h2⟩ := hexVal_bounds h
    have := (hex_table ⟨c.toNat, h1⟩ ⟨n, h2⟩).1
    simp only [char_of_toNat] at this
    exact this h
  · obtain ⟨h1, h2⟩ := HexDigit.bounds h
    have := (hex_table ⟨c.toNat, h1⟩ ⟨n, h2⟩).2
    simp only [char_of_toNat] at this
    exact this h

/-! ## Code points -/

theorem toNat_ofNat_byte {n : Nat} (h : n < 256) : (Char.ofNat n).toNat = n := by
  have : ∀ k : Fin 256, (Char.ofNat k.val).toNat = k.val := by decide +kernel
  exact this ⟨n, h⟩

private theorem or_table : (∀ x : Fin 64, 0x80 ||| x.val = 0x80 + x.val) ∧ (∀ x : Fin 32, 0xC0 ||| x.val = 0xC0 + x.val) ∧
    (∀ x : Fin 16, 0xE0 ||| x.val = 0xE0 + x.val) ∧ ∀ x : Fin 8, 0xF0 ||| x.val = 0xF0 + x.val := by decide +kernel

private theorem low6 (n : Nat) : 0x80 ||| (n &&& 0x3F) = 0x80 + n % 64 := by
  have : n &&& 0x3F = n % 64 := Nat.and_two_pow_sub_one_eq_mod n 6
  rw [this]
  exact or_table.1 ⟨n % 64, by omega⟩

theorem char_range (c : Char) : c.toNat < 0xD800 ∨ (0xE000 ≤ c.toNat ∧ c.toNat < 0x110000) := by
  have := c.valid
  have h : c.toNat = c.val.toNat := rfl
  simp only [UInt32.isValidChar, Nat.isValidChar] at this
  omega

theorem exists_char {n : Nat} (h : n < 0xD800 ∨ (0xE000 ≤ n ∧ n < 0x110000)) : ∃ c : Char, c.toNat = n := by
  refine ⟨Char.ofNat n, ?_⟩
  have hv : n.isValidChar := by unfold Nat.isValidChar; omega
  simp only [Char.ofNat, dif_pos hv]
  simp only [Char.toNat, Char.ofNatAux]
  rfl

theorem encodeCp_char (c : Char) : encodeCp c.toNat = utf8Bytes c := by
  have hr := char_range c
  simp only [encodeCp, utf8Bytes, utf8]
  generalize c.toNat = n at hr ⊢
  have e6 : n >>> 6 = n / 64 := Nat.shiftRight_eq_div_pow n 6
  have e12 : n >>> 12 = n / 4096 := Nat.shiftRight_eq_div_pow n 12
  have e18 : n >>> 18 = n / 262144 := Nat.shiftRight_eq_div_pow n 18
  simp only [low6, e6, e12, e18]
  by_cases h1 : n < 0x80
  · simp [h1]
  rw [if_neg h1, if_neg h1]
  by_cases h2 : n < 0x800
  · rw [if_pos h2, if_pos (by omega)]
    have := or_table.2.1 ⟨n / 64, by omega⟩
    simp only at this
    simp [this]
  rw [if_neg h2, if_neg (by omega)]
  by_cases h3 : n < 0x10000
  · rw [if_pos h3, if_pos (by omega)]
    have := or_table.2.2.1 ⟨n / 4096, by omega⟩
    simp only at this
    simp [this]
  · rw [if_neg h3, if_neg (by omega)]
    have := or_table.2.2.2 ⟨n / 262144, by omega⟩
    simp only at this
    simp [this]

/-! ## One step at a time -/

theorem strRun_cons {m m2 : SMode} {c : Char} {cs a : Str} :
    strRun m (c :: cs) = some (m2, a) ↔
      ¬ (m = .plain ∧ c = '"') ∧ ∃ m' add add', stringStep m c = some (m', add) ∧ strRun m' cs = some (m2, add') ∧ a = add ++ add' := by
  rw [strRun]
  split
  · next h => simp [h]
  · next h =>
    cases hs : stringStep m c with
    | none => simp
    | some x =>
      obtain ⟨m', add⟩ := x
      cases hr : strRun m' cs with
      | none =>
        simp only [hr, Option.some.injEq, Prod.mk.injEq, reduceCtorEq, false_iff, not_and, not_exists]
        rintro - m1 a1 a2 ⟨rfl, rfl⟩ h2
        rw [hr] at h2; cases h2
      | some y =>
        obtain ⟨m'', add'⟩ := y
        simp only [hr, Option.some.injEq, Prod.mk.injEq]
        constructor
        · rintro ⟨rfl, rfl⟩
          exact ⟨h, _, _, _, ⟨rfl, rfl⟩, hr, rfl⟩
        · rintro ⟨-, m1, a1, a2, ⟨rfl, rfl⟩, h2, rfl⟩
          rw [hr] at h2; cases h2
          exact ⟨rfl, rfl⟩

theorem strRun_append_iff {m m2 : SMode} {s t a : Str} :
    strRun m (s ++ t) = some (m2, a) ↔ ∃ m1 a1 a2, strRun m s = some (m1, a1) ∧ strRun m1 t = some (m2, a2) ∧ a = a1 ++ a2 := by
  constructor
  · intro h
    induction s generalizing m a with
    | nil => exact ⟨m, [], a, rfl, h, rfl⟩
    | cons c s ih =>
      rw [List.cons_append] at h
      obtain ⟨h1, m', add, add', h2, h3, rfl⟩ := strRun_cons.1 h
      obtain ⟨m1, a1, a2, h4, h5, rfl⟩ := ih h3
      exact ⟨m1, add ++ a1, a2, strRun_cons.2 ⟨h1, m', add, a1, h2, h4, rfl⟩, h5, by simp⟩
  · rintro ⟨m1, a1, a2, h1, h2, rfl⟩
    exact strRun_append h1 h2

/-! ## From the grammar to the lexer -/

/-- What happens after the fourth hexadecimal digit. -/
def afterHex (hi : Option Nat) (cp : Nat) : Option (SMode × Str) :=
  match hi with
  | none =>
    if 0xD800 ≤ cp ∧ cp ≤ 0xDBFF then some (.lowBackslash cp, [])
    else if 0xDC00 ≤ cp ∧ cp ≤ 0xDFFF then none
    else some (.plain, encodeCp cp)
  | some h => if 0xDC00 ≤ cp ∧ cp ≤ 0xDFFF then some (.plain, encodeCp (h * 1024 + cp - 0x35FDC00)) else none

theorem hex_last {c : Char} {d : Nat} (h : hexVal c = some d) (acc : Nat) (hi : Option Nat) : stringStep (.hex 0 acc hi) c = afterHex hi (acc * 16 + d) := by
  simp only [stringStep, h, afterHex]
  cases hi <;> rfl

theorem hex4_run {h : Str} {n : Nat} (hh : Hex4 h n) (hi : Option Nat) : strRun (.hex 3 0 hi) h = afterHex hi n := by
  obtain ⟨c1, c2, c3, c4, d1, d2, d3, d4, rfl, h1, h2, h3, h4, rfl⟩ := hh
  rw [← hexVal_iff] at h1 h2 h3 h4
  have e : 4096 * d1 + 256 * d2 + 16 * d3 + d4 = (((0 * 16 + d1) * 16 + d2) * 16 + d3) * 16 + d4 := by omega
  rw [e]
  have s1 : stringStep (.hex 3 0 hi) c1 = some (.hex 2 (0 * 16 + d1) hi, []) := by simp only [stringStep, h1]
  have s2 : stringStep (.hex 2 (0 * 16 + d1) hi) c2 = some (.hex 1 ((0 * 16 + d1) * 16 + d2) hi, []) := by simp only [stringStep, h2]
  have s3 : stringStep (.hex 1 ((0 * 16 + d1) * 16 + d2) hi) c3 = some (.hex 0 (((0 * 16 + d1) * 16 + d2) * 16 + d3) hi, []) := by simp only [stringStep, h3]
  have s4 := hex_last h4 (((0 * 16 + d1) * 16 + d2) * 16 + d3) hi
  simp only [strRun, s1, s2, s3, s4, reduceCtorEq, false_and, if_false]
  cases afterHex hi ((((0 * 16 + d1) * 16 + d2) * 16 + d3) * 16 + d4) with
  | none => rfl
  | some x => simp

theorem strRun_hex {hi : Option Nat} {s a : Str} {m : SMode} (h : strRun (.hex 3 0 hi) s = some (m, a)) (hm : ∀ k acc hi', m ≠ .hex k acc hi') :
    ∃ d n t m1 a1 a2, s = d ++ t ∧ Hex4 d n ∧ afterHex hi n = some (m1, a1) ∧ strRun m1 t = some (m, a2) ∧ a = a1 ++ a2 ∧ d.length = 4 := by
  have step : ∀ {k acc : Nat} {s a : Str}, strRun (.hex (k + 1) acc hi) s = some (m, a) →
      ∃ c d t, s = c :: t ∧ hexVal c = some d ∧ strRun (.hex k (acc * 16 + d) hi) t = some (m, a) := by
    intro k acc s a h
    cases s with
    | nil => simp only [strRun, Option.some.injEq, Prod.mk.injEq] at h; exact absurd h.1.symm (hm _ _ _)
    | cons c t =>
      obtain ⟨-, m', add, add', h2, h3, rfl⟩ := strRun_cons.1 h
      cases hd : hexVal c with
      | none => simp [stringStep, hd] at h2
      | some d =>
        simp only [stringStep, hd, Option.some.injEq, Prod.mk.injEq] at h2
        obtain ⟨rfl, rfl⟩ := h2
        exact ⟨c, d, t, rfl, hd, h3⟩
  obtain ⟨c1, d1, t1, rfl, e1, h⟩ := step h
  obtain ⟨c2, d2, t2, rfl, e2, h⟩ := step h
  obtain ⟨c3, d3, t3, rfl, e3, h⟩ := step h
  cases t3 with
  | nil => simp only [strRun, Option.some.injEq, Prod.mk.injEq] at h; exact absurd h.1.symm (hm _ _ _)
  | cons c4 t =>
    have h' := h
    obtain ⟨-, m', add, add', h2, h3, rfl⟩ := strRun_cons.1 h
    cases hd : hexVal c4 with
    | none => simp [stringStep, hd] at h2
    | some d4 =>
      have hx : Hex4 [c1, c2, c3, c4] (4096 * d1 + 256 * d2 + 16 * d3 + d4) :=
        ⟨c1, c2, c3, c4, d1, d2, d3, d4, rfl, hexVal_iff.1 e1, hexVal_iff.1 e2, hexVal_iff.1 e3, hexVal_iff.1 hd, rfl⟩
      refine ⟨[c1, c2, c3, c4], _, t, m', add, add', rfl, hx, ?_, h3, rfl, rfl⟩
      rw [hex_last hd] at h2
      rw [← h2]
      congr 1
      omega

theorem cont_run {lo hi : Nat} {rest : List (Nat × Nat)} {c : Char} {s a : Str} {m : SMode} (h : lo ≤ c.toNat ∧ c.toNat ≤ hi)
    (hr : strRun (match (rest : List (Nat × Nat)) with | [] => .plain | (l, u) :: r => .cont l u r) s = some (m, a)) :
    strRun (.cont lo hi rest) (c :: s) = some (m, c :: a) := by
  refine strRun_cons.2 ⟨by simp, _, [c], a, ?_, hr, rfl⟩
  simp only [stringStep, if_pos h]
  cases rest <;> rfl

theorem first_run {c : Char} {lo hi : Nat} {rest : List (Nat × Nat)} {s a : Str} {m : SMode} (hc : 0x80 ≤ c.toNat)
    (h : contRanges c.toNat = some (lo, hi, rest)) (hr : strRun (.cont lo hi rest) s = some (m, a)) : strRun .plain (c :: s) = some (m, c :: a) := by
  have h1 : c ≠ '"' := by rintro rfl; exact absurd hc (by decide)
  have h2 : c ≠ '\\' := by rintro rfl; exact absurd hc (by decide)
  refine strRun_cons.2 ⟨by simp [h1], _, [c], a, ?_, hr, rfl⟩
  simp only [stringStep, if_neg h2, if_neg (show ¬ c.toNat ≤ 0x1F by omega), if_neg (show ¬ c.toNat ≤ 0x7F by omega), h]

theorem raw_run {c : Char} (h : 0x20 ≤ c.toNat) (hq : c ≠ '"') (hb : c ≠ '\\') : strRun .plain (utf8Bytes c) = some (.plain, utf8Bytes c) := by
  have hr := char_range c
  have hc := char_of_toNat c
  simp only [utf8Bytes, utf8]
  generalize c.toNat = n at *
  by_cases h1 : n < 0x80
  · simp only [if_pos h1, List.map_cons, List.map_nil, hc]
    refine strRun_one ?_ hq
    have e : c.toNat = n := by rw [← hc]; exact toNat_ofNat_byte (by omega)
    simp only [stringStep, if_neg hb, e, if_neg (show ¬ n ≤ 0x1F by omega), if_pos (show n ≤ 0x7F by omega)]
  rw [if_neg h1]
  by_cases h2 : n < 0x800
  · simp only [if_pos h2, List.map_cons, List.map_nil]
    have e1 := toNat_ofNat_byte (n := 0xC0 + n / 64) (by omega)
    have e2 := toNat_ofNat_byte (n := 0x80 + n % 64) (by omega)
    refine first_run (lo := 0x80) (hi := 0xBF) (rest := []) (by omega) ?_ (cont_run (by omega) rfl)
    rw [e1, contRanges, if_pos (by omega)]
  rw [if_neg h2]
  by_cases h3 : n < 0x10000
  · simp only [if_pos h3, List.map_cons, List.map_nil]
    have e1 := toNat_ofNat_byte (n := 0xE0 + n / 4096) (by omega)
    have e2 := toNat_ofNat_byte (n := 0x80 + n / 64 % 64) (by omega)
    have e3 := toNat_ofNat_byte (n := 0x80 + n % 64) (by omega)
    by_cases p1 : n / 4096 = 0
    · refine first_run (lo := 0xA0) (hi := 0xBF) (rest := [(0x80, 0xBF)]) (by omega) ?_ (cont_run (by omega) (cont_run (by omega) rfl))
      rw [e1, contRanges, if_neg (by omega), if_pos (by omega)]
    · by_cases p2 : n / 4096 = 13
      · refine first_run (lo := 0x80) (hi := 0x9F) (rest := [(0x80, 0xBF)]) (by omega) ?_ (cont_run (by omega) (cont_run (by omega) rfl))
        rw [e1, contRanges, if_neg (by omega), if_neg (by omega), if_neg (by omega), if_pos (by omega)]
      · refine first_run (lo := 0x80) (hi := 0xBF) (rest := [(0x80, 0xBF)]) (by omega) ?_ (cont_run (by omega) (cont_run (by omega) rfl))
        rw [e1, contRanges, if_neg (by omega), if_neg (by omega), if_pos (by omega)]
  · simp only [if_neg h3, List.map_cons, List.map_nil]
    have e1 := toNat_ofNat_byte (n := 0xF0 + n / 262144) (by omega)
    have e2 := toNat_ofNat_byte (n := 0x80 + n / 4096 % 64) (by omega)
    have e3 := toNat_ofNat_byte (n := 0x80 + n / 64 % 64) (by omega)
    have e4 := toNat_ofNat_byte (n := 0x80 + n % 64) (by omega)
    by_cases p1 : n / 262144 = 0
    · refine first_run (lo := 0x90) (hi := 0xBF) (rest := [(0x80, 0xBF), (0x80, 0xBF)]) (by omega) ?_
        (cont_run (by omega) (cont_run (by omega) (cont_run (by omega) rfl)))
      rw [e1, contRanges, if_neg (by omega), if_neg (by omega), if_neg (by omega), if_neg (by omega), if_pos (by omega)]
    · by_cases p2 : n / 262144 = 4
      · refine first_run (lo := 0x80) (hi := 0x8F) (rest := [(0x80, 0xBF), (0x80, 0xBF)]) (by omega) ?_
          (cont_run (by omega) (cont_run (by omega) (cont_run (by omega) rfl)))
        rw [e1, contRanges, if_neg (by omega), if_neg (by omega), if_neg (by omega), if_neg (by omega), if_neg (by omega), if_neg (by omega), if_pos (by omega)]
      · refine first_run (lo := 0x80) (hi := 0xBF) (rest := [(0x80, 0xBF), (0x80, 0xBF)]) (by omega) ?_
          (cont_run (by omega) (cont_run (by omega) (cont_run (by omega) rfl)))
        rw [e1, contRanges, if_neg (by omega), if_neg (by omega), if_neg (by omega), if_neg (by omega), if_neg (by omega), if_pos (by omega)]

theorem escape_table {e c : Char}
    (h : (e, c.toNat) ∈ [('"', 0x22), ('\\', 0x5C), ('/', 0x2F), ('b', 0x08), ('f', 0x0C), ('n', 0x0A), ('r', 0x0D), ('t', 0x09)]) :
    stringStep .esc e = some (.plain, [c]) := by
  rw [← char_of_toNat c]
  simp only [List.mem_cons, Prod.mk.injEq, List.not_mem_nil, or_false] at h
  rcases h with ⟨rfl, h⟩ | ⟨rfl, h⟩ | ⟨rfl, h⟩ | ⟨rfl, h⟩ | ⟨rfl, h⟩ | ⟨rfl, h⟩ | ⟨rfl, h⟩ | ⟨rfl, h⟩ <;> rw [h] <;> rfl

theorem escape_table' {e : Char} {m : SMode} {a : Str} (h : stringStep .esc e = some (m, a)) :
    (e = 'u' ∧ m = .hex 3 0 none ∧ a = []) ∨ (m = .plain ∧ ∃ c : Char, a = [c] ∧
      (e, c.toNat) ∈ [('"', 0x22), ('\\', 0x5C), ('/', 0x2F), ('b', 0x08), ('f', 0x0C), ('n', 0x0A), ('r', 0x0D), ('t', 0x09)]) := by
  simp only [stringStep] at h
  split at h
  · next q => cases h; right; rcases q with rfl | rfl | rfl <;> exact ⟨rfl, _, rfl, by decide⟩
  split at h
  · next q => cases h; subst q; right; exact ⟨rfl, _, rfl, by decide⟩
  split at h
  · next q => cases h; subst q; right; exact ⟨rfl, _, rfl, by decide⟩
  split at h
  · next q => cases h; subst q; right; exact ⟨rfl, _, rfl, by decide⟩
  split at h
  · next q => cases h; subst q; right; exact ⟨rfl, _, rfl, by decide⟩
  split at h
  · next q => cases h; subst q; right; exact ⟨rfl, _, rfl, by decide⟩
  split at h
  · next q => cases h; subst q; left; exact ⟨rfl, rfl, rfl⟩
  · cases h

theorem backslash_run {s a : Str} {m : SMode} (h : strRun .esc s = some (m, a)) : strRun .plain ('\\' :: s) = some (m, a) :=
  strRun_cons.2 ⟨by decide, .esc, [], a, rfl, h, rfl⟩

theorem u_run {s a : Str} {m : SMode} (h : strRun (.hex 3 0 none) s = some (m, a)) : strRun .esc ('u' :: s) = some (m, a) :=
  strRun_cons.2 ⟨by decide, _, [], a, rfl, h, rfl⟩

theorem StringChar.run {s a : Str} (h : StringChar s a) : strRun .plain s = some (.plain, a) := by
  cases h with
  | raw c h1 h2 h3 => exact raw_run h1 h2 h3
  | escape e c h =>
    refine backslash_run (strRun_cons.2 ⟨by simp, .plain, _, [], escape_table h, rfl, by simp⟩)
  | unicode h c hh =>
    refine backslash_run (u_run ?_)
    rw [hex4_run hh, afterHex]
    have hr := char_range c
    rw [if_neg (by omega), if_neg (by omega), encodeCp_char]
  | pair h l x y c hx hy hh hl hc =>
    have h1 : strRun (.hex 3 0 none) h = some (.lowBackslash (0xD800 + x), []) := by rw [hex4_run hh, afterHex, if_pos (by omega)]
    have h2 : strRun (.hex 3 0 (some (0xD800 + x))) l = some (.plain, utf8Bytes c) := by
      rw [hex4_run hl, afterHex, if_pos (by omega)]
      have : (0xD800 + x) * 1024 + (0xDC00 + y) - 0x35FDC00 = c.toNat := by omega
      rw [this, encodeCp_char]
    have h3 : strRun (.lowBackslash (0xD800 + x)) ('\\' :: 'u' :: l) = some (.plain, utf8Bytes c) :=
      strRun_cons.2 ⟨by simp, .lowU (0xD800 + x), [], _, rfl, strRun_cons.2 ⟨by simp, .hex 3 0 (some (0xD800 + x)), [], _, rfl, h2, rfl⟩, rfl⟩
    have := strRun_append h1 h3
    exact backslash_run (u_run this)

theorem StringText.run {s a : Str} (h : StringText s a) : strRun .plain s = some (.plain, a) := by
  induction h with
  | nil => rfl
  | cons h _ ih => exact strRun_append (StringChar.run h) ih

/-! ## From the lexer to the grammar -/

theorem strRun_cont {lo hi : Nat} {rest : List (Nat × Nat)} {s a : Str} (h : strRun (.cont lo hi rest) s = some (.plain, a)) :
    ∃ c t a', s = c :: t ∧ lo ≤ c.toNat ∧ c.toNat ≤ hi ∧ a = c :: a' ∧
      strRun (match (rest : List (Nat × Nat)) with | [] => .plain | (l, u) :: r => .cont l u r) t = some (.plain, a') := by
  cases s with
  | nil => simp [strRun] at h
  | cons c t =>
    obtain ⟨-, m', add, add', h2, h3, rfl⟩ := strRun_cons.1 h
    simp only [stringStep] at h2
    split at h2
    · next hr =>
      refine ⟨c, t, add', rfl, hr.1, hr.2, ?_⟩
      cases rest with
      | nil => cases h2; exact ⟨rfl, h3⟩
      | cons p r => obtain ⟨l, u⟩ := p; cases h2; exact ⟨rfl, h3⟩
    · cases h2

theorem utf8Bytes_eq {c : Char} {l : Str} (h : utf8 c = l.map Char.toNat) : utf8Bytes c = l := by
  rw [utf8Bytes, h, List.map_map]
  conv_rhs => rw [← List.map_id l]
  exact List.map_congr_left fun x _ => char_of_toNat x

theorem multi2 {c d : Char} (hc : 0xC2 ≤ c.toNat ∧ c.toNat ≤ 0xDF) (hd : 0x80 ≤ d.toNat ∧ d.toNat ≤ 0xBF) : StringChar [c, d] [c, d] := by
  obtain ⟨u, hu⟩ := exists_char (n := (c.toNat - 0xC0) * 64 + (d.toNat - 0x80)) (by omega)
  have : utf8Bytes u = [c, d] := by
    apply utf8Bytes_eq
    simp only [utf8, hu, List.map_cons, List.map_nil]
    rw [if_neg (by omega), if_pos (by omega)]
    simp only [List.cons.injEq, and_true]
    omega
  rw [← this]
  refine .raw u (by omega) ?_ ?_ <;> (rintro rfl; revert hu; generalize c.toNat = x at *; generalize d.toNat = y at *; simp only [show '"'.toNat = 34 from rfl, show '\\'.toNat = 92 from rfl]; omega)

theorem multi3 {c d e : Char} (hc : 0xE0 ≤ c.toNat ∧ c.toNat ≤ 0xEF) (hd : 0x80 ≤ d.toNat ∧ d.toNat ≤ 0xBF) (he : 0x80 ≤ e.toNat ∧ e.toNat ≤ 0xBF)
    (h1 : c.toNat = 0xE0 → 0xA0 ≤ d.toNat) (h2 : c.toNat = 0xED → d.toNat ≤ 0x9F) : StringChar [c, d, e] [c, d, e] := by
  obtain ⟨u, hu⟩ := exists_char (n := (c.toNat - 0xE0) * 4096 + (d.toNat - 0x80) * 64 + (e.toNat - 0x80)) (by omega)
  have : utf8Bytes u = [c, d, e] := by
    apply utf8Bytes_eq
    simp only [utf8, hu, List.map_cons, List.map_nil]
    rw [if_neg (by omega), if_neg (by omega), if_pos (by omega)]
    simp only [List.cons.injEq, and_true]
    omega
  rw [← this]
  refine .raw u (by omega) ?_ ?_ <;> (rintro rfl; revert hu; generalize c.toNat = x at *; generalize d.toNat = y at *; simp only [show '"'.toNat = 34 from rfl, show '\\'.toNat = 92 from rfl]; omega)

theorem multi4 {c d e f : Char} (hc : 0xF0 ≤ c.toNat ∧ c.toNat ≤ 0xF4) (hd : 0x80 ≤ d.toNat ∧ d.toNat ≤ 0xBF) (he : 0x80 ≤ e.toNat ∧ e.toNat ≤ 0xBF)
    (hf : 0x80 ≤ f.toNat ∧ f.toNat ≤ 0xBF) (h1 : c.toNat = 0xF0 → 0x90 ≤ d.toNat) (h2 : c.toNat = 0xF4 → d.toNat ≤ 0x8F) :
    StringChar [c, d, e, f] [c, d, e, f] := by
  obtain ⟨u, hu⟩ := exists_char (n := (c.toNat - 0xF0) * 262144 + (d.toNat - 0x80) * 4096 + (e.toNat - 0x80) * 64 + (f.toNat - 0x80)) (by omega)
  have : utf8Bytes u = [c, d, e, f] := by
    apply utf8Bytes_eq
    simp only [utf8, hu, List.map_cons, List.map_nil]
    rw [if_neg (by omega), if_neg (by omega), if_neg (by omega)]
    simp only [List.cons.injEq, and_true]
    omega
  rw [← this]
  refine .raw u (by omega) ?_ ?_ <;> (rintro rfl; revert hu; generalize c.toNat = x at *; generalize d.toNat = y at *; simp only [show '"'.toNat = 34 from rfl, show '\\'.toNat = 92 from rfl]; omega)

theorem contRanges_cases {n lo hi : Nat} {rest : List (Nat × Nat)} (h : contRanges n = some (lo, hi, rest)) :
    (0xC2 ≤ n ∧ n ≤ 0xDF ∧ lo = 0x80 ∧ hi = 0xBF ∧ rest = []) ∨
    (0xE0 ≤ n ∧ n ≤ 0xEF ∧ 0x80 ≤ lo ∧ hi ≤ 0xBF ∧ rest = [(0x80, 0xBF)] ∧ (n = 0xE0 → lo = 0xA0) ∧ (n = 0xED → hi = 0x9F)) ∨
    (0xF0 ≤ n ∧ n ≤ 0xF4 ∧ 0x80 ≤ lo ∧ hi ≤ 0xBF ∧ rest = [(0x80, 0xBF), (0x80, 0xBF)] ∧ (n = 0xF0 → lo = 0x90) ∧ (n = 0xF4 → hi = 0x8F)) := by
  unfold contRanges at h
  split at h
  · cases h; exact Or.inl ⟨by omega, by omega, rfl, rfl, rfl⟩
  right
  split at h
  · cases h; exact Or.inl ⟨by omega, by omega, by omega, by omega, rfl, by omega, by omega⟩
  split at h
  · cases h; exact Or.inl ⟨by omega, by omega, by omega, by omega, rfl, by omega, by omega⟩
  split at h
  · cases h; exact Or.inl ⟨by omega, by omega, by omega, by omega, rfl, by omega, by omega⟩
  right
  split at h
  · cases h; exact ⟨by omega, by omega, by omega, by omega, rfl, by omega, by omega⟩
  split at h
  · cases h; exact ⟨by omega, by omega, by omega, by omega, rfl, by omega, by omega⟩
  split at h
  · cases h; exact ⟨by omega, by omega, by omega, by omega, rfl, by omega, by omega⟩
  · cases h

theorem strRun_text : ∀ {s a : Str}, strRun .plain s = some (.plain, a) → StringText s a := by
  intro s
  induction hn : s.length using Nat.strong_induction_on generalizing s with
  | _ n ih =>
    intro a h
    cases s with
    | nil => simp only [strRun, Option.some.injEq, Prod.mk.injEq] at h; rw [← h.2]; exact .nil
    | cons c cs =>
      obtain ⟨hq, m', add, add', h2, h3, rfl⟩ := strRun_cons.1 h
      have hq : c ≠ '"' := fun e => hq ⟨rfl, e⟩
      have next : ∀ {u v t b : Str}, StringChar u v → c :: cs = u ++ t → u ≠ [] → add ++ add' = v ++ b → strRun .plain t = some (.plain, b) → StringText (c :: cs) (add ++ add') := by
        intro u v t b hu e hne e' ht
        rw [e, e']
        refine .cons hu (ih t.length ?_ rfl ht)
        have := congrArg List.length e
        rw [List.length_append] at this
        have := List.length_pos_iff.2 hne
        omega
      simp only [stringStep] at h2
      split at h2
      · next e =>
        subst e
        cases h2
        cases cs with
        | nil => simp [strRun] at h3
        | cons e cs =>
          obtain ⟨-, m1, b1, b2, h4, h5, rfl⟩ := strRun_cons.1 h3
          rcases escape_table' h4 with ⟨rfl, rfl, rfl⟩ | ⟨rfl, x, rfl, hx⟩
          · obtain ⟨d, k, t, m2, b3, b4, rfl, hd, ha, ht, rfl, hl⟩ := strRun_hex h5 (by simp)
            simp only [afterHex] at ha
            split at ha
            · next hk =>
              cases ha
              cases t with
              | nil => simp [strRun] at ht
              | cons x1 t =>
                obtain ⟨-, m3, b5, b6, h6, h7, rfl⟩ := strRun_cons.1 ht
                simp only [stringStep] at h6
                split at h6
                · next e =>
                  cases h6; subst e
                  cases t with
                  | nil => simp [strRun] at h7
                  | cons x2 t =>
                    obtain ⟨-, m4, b7, b8, h8, h9, rfl⟩ := strRun_cons.1 h7
                    simp only [stringStep] at h8
                    split at h8
                    · next e =>
                      cases h8; subst e
                      obtain ⟨d', k', t', m5, c1, c2, rfl, hd', ha', ht', rfl, hl'⟩ := strRun_hex h9 (by simp)
                      simp only [afterHex] at ha'
                      split at ha'
                      · next hk' =>
                        cases ha'
                        obtain ⟨u, hu⟩ := exists_char (n := 0x10000 + 0x400 * (k - 0xD800) + (k' - 0xDC00)) (by omega)
                        have e : k * 1024 + k' - 0x35FDC00 = u.toNat := by omega
                        refine next (StringChar.pair d d' (k - 0xD800) (k' - 0xDC00) u (by omega) (by omega) (by rwa [show 0xD800 + (k - 0xD800) = k by omega])
                          (by rwa [show 0xDC00 + (k' - 0xDC00) = k' by omega]) hu) (t := t') (b := c2) (by simp) (by simp) (by simp only [e, encodeCp_char, List.nil_append]) ht'
                      · cases ha'
                    · cases h8
                · cases h6
            · next hk =>
              split at ha
              · cases ha
              · next hk' =>
                cases ha
                have hk4 : k < 65536 := by
                  obtain ⟨x1, x2, x3, x4, y1, y2, y3, y4, -, q1, q2, q3, q4, rfl⟩ := hd
                  have := (HexDigit.bounds q1).2
                  have := (HexDigit.bounds q2).2
                  have := (HexDigit.bounds q3).2
                  have := (HexDigit.bounds q4).2
                  omega
                obtain ⟨u, rfl⟩ := exists_char (n := k) (by omega)
                exact next (StringChar.unicode d u hd) (t := t) (b := b4) (by simp) (by simp) (by simp [encodeCp_char]) ht
          · exact next (StringChar.escape e x hx) (t := cs) (b := b2) (by simp) (by simp) (by simp) h5
      · next hb =>
        split at h2
        · cases h2
        · next h20 =>
          split at h2
          · next h7f =>
            cases h2
            have : utf8Bytes c = [c] := by
              apply utf8Bytes_eq
              simp only [utf8, List.map_cons, List.map_nil]
              rw [if_pos (by omega)]
            exact next (u := [c]) (v := [c]) (by have q := StringChar.raw c (by omega) hq hb; rwa [this] at q) rfl (by simp) rfl h3
          · split at h2
            · next lo hi rest hc =>
              cases h2
              obtain ⟨d, t, b, rfl, hd1, hd2, rfl, h4⟩ := strRun_cont h3
              rcases contRanges_cases hc with ⟨q1, q2, rfl, rfl, rfl⟩ | ⟨q1, q2, q3, q4, rfl, q5, q6⟩ | ⟨q1, q2, q3, q4, rfl, q5, q6⟩
              · exact next (multi2 ⟨q1, q2⟩ ⟨hd1, hd2⟩) (t := t) (b := b) (by simp) (by simp) (by simp) h4
              · obtain ⟨e, t', b', rfl, he1, he2, rfl, h5⟩ := strRun_cont h4
                exact next (multi3 (c := c) (d := d) (e := e) ⟨q1, q2⟩ (by omega) (by omega) (by omega) (by omega)) (t := t') (b := b') (by simp) (by simp) (by simp) h5
              · obtain ⟨e, t', b', rfl, he1, he2, rfl, h5⟩ := strRun_cont h4
                obtain ⟨f, t'', b'', rfl, hf1, hf2, rfl, h6⟩ := strRun_cont h5
                exact next (multi4 (c := c) (d := d) (e := e) (f := f) ⟨q1, q2⟩ (by omega) (by omega) (by omega) (by omega) (by omega)) (t := t'') (b := b'')
                  (by simp) (by simp) (by simp) h6
            · cases h2

theorem strRun_iff {s a : Str} : strRun .plain s = some (.plain, a) ↔ StringText s a := ⟨strRun_text, StringText.run⟩

/-- What the lexer accepts after an opening quote. -/
theorem scanString_ok : ∀ {cs : Str} {m : SMode} {buf k r : Str}, scanString (F := F) cs m buf = (.str k, r) →
    ∃ t a, cs = t ++ '"' :: r ∧ strRun m t = some (.plain, a) ∧ k = buf ++ a := by
  intro cs
  induction cs with
  | nil => intro m buf k r h; rw [scanString_nil] at h; cases h
  | cons c cs ih =>
    intro m buf k r h
    have step : (m = .plain ∧ c = '"' ∧ k = buf ∧ cs = r) ∨ (¬ (m = .plain ∧ c = '"') ∧ ∃ m' add, stringStep m c = some (m', add) ∧ scanString (F := F) cs m' (buf ++ add) = (.str k, r)) := by
      by_cases hm : m = .plain
      · subst hm
        rw [scanString] at h
        split at h
        · next e => cases h; exact Or.inl ⟨rfl, e, rfl, rfl⟩
        · next e =>
          right
          refine ⟨fun x => e x.2, ?_⟩
          split at h
          · next m' add hs => exact ⟨m', add, hs, h⟩
          · cases h
      · right
        refine ⟨fun x => hm x.1, ?_⟩
        rw [scanString] at h
        · split at h
          · next m' add hs => exact ⟨m', add, hs, h⟩
          · cases h
        · exact hm
    rcases step with ⟨rfl, rfl, rfl, rfl⟩ | ⟨hq, m', add, hs, h⟩
    · exact ⟨[], [], rfl, rfl, by simp⟩
    · obtain ⟨t, a, rfl, h1, rfl⟩ := ih h
      exact ⟨c :: t, add ++ a, rfl, strRun_cons.2 ⟨hq, m', add, a, hs, h1, rfl⟩, by simp⟩

theorem scan_string_grammar (T : TextOps F) {t s : Str} (h : StringText t s) (r : Str) : scan T ('"' :: (t ++ '"' :: r)) = (.str s, r) := by
  rw [scan_quote, scanString_run (StringText.run h), scanString]
  simp

end VGram
