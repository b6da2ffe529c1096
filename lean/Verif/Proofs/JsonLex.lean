import Verif.Model.JsonText
import Verif.Proofs.Basic
import Verif.Proofs.Decimal

/-!
# Lemmas about writing and scanning tokens
-/

namespace VGram

variable {F : Type}

open Lex Dump

/-! ## Partial writes -/

/-- `p` is what may be on the disk while `o` is being written: a prefix, and not everything if `o` succeeds. -/
structure Cut (o : Out) (p : Str) : Prop where
  pre : p <+: o.text
  proper : o.done = true → p ≠ o.text

theorem Out.seq_done {a b : Out} : (a ;; b).done = true ↔ a.done = true ∧ b.done = true := by
  unfold Out.seq
  split <;> simp_all

theorem Out.seq_text {a b : Out} (h : a.done = true) : (a ;; b).text = a.text ++ b.text := by
  simp [Out.seq, h]

theorem Cut.seq {a b : Out} {p : Str} (h : Cut (a ;; b) p) : Cut a p ∨ (a.done = true ∧ ∃ q, p = a.text ++ q ∧ Cut b q) := by
  obtain ⟨h1, h2⟩ := h
  by_cases ha : a.done = true
  · have e : (a ;; b) = ⟨a.text ++ b.text, b.done⟩ := by simp [Out.seq, ha]
    rw [e] at h1 h2
    by_cases hp : p = a.text
    · refine Or.inr ⟨ha, [], by simp [hp], List.nil_prefix, ?_⟩
      intro hd e'
      exact h2 hd (by simp [hp, ← e'])
    · rcases List.prefix_or_prefix_of_prefix h1 (List.prefix_append a.text b.text) with h | h
      · exact Or.inl ⟨h, fun _ => hp⟩
      · obtain ⟨q, rfl⟩ := h
        refine Or.inr ⟨ha, q, rfl, (List.prefix_append_right_inj _).1 h1, ?_⟩
        intro hd e'
        exact h2 hd (by simp [e'])
  · have e : (a ;; b) = a := by simp [Out.seq, ha]
    rw [e] at h1 h2
    exact Or.inl ⟨h1, h2⟩

theorem Cut.put {s p : Str} : Cut (Out.put s) p ↔ p <+: s ∧ p ≠ s :=
  ⟨fun h => ⟨h.pre, h.proper rfl⟩, fun h => ⟨h.1, fun _ => h.2⟩⟩

/-! ## Strings -/

/-- Running `scan_string` over characters without reaching the closing quote. -/
def strRun : SMode → Str → Option (SMode × Str)
  | m, [] => some (m, [])
  | m, c :: cs =>
    if m = .plain ∧ c = '"' then none
    else match stringStep m c with
      | none => none
      | some (m', add) => match strRun m' cs with
        | none => none
        | some (m'', add') => some (m'', add ++ add')

theorem strRun_append {m m' m'' : SMode} {s t a b : Str} (h1 : strRun m s = some (m', a)) (h2 : strRun m' t = some (m'', b)) :
    strRun m (s ++ t) = some (m'', a ++ b) := by
  induction s generalizing m a with
  | nil => simp only [strRun, Option.some.injEq, Prod.mk.injEq] at h1; obtain ⟨rfl, rfl⟩ := h1; simpa using h2
  | cons c s ih =>
    simp only [strRun, List.cons_append] at h1 ⊢
    split at h1
    · cases h1
    · next hq =>
      rw [if_neg hq]
      cases hs : stringStep m c with
      | none => rw [hs] at h1; cases h1
      | some x =>
        obtain ⟨m1, add⟩ := x
        rw [hs] at h1
        simp only at h1 ⊢
        cases hr : strRun m1 s with
        | none => rw [hr] at h1; cases h1
        | some y =>
          obtain ⟨m2, add'⟩ := y
          rw [hr] at h1
          simp only [Option.some.injEq, Prod.mk.injEq] at h1
          obtain ⟨rfl, rfl⟩ := h1
          rw [ih hr]
          simp

theorem scanString_run {m m' : SMode} {s a : Str} (h : strRun m s = some (m', a)) (r buf : Str) :
    scanString (F := F) (s ++ r) m buf = scanString r m' (buf ++ a) := by
  induction s generalizing m a buf with
  | nil => simp only [strRun, Option.some.injEq, Prod.mk.injEq] at h; obtain ⟨rfl, rfl⟩ := h; simp
  | cons c s ih =>
    simp only [strRun] at h
    split at h
    · cases h
    · next hq =>
      cases hs : stringStep m c with
      | none => rw [hs] at h; cases h
      | some x =>
        obtain ⟨m1, add⟩ := x
        rw [hs] at h
        simp only at h
        cases hr : strRun m1 s with
        | none => rw [hr] at h; cases h
        | some y =>
          obtain ⟨m2, add'⟩ := y
          rw [hr] at h
          simp only [Option.some.injEq, Prod.mk.injEq] at h
          obtain ⟨rfl, rfl⟩ := h
          cases m <;> simp only [List.cons_append, scanString, hs, ih hr, List.append_assoc]
          rw [if_neg (by simpa using hq)]

theorem scanString_nil (m : SMode) (buf : Str) : scanString (F := F) [] m buf = (.err, []) := by
  cases m <;> rfl

/-- A string that has been cut off is a lexical error. -/
theorem scanString_cut {m m' : SMode} {s a p : Str} (h : strRun m s = some (m', a)) (hp : p <+: s) (buf : Str) :
    scanString (F := F) p m buf = (.err, []) := by
  obtain ⟨q, rfl⟩ := hp
  have : ∃ x, strRun m p = some x := by
    clear buf
    induction p generalizing m m' a with
    | nil => exact ⟨_, rfl⟩
    | cons c p ih =>
      simp only [strRun, List.cons_append] at h ⊢
      split at h
      · cases h
      · next hq =>
        rw [if_neg hq]
        cases hs : stringStep m c with
        | none => rw [hs] at h; cases h
        | some x =>
          obtain ⟨m1, add⟩ := x
          rw [hs] at h
          simp only at h ⊢
          cases hr : strRun m1 (p ++ q) with
          | none => rw [hr] at h; cases h
          | some y =>
            obtain ⟨y1, y2⟩ := y
            obtain ⟨z, hz⟩ := ih hr
            exact ⟨_, by rw [hz]⟩
  obtain ⟨⟨m1, a1⟩, hx⟩ := this
  have := scanString_run (F := F) hx [] buf
  rw [List.append_nil, scanString_nil] at this
  exact this

/-- The scanner mode that corresponds to a state of the UTF-8 automaton. -/
def modeOf : Nat → SMode
  | 2 => .cont 0x80 0xBF []
  | 3 => .cont 0x80 0xBF [(0x80, 0xBF)]
  | 4 => .cont 0xA0 0xBF [(0x80, 0xBF)]
  | 5 => .cont 0x80 0x9F [(0x80, 0xBF)]
  | 6 => .cont 0x90 0xBF [(0x80, 0xBF), (0x80, 0xBF)]
  | 7 => .cont 0x80 0xBF [(0x80, 0xBF), (0x80, 0xBF)]
  | 8 => .cont 0x80 0x8F [(0x80, 0xBF), (0x80, 0xBF)]
  | _ => .plain

/-- Bounds for the partial code point in each state. -/
def cpLo : Nat → Nat
  | 2 => 2 | 3 => 1 | 5 => 1 | 7 => 1 | 8 => 1 | _ => 0
@[inherit_doc cpLo] def cpHi : Nat → Nat
  | 2 => 2 ^ 20 | 3 => 2 ^ 14 | 4 => 2 ^ 14 | 5 => 2 ^ 14 | 6 => 2 ^ 8 | 7 => 2 ^ 8 | 8 => 2 ^ 8 | _ => 2 ^ 32

/-- Next state of the automaton. -/
def nextSt (st n : Nat) : Nat := (decode st 0 n).1

theorem decode_fst (st cp n : Nat) : (decode st cp n).1 = nextSt st n := rfl

theorem nextSt_big {st n : Nat} (hst : st < 9) (hn : 256 ≤ n) : nextSt st n = 1 := by
  have : ¬ n < 256 := by omega
  simp only [nextSt, decode, this, if_false]
  revert st
  decide

theorem escape_ascii : ∀ n : Fin 128, strRun .plain (escapeOne n.val (Char.ofNat n.val)) = some (.plain, [Char.ofNat n.val]) := by decide +kernel

/-- From the initial state. -/
theorem start_table : ∀ n : Fin 256, (nextSt 0 n.val = 0 → n.val < 128 ∧ (decode 0 0 n.val).2 = n.val) ∧ (nextSt 0 n.val < 9) ∧
    (nextSt 0 n.val ≠ 0 → nextSt 0 n.val ≠ 1 → stringStep .plain (Char.ofNat n.val) = some (modeOf (nextSt 0 n.val), [Char.ofNat n.val]) ∧ n.val ≠ 34 ∧
      cpLo (nextSt 0 n.val) ≤ (decode 0 0 n.val).2 ∧ (decode 0 0 n.val).2 < cpHi (nextSt 0 n.val)) := by decide +kernel

/-- From the other states. -/
theorem cont_table : ∀ st : Fin 9, 2 ≤ st.val → ∀ n : Fin 256, nextSt st.val n.val < 9 ∧ (nextSt st.val n.val ≠ 1 →
    stringStep (modeOf st.val) (Char.ofNat n.val) = some (modeOf (nextSt st.val n.val), [Char.ofNat n.val]) ∧
      (nextSt st.val n.val = 0 → st.val = 2) ∧ (nextSt st.val n.val = 2 → st.val = 3 ∨ st.val = 4 ∧ 32 ≤ n.val % 64 ∨ st.val = 5) ∧
      (nextSt st.val n.val = 3 → st.val = 6 ∧ 16 ≤ n.val % 64 ∨ st.val = 7 ∨ st.val = 8) ∧ nextSt st.val n.val < 4) := by decide +kernel

theorem strRun_one {m m' : SMode} {c : Char} {a : Str} (h : stringStep m c = some (m', a)) (hc : c ≠ '"') : strRun m [c] = some (m', a) := by
  simp [strRun, h, hc]

theorem char_of_toNat (c : Char) : Char.ofNat c.toNat = c := by
  simp

/-- One step of `escapeLoop`. -/
def escapeCont (cs : Str) (c : Char) (st cp : Nat) (out buf : Str) : Out :=
  if st = 0 then
    if 512 - (buf ++ escapeOne cp c).length < 13 then escapeLoop cs st cp (out ++ (buf ++ escapeOne cp c)) [] else escapeLoop cs st cp out (buf ++ escapeOne cp c)
  else if st = 1 then ⟨out, false⟩
  else escapeLoop cs st cp out (buf ++ [c])

theorem escapeLoop_cons (c : Char) (cs : Str) (st cp : Nat) (out buf : Str) :
    escapeLoop (c :: cs) st cp out buf = escapeCont cs c (nextSt st c.toNat) (decode st cp c.toNat).2 out buf := rfl

/-- What `dump_escaped` has passed to the stream is always a complete piece of a string literal, and on success it is the literal of the whole string. -/
theorem escapeLoop_spec : ∀ (s : Str) (st cp : Nat) (out buf o1 s1 : Str), st < 9 → st ≠ 1 → (st ≠ 0 → cpLo st ≤ cp ∧ cp < cpHi st) →
    strRun .plain out = some (.plain, o1) → strRun .plain buf = some (modeOf st, s1) →
    ((escapeLoop s st cp out buf).done = true → strRun .plain (escapeLoop s st cp out buf).text = some (.plain, o1 ++ s1 ++ s)) ∧
      ∃ a, strRun .plain (escapeLoop s st cp out buf).text = some (.plain, a) := by
  intro s
  induction s with
  | nil =>
    intro st cp out buf o1 s1 h1 h2 h3 h4 h5
    simp only [escapeLoop]
    split
    · next h =>
      subst h
      have := strRun_append h4 h5
      exact ⟨fun _ => by simpa [modeOf] using this, _, this⟩
    · exact ⟨fun h => (by cases h), _, h4⟩
  | cons c s ih =>
    intro st cp out buf o1 s1 h1 h2 h3 h4 h5
    rw [escapeLoop_cons]
    by_cases hbig : 256 ≤ c.toNat
    · rw [nextSt_big h1 hbig, escapeCont, if_neg (by decide), if_pos rfl]
      exact ⟨fun h => (by cases h), _, h4⟩
    have hn : c.toNat < 256 := by omega
    -- the next state, the text and the bounds
    have key : nextSt st c.toNat ≠ 1 → nextSt st c.toNat < 9 ∧
        (nextSt st c.toNat = 0 → strRun (modeOf st) (escapeOne (decode st cp c.toNat).2 c) = some (.plain, [c])) ∧
        (nextSt st c.toNat ≠ 0 → strRun (modeOf st) [c] = some (modeOf (nextSt st c.toNat), [c]) ∧
          cpLo (nextSt st c.toNat) ≤ (decode st cp c.toNat).2 ∧ (decode st cp c.toNat).2 < cpHi (nextSt st c.toNat)) := by
      intro hne
      by_cases hst : st = 0
      · subst hst
        obtain ⟨t1, t2, t3⟩ := start_table ⟨c.toNat, hn⟩
        simp only [char_of_toNat] at t1 t2 t3
        have hcp : (decode 0 cp c.toNat).2 = (decode 0 0 c.toNat).2 := rfl
        rw [hcp]
        refine ⟨t2, fun h => ?_, fun h => ?_⟩
        · obtain ⟨u1, u2⟩ := t1 h
          rw [u2]
          have := escape_ascii ⟨c.toNat, u1⟩
          rw [char_of_toNat] at this
          exact this
        · obtain ⟨u1, u2, u3, u4⟩ := t3 h hne
          exact ⟨strRun_one u1 (by rintro rfl; exact u2 rfl), u3, u4⟩
      · have h2' : 2 ≤ st := by omega
        obtain ⟨t0, t⟩ := cont_table ⟨st, h1⟩ h2' ⟨c.toNat, hn⟩
        simp only [char_of_toNat] at t0 t
        obtain ⟨t1, t2, t3, t4, t5⟩ := t hne
        obtain ⟨b1, b2⟩ := h3 hst
        have hq : c ≠ '"' := by
          rintro rfl
          revert hne
          have : ∀ st : Fin 9, 2 ≤ st.val → nextSt st.val 34 = 1 := by decide +kernel
          exact fun hne => hne (this ⟨st, h1⟩ h2')
        have hcp : (decode st cp c.toNat).2 = (c.toNat % 64 + cp * 64) % 2 ^ 32 := by simp [decode, hst]
        have hm : c.toNat % 64 < 64 := Nat.mod_lt _ (by decide)
        have h0 : nextSt st c.toNat = 0 ∨ nextSt st c.toNat = 2 ∨ nextSt st c.toNat = 3 := by omega
        refine ⟨t0, fun h => ?_, fun h => ⟨strRun_one t1 hq, ?_⟩⟩
        · have hs2 := t2 h
          subst hs2
          simp only [cpLo, cpHi] at b1 b2
          have : 128 ≤ (decode 2 cp c.toNat).2 := by rw [hcp]; omega
          rw [h] at t1
          have he : escapeOne (decode 2 cp c.toNat).2 c = [c] := by
            unfold escapeOne
            repeat rw [if_neg (by omega)]
          rw [he]
          exact strRun_one t1 hq
        · rw [hcp]
          rcases h0 with e | e | e
          · exact absurd e h
          · rw [e]
            rcases t3 e with rfl | ⟨rfl, hb⟩ | rfl <;> simp only [cpLo, cpHi] at b1 b2 ⊢ <;> omega
          · rw [e]
            rcases t4 e with ⟨rfl, hb⟩ | rfl | rfl <;> simp only [cpLo, cpHi] at b1 b2 ⊢ <;> omega
    generalize hcp : (decode st cp c.toNat).2 = cp' at key ⊢
    generalize hns : nextSt st c.toNat = st' at key ⊢
    unfold escapeCont
    split
    · next h =>
      subst h
      obtain ⟨k1, k2, _⟩ := key (by decide)
      have hb := strRun_append h5 (k2 rfl)
      split
      · have := ih 0 cp' (out ++ (buf ++ escapeOne cp' c)) [] _ [] (by decide) (by decide) (by simp) (strRun_append h4 hb) rfl
        simpa using this
      · have := ih 0 cp' out (buf ++ escapeOne cp' c) o1 (s1 ++ [c]) (by decide) (by decide) (by simp) h4 hb
        simpa using this
    · next h =>
      split
      · exact ⟨fun h => (by cases h), _, h4⟩
      · next h' =>
        obtain ⟨k1, _, k3⟩ := key h'
        obtain ⟨k4, k5⟩ := k3 h
        have := ih st' cp' out (buf ++ [c]) o1 (s1 ++ [c]) k1 h' (fun _ => k5) h4 (strRun_append h5 k4)
        simpa using this

theorem escape_done {s : Str} (h : (escapeLoop s 0 0 [] []).done = true) : strRun .plain (escapeLoop s 0 0 [] []).text = some (.plain, s) := by
  have := (escapeLoop_spec s 0 0 [] [] [] [] (by decide) (by decide) (by simp) rfl rfl).1 h
  simpa using this

theorem escape_any (s : Str) : ∃ a, strRun .plain (escapeLoop s 0 0 [] []).text = some (.plain, a) :=
  (escapeLoop_spec s 0 0 [] [] [] [] (by decide) (by decide) (by simp) rfl rfl).2

theorem scan_quote (T : TextOps F) (cs : Str) : scan T ('"' :: cs) = scanString cs .plain [] := by
  rw [scan]
  simp

/-- A string literal is read back. -/
theorem scan_str (T : TextOps F) {s : Str} (h : (dumpStr s).done = true) (r : Str) : scan T ((dumpStr s).text ++ r) = (.str s, r) := by
  unfold dumpStr at h ⊢
  obtain ⟨h1, h2⟩ := Out.seq_done.1 h
  obtain ⟨h3, h4⟩ := Out.seq_done.1 h2
  rw [Out.seq_text h1, Out.seq_text h3]
  simp only [Out.put, List.cons_append, List.nil_append, List.append_assoc]
  rw [scan_quote, scanString_run (escape_done h3)]
  simp [scanString]

/-- A string literal that has been cut off is a lexical error, unless nothing is left of it. -/
theorem scan_str_cut (T : TextOps F) {s p : Str} (h : Cut (dumpStr s) p) : p = [] ∨ scan T p = (.err, []) := by
  rcases h.seq with h | ⟨_, q, rfl, h'⟩
  · obtain ⟨h1, h2⟩ := Cut.put.1 h
    rcases List.prefix_cons_iff.1 h1 with h | ⟨t, rfl, ht⟩
    · exact Or.inl h
    · rw [List.prefix_nil.1 ht] at h2
      exact absurd rfl h2
  · refine Or.inr ?_
    obtain ⟨a, ha⟩ := escape_any s
    have : q <+: (escapeLoop s 0 0 [] []).text := by
      rcases h'.seq with h2 | ⟨_, q', rfl, h2⟩
      · exact h2.pre
      · obtain ⟨h1, h2⟩ := Cut.put.1 h2
        rcases List.prefix_cons_iff.1 h1 with h | ⟨t, rfl, ht⟩
        · simp [h]
        · rw [List.prefix_nil.1 ht] at h2
          exact absurd rfl h2
    show scan T ('"' :: ([] ++ q)) = _
    rw [List.nil_append, scan_quote]
    exact scanString_cut ha this []

end VGram
