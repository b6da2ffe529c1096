import Verif.Proofs.Coder
import Verif.Model.Tokenizer

/-! # Tokenizer tables -/

namespace VGram

open Spec

/-- First code handed out: 0 when the right-hand side is evaluated first, 1 otherwise. -/
def EvalOrder.first : EvalOrder → Nat
  | .rhsFirst => 0
  | .lhsFirst => 1

/-- The tokenizer knows exactly the tokens `vals`: token `i` has code `first + i`, and `i` is decoded to it. -/
structure TokInv (o : EvalOrder) (t : Tokenizer) (vals : List Str) : Prop where
  nodup : vals.Nodup
  fwd : ∀ x, t.forward.get? x = if x ∈ vals then some ((o.first + vals.idxOf x : Nat) : Int) else none
  bwd : ∀ k, t.backward.get? k = if 0 ≤ k then vals[k.toNat]? else none
  flen : t.forward.length = vals.length
  blen : t.backward.length = vals.length

theorem TokInv.new (o : EvalOrder) (k : TokKind) : TokInv o (Tokenizer.new k) [] :=
  ⟨List.nodup_nil, fun x => by simp [Tokenizer.new, AMap.get?], fun k => by simp [Tokenizer.new, AMap.get?], rfl, rfl⟩

theorem codeOne_new (o : EvalOrder) (t : Tokenizer) (x : Str) (h : t.forward.get? x = none) :
    t.codeOne o x = (⟨t.kind, t.forward.set x ((o.first + t.forward.length : Nat) : Int), t.backward.set (t.backward.length : Int) x⟩,
      ((o.first + t.forward.length : Nat) : Int)) := by
  unfold Tokenizer.codeOne
  rw [h]
  cases o <;> simp [EvalOrder.first, Int.add_comm]

theorem TokInv.one {o : EvalOrder} {t : Tokenizer} {vals : List Str} (h : TokInv o t vals) (x : Str) :
    TokInv o (t.codeOne o x).1 (snocSeen vals x) ∧ (t.codeOne o x).2 = ((o.first + (snocSeen vals x).idxOf x : Nat) : Int) := by
  unfold snocSeen
  by_cases hx : x ∈ vals
  · unfold Tokenizer.codeOne
    rw [h.fwd]
    simp only [hx, if_true]
    exact ⟨h, trivial⟩
  · rw [codeOne_new o t x (by rw [h.fwd, if_neg hx]), h.flen]
    simp only [hx, if_false]
    have hnone : t.forward.get? x = none := by rw [h.fwd, if_neg hx]
    have hbnone : t.backward.get? (vals.length : Int) = none := by rw [h.bwd]; simp
    refine ⟨⟨?_, ?_, ?_, ?_, ?_⟩, ?_⟩
    · rw [List.nodup_append]
      refine ⟨h.nodup, by simp, ?_⟩
      intro a ha b hb
      rw [List.mem_singleton] at hb
      subst hb
      exact fun e => hx (e ▸ ha)
    · intro y
      rw [AMap.get?_set]
      by_cases hy : y = x
      · subst hy
        simp [hx, List.idxOf_append]
      · rw [if_neg hy, h.fwd]
        by_cases hm : y ∈ vals
        · simp [hm, List.idxOf_append]
        · simp [hm, hy]
    · intro k
      rw [AMap.get?_set, h.blen, h.bwd]
      by_cases hk : k = (vals.length : Int)
      · subst hk
        simp
      · rw [if_neg hk]
        split
        · next h0 =>
          by_cases hlt : k.toNat < vals.length
          · rw [List.getElem?_append_left hlt]
          · rw [List.getElem?_eq_none (by omega), List.getElem?_eq_none (by simp; omega)]
        · rfl
    · rw [AMap.set_new hnone]
      simp [h.flen]
    · rw [h.blen, AMap.set_new hbnone]
      simp [h.blen]
    · simp [List.idxOf_append, hx]

@[simp] theorem codeOne_kind (o : EvalOrder) (t : Tokenizer) (x : Str) : (t.codeOne o x).1.kind = t.kind := by
  unfold Tokenizer.codeOne
  split <;> rfl

@[simp] theorem codeAll_kind (o : EvalOrder) (t : Tokenizer) (xs : List Str) : (t.codeAll o xs).1.kind = t.kind := by
  induction xs generalizing t with
  | nil => rfl
  | cons x xs ih => simp [Tokenizer.codeAll, ih]

@[simp] theorem transform_kind (o : EvalOrder) (t : Tokenizer) (s : Str) : (t.transform o s).1.kind = t.kind := by
  simp [Tokenizer.transform]

theorem TokInv.all {o : EvalOrder} {t : Tokenizer} {hist : List Str} (h : TokInv o t (seen hist)) (toks : List Str) :
    TokInv o (t.codeAll o toks).1 (seen (hist ++ toks)) ∧
      (t.codeAll o toks).2 = toks.map fun x => ((o.first + (seen (hist ++ toks)).idxOf x : Nat) : Int) := by
  induction toks generalizing t hist with
  | nil => simpa [Tokenizer.codeAll] using h
  | cons x xs ih =>
    obtain ⟨h1, h2⟩ := h.one x
    rw [← seen_snoc] at h1 h2
    obtain ⟨h3, h4⟩ := ih h1
    simp only [Tokenizer.codeAll]
    rw [show hist ++ x :: xs = hist ++ [x] ++ xs by simp]
    refine ⟨h3, ?_⟩
    rw [h4, h2, List.map_cons]
    rw [idxOf_prefix (x := x) (seen_append_prefix (hist ++ [x]) xs) (seen_mem.2 (by simp))]

theorem TokInv.decode_codes {t : Tokenizer} {vals : List Str} (h : TokInv .rhsFirst t vals) {toks : List Str} (hs : ∀ x ∈ toks, x ∈ vals) :
    t.decode (toks.map fun x => ((EvalOrder.rhsFirst.first + vals.idxOf x : Nat) : Int)) = toks.flatten := by
  unfold Tokenizer.decode
  congr 1
  induction toks with
  | nil => rfl
  | cons x xs ih =>
    have hx := hs x (by simp)
    have hg : t.backward.get? ((EvalOrder.rhsFirst.first + vals.idxOf x : Nat) : Int) = some x := by
      rw [h.bwd, if_pos (by omega), Int.toNat_natCast]
      simp only [EvalOrder.first, Nat.zero_add]
      rw [List.getElem?_eq_getElem (List.idxOf_lt_length_iff.2 hx)]
      simp
    rw [List.map_cons, List.filterMap_cons, hg]
    simp only
    rw [ih fun y hy => hs y (by simp [hy])]

theorem tokenize_char_flatten (s : Str) : (Tokenizer.tokenize .char s).flatten = s := by
  simp only [Tokenizer.tokenize]
  induction s with
  | nil => rfl
  | cons c cs ih => simp [ih]

end VGram
