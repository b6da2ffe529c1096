import Verif.Props.Tokenizer
import Verif.Props.IntVGram
import Verif.Model.StringVGram

/-!
# From texts to codes and back

All of this is for the evaluation order `rhsFirst` of base_tokenizer.cc:36.
-/

namespace VGram

open Spec Props

variable {F : Type}

/-- The code of a token after the tokens `T` were met. -/
def code (T : List Str) (x : Str) : Int := ((EvalOrder.rhsFirst.first + (seen T).idxOf x : Nat) : Int)

theorem code_append {T : List Str} {x : Str} (h : x ∈ T) (T' : List Str) : code (T ++ T') x = code T x := by
  unfold code
  rw [idxOf_prefix (seen_append_prefix T T') (seen_mem.2 h)]

theorem codes_append {T A : List Str} (h : ∀ x ∈ A, x ∈ T) (T' : List Str) : A.map (code (T ++ T')) = A.map (code T) :=
  List.map_congr_left fun x hx => code_append (h x hx) T'

theorem code_inj {T : List Str} {x y : Str} (hx : x ∈ T) (h : code T x = code T y) : x = y := by
  unfold code at h
  have h' : (seen T).idxOf x = (seen T).idxOf y := by omega
  exact (List.idxOf_inj (seen_mem.2 hx)).1 h'

theorem code_mem {T A : List Str} (hA : ∀ x ∈ A, x ∈ T) {x : Str} : code T x ∈ A.map (code T) ↔ x ∈ A := by
  constructor
  · intro h
    obtain ⟨y, hy, he⟩ := List.mem_map.1 h
    exact code_inj (hA y hy) he ▸ hy
  · exact fun h => List.mem_map.2 ⟨x, h, rfl⟩

/-- Unknown codes are dropped exactly where tokens are unknown. -/
theorem code_filter {T A : List Str} (hA : ∀ x ∈ A, x ∈ T) {hist : List Int} (hh : ∀ c, c ∈ hist ↔ c ∈ A.map (code T)) (toks : List Str) :
    (toks.map (code T)).filter (fun c => decide (c ∈ hist)) = (toks.filter fun x => decide (x ∈ A)).map (code T) := by
  rw [List.filter_map]
  congr 1
  apply List.filter_congr
  intro x _
  simp only [Function.comp, decide_eq_decide]
  rw [hh]
  exact code_mem hA

theorem seen_map_length {α β : Type} [DecidableEq α] [DecidableEq β] (f : α → β) (l : List α) : (seen (l.map f)).length ≤ (seen l).length := by
  have : seen (l.map f) ⊆ (seen l).map f := by
    intro y hy
    obtain ⟨x, hx, rfl⟩ := List.mem_map.1 (seen_mem.1 hy)
    exact List.mem_map.2 ⟨x, seen_mem.2 hx, rfl⟩
  have := (List.subperm_of_subset (seen_nodup _) this).length_le
  simpa using this

theorem seen_length_mono' {α : Type} [DecidableEq α] {l l' : List α} (h : ∀ x ∈ l, x ∈ l') : (seen l).length ≤ (seen l').length :=
  (List.subperm_of_subset (seen_nodup _) fun _ hx => seen_mem.2 (h _ (seen_mem.1 hx))).length_le

theorem decode_append (t : Tokenizer) (a b : List Int) : t.decode (a ++ b) = t.decode a ++ t.decode b := by
  simp [Tokenizer.decode]

theorem decode_flatten (t : Tokenizer) (ws : List (List Int)) : t.decode ws.flatten = (ws.map t.decode).flatten := by
  induction ws with
  | nil => rfl
  | cons w ws ih => rw [List.flatten_cons, decode_append, ih]; rfl

theorem TokInv.decode_map {t : Tokenizer} {T : List Str} (h : TokInv .rhsFirst t (seen T)) {toks : List Str} (hs : ∀ x ∈ toks, x ∈ T) :
    t.decode (toks.map (code T)) = toks.flatten := h.decode_codes fun x hx => seen_mem.2 (hs x hx)

/-- A code sequence of known tokens is the image of a token sequence. -/
theorem codes_of {T A : List Str} : ∀ {w : List Int}, (∀ c ∈ w, c ∈ A.map (code T)) → ∃ toks : List Str, (∀ x ∈ toks, x ∈ A) ∧ w = toks.map (code T) := by
  intro w
  induction w with
  | nil => intro _; exact ⟨[], by simp, rfl⟩
  | cons c w ih =>
    intro h
    obtain ⟨toks, h1, h2⟩ := ih fun d hd => h d (by simp [hd])
    obtain ⟨x, hx, rfl⟩ := List.mem_map.1 (h c (by simp))
    refine ⟨x :: toks, fun y hy => ?_, by rw [h2]; rfl⟩
    rcases List.mem_cons.1 hy with rfl | hy
    · exact hx
    · exact h1 y hy

theorem decode_ne_nil {t : Tokenizer} {T A : List Str} (h : TokInv .rhsFirst t (seen T)) (hA : ∀ x ∈ A, x ∈ T) (hne : ∀ x ∈ T, x ≠ []) {w : List Int}
    (hw : w ≠ []) (hc : ∀ c ∈ w, c ∈ A.map (code T)) : t.decode w ≠ [] := by
  obtain ⟨toks, h1, rfl⟩ := codes_of hc
  rw [h.decode_map fun x hx => hA x (h1 x hx)]
  cases toks with
  | nil => simp at hw
  | cons x toks =>
    have := hne x (hA x (h1 x (by simp)))
    simp [this]

theorem decode_stable {t t' : Tokenizer} {T A : List Str} {T' : List Str} (h : TokInv .rhsFirst t (seen T)) (h' : TokInv .rhsFirst t' (seen (T ++ T')))
    (hA : ∀ x ∈ A, x ∈ T) {w : List Int} (hc : ∀ c ∈ w, c ∈ A.map (code T)) : t'.decode w = t.decode w := by
  obtain ⟨toks, h1, rfl⟩ := codes_of hc
  rw [h.decode_map fun x hx => hA x (h1 x hx), ← codes_append (fun x hx => hA x (h1 x hx)) T',
    h'.decode_map fun x hx => List.mem_append_left _ (hA x (h1 x hx))]

theorem tokensOf_ne_nil (k : TokKind) (s : Str) : ∀ x ∈ tokensOf k s, x ≠ [] := by
  cases k with
  | word => exact fun x hx => (C35_words_shape s x hx).1
  | char =>
    intro x hx
    obtain ⟨c, _, rfl⟩ := List.mem_map.1 hx
    simp

/-- One `transform` call. -/
theorem transform_codes {t : Tokenizer} {T : List Str} (h : TokInv .rhsFirst t (seen T)) (s : Str) :
    TokInv .rhsFirst (t.transform .rhsFirst s).1 (seen (T ++ tokensOf t.kind s)) ∧
      (t.transform .rhsFirst s).2 = (tokensOf t.kind s).map (code (T ++ tokensOf t.kind s)) := h.all (tokensOf t.kind s)

/-- The codes of a list of texts. -/
theorem transformAll_codes : ∀ {texts : List Str} {t : Tokenizer} {T : List Str}, TokInv .rhsFirst t (seen T) →
    TokInv .rhsFirst (t.transformAll .rhsFirst texts).1 (seen (T ++ (texts.map (tokensOf t.kind)).flatten)) ∧
      (t.transformAll .rhsFirst texts).1.kind = t.kind ∧
      (t.transformAll .rhsFirst texts).2 = texts.map fun s => (tokensOf t.kind s).map (code (T ++ (texts.map (tokensOf t.kind)).flatten)) := by
  intro texts
  induction texts with
  | nil => intro t T h; simpa [Tokenizer.transformAll] using h
  | cons s ss ih =>
    intro t T h
    obtain ⟨a1, a2⟩ := transform_codes h s
    obtain ⟨b1, b2, b3⟩ := ih a1
    rw [transform_kind] at b1 b2 b3
    simp only [Tokenizer.transformAll, List.map_cons, List.flatten_cons]
    rw [← List.append_assoc]
    refine ⟨b1, b2, ?_⟩
    rw [b3, a2, codes_append fun x hx => List.mem_append_right _ hx]

/-! ## Joining -/

theorem joinSp_cons (x : Str) (xs : List Str) : joinSp (x :: xs) = x ++ (xs.map fun y => ' ' :: y).flatten := by
  induction xs generalizing x with
  | nil => simp [joinSp]
  | cons y ys ih => rw [joinSp, ih]; simp; simp

theorem joinSp_filter (ps : List Str) : (joinSp ps).filter (fun c => decide (c ≠ ' ')) = ps.flatten.filter fun c => decide (c ≠ ' ') := by
  cases ps with
  | nil => rfl
  | cons x xs =>
    rw [joinSp_cons, List.flatten_cons, List.filter_append, List.filter_append]
    congr 1
    induction xs with
    | nil => rfl
    | cons y ys ih => simp only [List.map_cons, List.flatten_cons, List.filter_append, ih]; simp

theorem rd_isWord {words : List IntSeq} {i : Int} {w : IntSeq} (h : IsWord words i w) : rd words i = .ok w :=
  rd_ok.2 ⟨i.toNat, by have := h.1; omega, h.2⟩

theorem joinWords_ok {t : Tokenizer} {alpha : List IntSeq} : ∀ {ids : List Int} {ws : List IntSeq} {acc : Str}, List.Forall₂ (IsWord alpha) ids ws →
    (∀ w ∈ ws, t.decode w ≠ []) →
    StringVGram.joinWords t alpha ids acc = .ok (if acc = [] then joinSp (ws.map t.decode) else acc ++ ((ws.map t.decode).map fun y => ' ' :: y).flatten) := by
  intro ids ws acc h
  induction h generalizing acc with
  | nil => intro _; simp only [StringVGram.joinWords]; split <;> simp_all [joinSp]
  | @cons i w ids ws a _ ih =>
    intro hne
    have hw := hne w (by simp)
    simp only [StringVGram.joinWords, rd_isWord a, ok_bind]
    rw [ih fun v hv => hne v (by simp [hv])]
    by_cases ha : acc = []
    · subst ha
      rw [if_neg (by simpa using hw), if_pos rfl, List.map_cons, joinSp_cons]
      simp
    · rw [if_neg ha, if_neg (by simp [ha]), if_neg ha]
      simp

/-! ## Texts through a fitted model -/

theorem StreamInv.alphabet_mem {m : Stream F} {hist : List Int} (h : StreamInv m hist) {ws : List IntSeq} (hw : m.alphabet = .ok ws) :
    ∀ w ∈ ws, w ≠ [] ∧ ∀ x ∈ w, x ∈ hist := by
  have hd : m.dict ≠ .null := by
    intro e
    simp only [Stream.alphabet, Stream.getDict, e] at hw
    cases hw
  obtain ⟨d, d1, d2⟩ := h.getDict hd
  rw [h.alphabet d1 d2] at hw
  cases hw
  intro w hw
  obtain ⟨v, hv, rfl⟩ := List.mem_map.1 hw
  refine ⟨by simpa using d2.wf.nonempty v hv, fun x hx => ?_⟩
  obtain ⟨c, hc, rfl⟩ := List.mem_map.1 hx
  obtain ⟨c1, c2⟩ := d2.symbols v hv c hc
  rw [List.getElem?_eq_getElem (by omega), Option.getD_some]
  exact seen_mem.1 (List.getElem_mem _)

theorem Total.transformLoop_any {O : FloatOps F} (SL : ScoreLaws O) (σ : IntVGram.Sched) {m : Stream F} {hist : List Int} (h : Total m hist) {ws : List IntSeq}
    (hw : m.alphabet = .ok ws) : ∀ (seqs : List IntSeq) (t : Nat), ∃ n outs t', IntVGram.transformLoop O σ seqs t m = .ok (m, outs, t') ∧
      List.Forall₂ (fun seq ids => Spells ws ids (seq.filter fun x => decide (x ∈ hist))) (seqs.take n) outs ∧
      ((∀ j, t ≤ j → j < t + seqs.length → σ.term j = false) → n = seqs.length) := by
  intro seqs
  induction seqs with
  | nil => intro t; exact ⟨0, [], t, rfl, by simp, fun _ => rfl⟩
  | cons seq seqs ih =>
    intro t
    obtain ⟨ids, p1, p2⟩ := h.parse SL hw seq
    by_cases ht : σ.term t = true
    · refine ⟨1, [ids], t + 1, by simp only [IntVGram.transformLoop, p1, ok_bind, ht, if_true, pure_M], by simpa using p2, fun hσ => ?_⟩
      rw [hσ t (le_refl _) (by simp)] at ht
      cases ht
    · obtain ⟨n, outs, t', o1, o2, o3⟩ := ih (t + 1)
      refine ⟨n + 1, ids :: outs, t', by simp only [IntVGram.transformLoop, p1, ok_bind, ht, Bool.false_eq_true, if_false, o1, pure_M], .cons p2 o2, fun hσ => ?_⟩
      rw [o3 fun j h1 h2 => hσ j (by omega) (by simp only [List.length_cons]; omega)]
      rfl

/-- One transformed text. -/
theorem joinWords_text {t : Tokenizer} {T A : List Str} (h : TokInv .rhsFirst t (seen T)) (hA : ∀ x ∈ A, x ∈ T) (hne : ∀ x ∈ T, x ≠ []) {hist : List Int}
    (hh : ∀ c, c ∈ hist ↔ c ∈ A.map (code T)) {ws : List IntSeq} (hw : ∀ w ∈ ws, w ≠ [] ∧ ∀ x ∈ w, x ∈ hist) {toks : List Str}
    {ids : List Int} (hs : Spells ws ids ((toks.map (code T)).filter fun c => decide (c ∈ hist))) :
    ∃ pieces, StringVGram.joinWords t ws ids [] = .ok (joinSp pieces) ∧ (∀ p ∈ pieces, p ≠ [] ∧ p ∈ ws.map t.decode) ∧
      pieces.flatten = (toks.filter fun x => decide (x ∈ A)).flatten := by
  obtain ⟨vs, v1, v2⟩ := hs
  have hv : ∀ v ∈ vs, v ∈ ws := by
    have : ∀ {ids : List Int} {vs : List IntSeq}, List.Forall₂ (IsWord ws) ids vs → ∀ v ∈ vs, v ∈ ws := by
      intro ids vs hf
      induction hf with
      | nil => intro v hv; cases hv
      | cons a _ ih =>
        intro v hv
        rcases List.mem_cons.1 hv with rfl | hv
        · exact List.mem_of_getElem? a.2
        · exact ih v hv
    exact this v1
  have hd : ∀ v ∈ vs, t.decode v ≠ [] := fun v hv' =>
    decode_ne_nil h hA hne (hw v (hv v hv')).1 fun c hc => (hh c).1 ((hw v (hv v hv')).2 c hc)
  refine ⟨vs.map t.decode, by rw [joinWords_ok v1 hd, if_pos rfl], fun p hp => ?_, ?_⟩
  · obtain ⟨v, hv', rfl⟩ := List.mem_map.1 hp
    exact ⟨hd v hv', List.mem_map.2 ⟨v, hv v hv', rfl⟩⟩
  · rw [← decode_flatten, v2, code_filter hA hh, h.decode_map fun x hx => hA x (of_decide_eq_true (List.mem_filter.1 hx).2)]

end VGram
