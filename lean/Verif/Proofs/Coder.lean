import Mathlib.Data.List.Nodup
import Verif.Spec.Codes
import Verif.Model.SeqCoder
import Verif.Proofs.Basic

/-! # Association lists and the symbol coder -/

namespace VGram

open Spec

section AMap

variable {κ ν : Type} [DecidableEq κ]

theorem AMap.get?_set (m : AMap κ ν) (k k' : κ) (v : ν) :
    (m.set k v).get? k' = if k' = k then some v else m.get? k' := by
  induction m with
  | nil =>
    simp only [AMap.set, AMap.get?]
    by_cases h : k = k'
    · subst h; simp
    · rw [if_neg h, if_neg fun e => h e.symm]
  | cons p m ih =>
    obtain ⟨a, b⟩ := p
    simp only [AMap.set]
    split
    · next h =>
      subst h
      simp only [AMap.get?]
      by_cases h : a = k'
      · subst h; simp
      · rw [if_neg h, if_neg h, if_neg fun e => h e.symm]
    · next h =>
      simp only [AMap.get?]
      split
      · next h' =>
        subst h'
        rw [if_neg h]
      · exact ih

theorem AMap.length_set (m : AMap κ ν) (k : κ) (v : ν) :
    (m.set k v).length = if (m.get? k).isSome then m.length else m.length + 1 := by
  induction m with
  | nil => simp [AMap.set, AMap.get?]
  | cons p m ih =>
    obtain ⟨a, b⟩ := p
    simp only [AMap.set, AMap.get?]
    by_cases h : a = k
    · simp [h]
    · simp only [if_neg h, List.length_cons, ih]
      split <;> simp

theorem AMap.set_new {m : AMap κ ν} {k : κ} (h : m.get? k = none) (v : ν) : m.set k v = m ++ [(k, v)] := by
  induction m with
  | nil => rfl
  | cons p m ih =>
    obtain ⟨a, b⟩ := p
    simp only [AMap.get?] at h
    split at h
    · cases h
    · next hne => simp only [AMap.set, if_neg hne, ih h, List.cons_append]

end AMap

/-! ## First occurrences -/

section Seen

variable {α : Type} [DecidableEq α]

/-- One more element. -/
def snocSeen (l : List α) (x : α) : List α := if x ∈ l then l else l ++ [x]

theorem seen_mem {l : List α} {x : α} : x ∈ seen l ↔ x ∈ l := by
  induction l with
  | nil => simp [seen]
  | cons y l ih =>
    simp only [seen, List.mem_cons, List.mem_filter, ih, decide_eq_true_eq]
    by_cases h : x = y <;> simp [h]

theorem seen_nodup (l : List α) : (seen l).Nodup := by
  induction l with
  | nil => simp [seen]
  | cons y l ih =>
    simp only [seen, List.nodup_cons, List.mem_filter, decide_eq_true_eq]
    exact ⟨fun h => h.2 rfl, ih.filter _⟩

theorem snocSeen_cons (y : α) (l : List α) (x : α) (h : x ≠ y) :
    snocSeen (y :: l.filter (fun z => decide (z ≠ y))) x = y :: (snocSeen l x).filter (fun z => decide (z ≠ y)) := by
  have : (x ∈ y :: l.filter (fun z => decide (z ≠ y))) ↔ x ∈ l := by simp [h]
  unfold snocSeen
  by_cases hm : x ∈ l
  · rw [if_pos hm, if_pos (this.2 hm)]
  · rw [if_neg hm, if_neg fun e => hm (this.1 e)]
    simp [h]

theorem snocSeen_self (y : α) (l : List α) :
    snocSeen (y :: l.filter (fun z => decide (z ≠ y))) y = y :: (snocSeen l y).filter (fun z => decide (z ≠ y)) := by
  unfold snocSeen
  rw [if_pos (by simp)]
  split
  · rfl
  · simp

theorem seen_snoc (l : List α) (x : α) : seen (l ++ [x]) = snocSeen (seen l) x := by
  induction l with
  | nil => simp [seen, snocSeen]
  | cons y l ih =>
    rw [List.cons_append]
    show y :: (seen (l ++ [x])).filter _ = snocSeen (y :: (seen l).filter _) x
    rw [ih]
    by_cases h : x = y
    · subst h
      exact (snocSeen_self _ _).symm
    · exact (snocSeen_cons _ _ _ h).symm

theorem seen_append_congr {a b : List α} (h : seen a = seen b) (l : List α) : seen (a ++ l) = seen (b ++ l) := by
  induction l generalizing a b with
  | nil => simpa using h
  | cons x l ih =>
    have := ih (a := a ++ [x]) (b := b ++ [x]) (by rw [seen_snoc, seen_snoc, h])
    simpa using this

theorem seen_append_sub {a l : List α} (h : ∀ x ∈ l, x ∈ a) : seen (a ++ l) = seen a := by
  induction l with
  | nil => simp
  | cons x l ih =>
    have hx : seen (a ++ [x]) = seen a := by
      rw [seen_snoc, snocSeen, if_pos (seen_mem.2 (h x (by simp)))]
    have := seen_append_congr hx l
    rw [ih fun y hy => h y (by simp [hy])] at this
    simpa using this

theorem seen_append_prefix (l l' : List α) : seen l <+: seen (l ++ l') := by
  induction l' generalizing l with
  | nil => simp
  | cons x l' ih =>
    rw [show l ++ x :: l' = l ++ [x] ++ l' by simp]
    refine List.IsPrefix.trans ?_ (ih (l ++ [x]))
    rw [seen_snoc]
    unfold snocSeen
    split
    · exact List.prefix_refl _
    · exact List.prefix_append _ _

end Seen

/-! ## The coder -/

/-- The coder holds exactly the code table `vals` (code `i` ↔ `vals[i]`). -/
structure CInv (c : SeqCoder) (vals : List Int) : Prop where
  nodup : vals.Nodup
  fwd : ∀ x, c.forward.get? x = if x ∈ vals then some (vals.idxOf x : Int) else none
  bwd : ∀ k, c.backward.get? k = if 0 ≤ k then vals[k.toNat]? else none
  len : c.forward.length = vals.length
  entries : c.forward = vals.zipIdx.map fun p => (p.1, (p.2 : Int))

theorem CInv.new : CInv SeqCoder.new [] :=
  ⟨List.nodup_nil, fun x => by simp [SeqCoder.new, AMap.get?], fun k => by simp [SeqCoder.new, AMap.get?], rfl, rfl⟩

theorem CInv.one {c : SeqCoder} {vals : List Int} (h : CInv c vals) (x : Int) :
    CInv (c.encodeOne x).1 (snocSeen vals x) ∧ (c.encodeOne x).2 = ((snocSeen vals x).idxOf x : Int) := by
  unfold SeqCoder.encodeOne snocSeen
  rw [h.fwd]
  by_cases hx : x ∈ vals
  · simp only [hx, if_true]
    exact ⟨h, trivial⟩
  · simp only [hx, if_false]
    refine ⟨⟨?_, ?_, ?_, ?_, ?_⟩, ?_⟩
    · rw [List.nodup_append]
      refine ⟨h.nodup, by simp, ?_⟩
      intro a ha b hb
      rw [List.mem_singleton] at hb
      subst hb
      exact fun e => hx (e ▸ ha)
    · intro y
      rw [AMap.get?_set]
      by_cases hy : y = x
      · subst hy
        simp [hx, h.len, List.idxOf_append]
      · rw [if_neg hy, h.fwd]
        by_cases hm : y ∈ vals
        · simp [hm, List.idxOf_append]
        · simp [hm, hy]
    · intro k
      rw [AMap.get?_set, h.len, h.bwd]
      by_cases hk : k = (vals.length : Int)
      · subst hk
        simp
      · rw [if_neg hk]
        split
        · next h0 =>
          by_cases hlt : k.toNat < vals.length
          · rw [List.getElem?_append_left hlt]
          · rw [List.getElem?_eq_none (by omega), List.getElem?_eq_none (by simp; omega)]
        · rfl
    · have : c.forward.get? x = none := by rw [h.fwd, if_neg hx]
      rw [AMap.set_new this]
      simp [h.len]
    · have : c.forward.get? x = none := by rw [h.fwd, if_neg hx]
      rw [AMap.set_new this, h.len, List.zipIdx_append, List.map_append]
      show c.forward ++ _ = _
      rw [h.entries]
      simp
    · simp [h.len, List.idxOf_append, hx]

theorem idxOf_prefix {α : Type} [BEq α] [LawfulBEq α] {l l' : List α} {x : α} (h : l <+: l') (hx : x ∈ l) : l'.idxOf x = l.idxOf x := by
  obtain ⟨t, rfl⟩ := h
  rw [List.idxOf_append, if_pos hx]

theorem CInv.encode {c : SeqCoder} {hist : List Int} (h : CInv c (seen hist)) : ∀ (seq : List Int),
    CInv (c.encode seq).1 (seen (hist ++ seq)) ∧
      (c.encode seq).2 = seq.map fun x => ((seen (hist ++ seq)).idxOf x : Int) := by
  intro seq
  induction seq generalizing c hist with
  | nil => simpa [SeqCoder.encode] using h
  | cons x xs ih =>
    obtain ⟨h1, h2⟩ := h.one x
    rw [← seen_snoc] at h1 h2
    obtain ⟨h3, h4⟩ := ih h1
    simp only [SeqCoder.encode]
    rw [show hist ++ x :: xs = hist ++ [x] ++ xs by simp]
    refine ⟨h3, ?_⟩
    rw [h4, h2, List.map_cons]
    congr 2
    refine (idxOf_prefix (seen_append_prefix _ _) ?_).symm
    rw [seen_mem]
    simp

theorem CInv.imm {c : SeqCoder} {vals : List Int} (h : CInv c vals) (seq : List Int) :
    c.encodeImm seq = (seq.filter (fun x => decide (x ∈ vals))).map fun x => (vals.idxOf x : Int) := by
  unfold SeqCoder.encodeImm
  induction seq with
  | nil => rfl
  | cons x xs ih =>
    rw [List.filterMap_cons, h.fwd]
    by_cases hx : x ∈ vals
    · simp [hx, ih]
    · simp [hx, ih]

theorem CInv.decode {c : SeqCoder} {vals : List Int} (h : CInv c vals) (seq : List Int) :
    c.decode seq = if ∀ k ∈ seq, 0 ≤ k ∧ k < (vals.length : Int) then .ok (seq.map fun k => vals[k.toNat]?.getD 0) else .error .outOfRange := by
  induction seq with
  | nil => simp [SeqCoder.decode]
  | cons k ks ih =>
    simp only [SeqCoder.decode, h.bwd]
    by_cases h0 : 0 ≤ k
    · rw [if_pos h0]
      by_cases hlt : k.toNat < vals.length
      · rw [List.getElem?_eq_getElem hlt]
        simp only [ih]
        by_cases hall : ∀ k ∈ ks, 0 ≤ k ∧ k < (vals.length : Int)
        · rw [if_pos hall, if_pos]
          · simp [hlt]
          · intro j hj
            rcases List.mem_cons.1 hj with rfl | hj
            · omega
            · exact hall j hj
        · rw [if_neg hall, if_neg]
          · rfl
          · exact fun hc => hall fun j hj => hc j (by simp [hj])
      · rw [List.getElem?_eq_none (by omega), if_neg]
        intro hc
        have := hc k (by simp)
        omega
    · rw [if_neg h0, if_neg]
      intro hc
      have := hc k (by simp)
      omega

theorem getD_idxOf {vals : List Int} {x : Int} (h : x ∈ vals) : (vals[((vals.idxOf x : Nat) : Int).toNat]?).getD 0 = x := by
  rw [Int.toNat_natCast, List.getElem?_eq_getElem (List.idxOf_lt_length_iff.2 h)]
  simp

/-- Decoding codes of known values. -/
theorem CInv.decode_codes {c : SeqCoder} {vals : List Int} (h : CInv c vals) {seq : List Int} (hs : ∀ x ∈ seq, x ∈ vals) :
    c.decode (seq.map fun x => (vals.idxOf x : Int)) = .ok seq := by
  rw [h.decode, if_pos]
  · rw [List.map_map]
    congr 1
    conv_rhs => rw [← List.map_id seq]
    apply List.map_congr_left
    intro x hx
    exact getD_idxOf (hs x hx)
  · intro k hk
    obtain ⟨x, hx, rfl⟩ := List.mem_map.1 hk
    have := List.idxOf_lt_length_iff.2 (hs x hx)
    omega

end VGram
