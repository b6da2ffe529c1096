import Mathlib.Data.List.Sort
import Verif.Proofs.Coder

/-!
# The symbol coder (C27-C31)

`coderAfter hist` is the coder after a history of `encode` calls, one per element of `hist`.
-/

namespace VGram.Props

open VGram Spec

/-- The coder after the calls `encode(seq)` for `seq` in `hist`. -/
def coderAfter (hist : List (List Int)) : SeqCoder := hist.foldl (fun c seq => (c.encode seq).1) SeqCoder.new

theorem coderAfter_snoc (hist : List (List Int)) (seq : List Int) :
    coderAfter (hist ++ [seq]) = ((coderAfter hist).encode seq).1 := by
  simp [coderAfter, List.foldl_append]

theorem coder_from {c : SeqCoder} {l : List Int} (h : CInv c (seen l)) (hist : List (List Int)) :
    CInv (hist.foldl (fun c seq => (c.encode seq).1) c) (seen (l ++ hist.flatten)) := by
  induction hist generalizing c l with
  | nil => simpa using h
  | cons x xs ih =>
    have := ih (h.encode x).1
    simpa using this

theorem coderAfter_inv (hist : List (List Int)) : CInv (coderAfter hist) (seen hist.flatten) := by
  have := coder_from (l := []) CInv.new hist
  rwa [List.nil_append] at this

/-- **C27.** Encoding keeps the length, and decoding what `encode` returned gives the sequence back,
immediately and after any later calls of `encode`. -/
theorem C27_decode_encode (hist later : List (List Int)) (seq : List Int) :
    ((coderAfter hist).encode seq).2.length = seq.length ∧
      (coderAfter (hist ++ seq :: later)).decode ((coderAfter hist).encode seq).2 = .ok seq := by
  have h := (coderAfter_inv hist).encode seq
  refine ⟨by rw [h.2]; simp, ?_⟩
  have h2 := coderAfter_inv (hist ++ seq :: later)
  have hp : seen (hist.flatten ++ seq) <+: seen (hist ++ seq :: later).flatten := by
    have := seen_append_prefix (hist.flatten ++ seq) later.flatten
    simpa using this
  have hmem : ∀ x ∈ seq, x ∈ seen (hist.flatten ++ seq) := fun x hx => by
    rw [seen_mem]
    exact List.mem_append_right _ hx
  rw [h.2, show (seq.map fun x => ((seen (hist.flatten ++ seq)).idxOf x : Int)) =
    seq.map fun x => ((seen (hist ++ seq :: later).flatten).idxOf x : Int) from
      List.map_congr_left fun x hx => by rw [idxOf_prefix hp (hmem x hx)]]
  exact h2.decode_codes fun x hx => hp.subset (hmem x hx)

example : (coderAfter [[7, 7, 9]]).encode [9, -1, 7, -1] = (coderAfter [[7, 7, 9], [9, -1, 7, -1]], [1, 2, 0, 2]) ∧
    (coderAfter [[7, 7, 9], [9, -1, 7, -1], [4]]).decode [1, 2, 0, 2] = .ok [9, -1, 7, -1] := by decide

/-- **C28.** The code table after any history: the values encoded so far, in order of first
occurrence, have the codes `0, 1, 2, …`. -/
theorem C28_codes_first_occurrence (hist : List (List Int)) (i : Nat) (x : Int) :
    (coderAfter hist).codeMap.get? x = some (i : Int) ↔ (seen hist.flatten)[i]? = some x := by
  rw [SeqCoder.codeMap, (coderAfter_inv hist).fwd]
  split
  · next h =>
    rw [Option.some_inj, Int.natCast_inj]
    constructor
    · rintro rfl
      rw [List.getElem?_eq_getElem (List.idxOf_lt_length_iff.2 h)]
      simp
    · intro hi
      obtain ⟨hlt, rfl⟩ := List.getElem?_eq_some_iff.1 hi
      exact (seen_nodup _).idxOf_getElem i hlt
  · next h =>
    simp only [reduceCtorEq, false_iff]
    exact fun hi => h (List.mem_of_getElem? hi)

/-- **C28.** Every code handed out is the index of the value among the first occurrences; codes are
exactly `0 … n-1`. -/
theorem C28_codes_dense (hist : List (List Int)) (k : Int) :
    (∃ x, (coderAfter hist).codeMap.get? x = some k) ↔ 0 ≤ k ∧ k < (coderAfter hist).codeMap.length := by
  have h := coderAfter_inv hist
  rw [SeqCoder.codeMap, h.len]
  constructor
  · rintro ⟨x, hx⟩
    rw [h.fwd] at hx
    split at hx
    · next hm =>
      rw [Option.some_inj] at hx
      have := List.idxOf_lt_length_iff.2 hm
      omega
    · cases hx
  · rintro ⟨h0, hlt⟩
    refine ⟨(seen hist.flatten)[k.toNat]'(by omega), ?_⟩
    have := (C28_codes_first_occurrence hist k.toNat ((seen hist.flatten)[k.toNat]'(by omega))).2 (List.getElem?_eq_getElem (by omega))
    rw [SeqCoder.codeMap] at this
    rw [this]
    congr 1
    omega

/-- **C28.** Two values never share a code. -/
theorem C28_codes_injective (hist : List (List Int)) (x y k : Int)
    (hx : (coderAfter hist).codeMap.get? x = some k) (hy : (coderAfter hist).codeMap.get? y = some k) : x = y := by
  have hk := (C28_codes_dense hist k).1 ⟨x, hx⟩
  rw [← Int.toNat_of_nonneg hk.1] at hx hy
  rw [C28_codes_first_occurrence] at hx hy
  rw [hx] at hy
  exact Option.some_inj.1 hy

/-- **C28.** A value's code never changes, and it is the code `encode` returns for it. -/
theorem C28_codes_permanent (hist later : List (List Int)) (x k : Int)
    (h : (coderAfter hist).codeMap.get? x = some k) :
    (coderAfter (hist ++ later)).codeMap.get? x = some k ∧ ((coderAfter (hist ++ later)).encode [x]).2 = [k] := by
  have hk := (C28_codes_dense hist k).1 ⟨x, h⟩
  have h2 : (coderAfter (hist ++ later)).codeMap.get? x = some k := by
    rw [← Int.toNat_of_nonneg hk.1] at h ⊢
    rw [C28_codes_first_occurrence] at h ⊢
    obtain ⟨t, ht⟩ := seen_append_prefix hist.flatten later.flatten
    rw [List.flatten_append, ← ht, List.getElem?_append_left (List.getElem?_eq_some_iff.1 h).1]
    exact h
  refine ⟨h2, ?_⟩
  rw [SeqCoder.codeMap] at h2
  simp [SeqCoder.encode, SeqCoder.encodeOne, h2]

example : (coderAfter [[7, 7, 9], [-1]]).codeMap.get? 9 = some 1 ∧ seen [7, 7, 9, -1] = [7, 9, -1] := by decide

/-- **C29.** `encode_immutable` (a function of the coder that returns no new coder) drops exactly the
values never encoded before. -/
theorem C29_immutable (hist : List (List Int)) (seq : List Int) :
    (coderAfter hist).decode ((coderAfter hist).encodeImm seq) = .ok (seq.filter fun x => decide (x ∈ hist.flatten)) := by
  have h := coderAfter_inv hist
  rw [h.imm]
  have hf : (seq.filter fun x => decide (x ∈ seen hist.flatten)) = seq.filter fun x => decide (x ∈ hist.flatten) := by
    simp only [seen_mem]
  rw [hf]
  apply h.decode_codes
  intro x hx
  rw [seen_mem]
  simpa using (List.mem_filter.1 hx).2

/-- **C29.** On known values `encode_immutable` and `encode` agree, and `encode` adds nothing. -/
theorem C29_immutable_known (hist : List (List Int)) (seq : List Int) (hk : ∀ x ∈ seq, x ∈ hist.flatten) :
    (coderAfter hist).encode seq = (coderAfter hist, (coderAfter hist).encodeImm seq) := by
  have h := coderAfter_inv hist
  generalize coderAfter hist = c at h ⊢
  induction seq with
  | nil => rfl
  | cons x xs ih =>
    have hx : x ∈ seen hist.flatten := seen_mem.2 (hk x (by simp))
    have hg := h.fwd x
    rw [if_pos hx] at hg
    have ih := ih fun y hy => hk y (by simp [hy])
    simp only [SeqCoder.encode, SeqCoder.encodeOne, SeqCoder.encodeImm, List.filterMap_cons, hg, ih]

example : (coderAfter [[7, 9]]).encodeImm [9, 3, 7, 9] = [1, 0, 1] ∧
    (coderAfter [[7, 9]]).decode [1, 0, 1] = .ok [9, 7, 9] := by decide

/-- **C30.** `decode` throws `std::out_of_range` exactly when some value is not a code in use. -/
theorem C30_decode_throws (hist : List (List Int)) (seq : List Int) :
    (coderAfter hist).decode seq = .error .outOfRange ↔ ∃ k ∈ seq, ¬ ∃ x, (coderAfter hist).codeMap.get? x = some k := by
  have h := coderAfter_inv hist
  have hd : ∀ k, (¬ ∃ x, (coderAfter hist).codeMap.get? x = some k) ↔ ¬ (0 ≤ k ∧ k < ((seen hist.flatten).length : Int)) := by
    intro k
    rw [C28_codes_dense, SeqCoder.codeMap, h.len]
  simp only [hd]
  rw [h.decode]
  split
  · next hall =>
    simp only [reduceCtorEq, false_iff]
    rintro ⟨k, hk, hn⟩
    exact hn (hall k hk)
  · next hall =>
    simp only [true_iff]
    by_contra hc
    refine hall fun k hk => ?_
    by_contra hn
    exact hc ⟨k, hk, hn⟩

/-- **C30.** Otherwise it returns, element for element, the values with these codes. -/
theorem C30_decode_returns (hist : List (List Int)) (seq : List Int)
    (hk : ∀ k ∈ seq, ∃ x, (coderAfter hist).codeMap.get? x = some k) :
    ∃ out, (coderAfter hist).decode seq = .ok out ∧
      List.Forall₂ (fun k x => (coderAfter hist).codeMap.get? x = some k) seq out := by
  have h := coderAfter_inv hist
  have hd : ∀ k ∈ seq, 0 ≤ k ∧ k < ((seen hist.flatten).length : Int) := by
    intro k hm
    have := (C28_codes_dense hist k).1 (hk k hm)
    rwa [SeqCoder.codeMap, h.len] at this
  refine ⟨_, by rw [h.decode, if_pos hd], ?_⟩
  clear hk
  induction seq with
  | nil => exact .nil
  | cons k ks ih =>
    refine .cons ?_ (ih fun j hj => hd j (by simp [hj]))
    have := hd k (by simp)
    conv_rhs => rw [← Int.toNat_of_nonneg this.1]
    rw [C28_codes_first_occurrence, List.getElem?_eq_getElem (by omega)]
    simp [show k.toNat < (seen hist.flatten).length by omega]

example : (coderAfter [[7, 9]]).decode [1, 2] = .error .outOfRange ∧ (coderAfter [[7, 9]]).decode [-1] = .error .outOfRange ∧
    (coderAfter [[7, 9]]).decode [1, 0] = .ok [9, 7] := by decide

/-- Two coders with the same table answer every sequence of calls alike. -/
theorem CInv_encode_eq {c c' : SeqCoder} {l l' : List Int} (h : CInv c (seen l)) (h' : CInv c' (seen l'))
    (he : seen l = seen l') (seq : List Int) :
    (c.encode seq).2 = (c'.encode seq).2 ∧ seen (l ++ seq) = seen (l' ++ seq) := by
  have hs : seen (l ++ seq) = seen (l' ++ seq) := by
    clear h h'
    induction seq generalizing l l' with
    | nil => simpa using he
    | cons x xs ih =>
      have := @ih (l ++ [x]) (l' ++ [x]) (by rw [seen_snoc, seen_snoc, he])
      simpa using this
  exact ⟨by rw [(h.encode seq).2, (h'.encode seq).2, hs], hs⟩

theorem seen_of_nodup {l : List Int} (h : l.Nodup) : seen l = l := by
  induction l with
  | nil => rfl
  | cons x xs ih =>
    rw [List.nodup_cons] at h
    rw [seen, ih h.2, List.filter_eq_self.2]
    intro y hy
    simp only [ne_eq, decide_eq_true_eq]
    exact fun e => h.1 (e ▸ hy)

theorem flatten_singles (pairs : List (Int × Int)) : (pairs.map fun p => [p.1]).flatten = pairs.map fun p => p.1 := by
  induction pairs with
  | nil => rfl
  | cons p ps ih => simp [ih]

/-- **C31.** Take the pairs of `code_map()` in any hash order, sort them by code, and feed the values
one by one to a fresh coder: whatever calls follow, the rebuilt coder returns the same codes,
immutable encodings and decodings as the original. -/
theorem C31_rebuilt (hist later : List (List Int)) (pairs : List (Int × Int))
    (hp : pairs.Perm (coderAfter hist).codeMap) (hsorted : pairs.Pairwise fun a b => a.2 ≤ b.2) (seq : List Int) :
    let rebuilt := coderAfter (pairs.map fun p => [p.1])
    let a := later.foldl (fun c s => (c.encode s).1) (coderAfter hist)
    let b := later.foldl (fun c s => (c.encode s).1) rebuilt
    (a.encode seq).2 = (b.encode seq).2 ∧ a.encodeImm seq = b.encodeImm seq ∧ a.decode seq = b.decode seq := by
  intro rebuilt a b
  have h := coderAfter_inv hist
  have hpairs : pairs = (coderAfter hist).codeMap := by
    have hs2 : ((seen hist.flatten).zipIdx.map fun p => ((p.1, (p.2 : Int)) : Int × Int)).Pairwise fun a b => a.2 ≤ b.2 := by
      rw [List.pairwise_map, List.pairwise_iff_getElem]
      intro i j hi hj hij
      simp
      omega
    rw [SeqCoder.codeMap, h.entries] at hp ⊢
    refine hp.eq_of_pairwise ?_ hsorted hs2
    intro x y hx hy h1 h2
    have hxm := hp.subset hx
    obtain ⟨⟨u, i⟩, hu, rfl⟩ := List.mem_map.1 hxm
    obtain ⟨⟨v, j⟩, hv, rfl⟩ := List.mem_map.1 hy
    have : i = j := by
      have : (i : Int) = j := le_antisymm h1 h2
      exact_mod_cast this
    subst this
    rw [List.mk_mem_zipIdx_iff_getElem?] at hu hv
    rw [hu] at hv
    cases hv
    rfl
  have hvals : pairs.map (fun p => p.1) = seen hist.flatten := by
    rw [hpairs, SeqCoder.codeMap, h.entries, List.map_map]
    show (seen hist.flatten).zipIdx.map Prod.fst = _
    simp
  have hr := coderAfter_inv (pairs.map fun p => [p.1])
  have hfl : (pairs.map fun p => [p.1]).flatten = seen hist.flatten := by
    rw [← hvals]
    exact flatten_singles pairs
  have heq : seen hist.flatten = seen (pairs.map fun p => [p.1]).flatten := by
    rw [hfl, seen_of_nodup (seen_nodup _)]
  have ha := coder_from h later
  have hb := coder_from hr later
  have hab : seen (hist.flatten ++ later.flatten) = seen ((pairs.map fun p => [p.1]).flatten ++ later.flatten) :=
    (CInv_encode_eq h hr heq later.flatten).2
  refine ⟨(CInv_encode_eq ha hb hab seq).1, ?_, ?_⟩
  · rw [ha.imm, hb.imm, hab]
  · rw [ha.decode, hb.decode, hab]

example : (coderAfter [[7, 9, -3]]).codeMap = [(7, 0), (9, 1), (-3, 2)] ∧
    coderAfter [[7], [9], [-3]] = coderAfter [[7, 9, -3]] := by decide

end VGram.Props
