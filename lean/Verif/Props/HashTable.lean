import Verif.Proofs.HashTable
import Verif.Spec.Narrow
import Verif.Props.Expand
import Verif.Proofs.Coder

/-!
# The hash table of an expansion (C102)
-/

namespace VGram.Props

open VGram Spec

/-- C102: whatever the hash function is, how many keys it maps to one value, and when the table changes its number of buckets: after inserting any keys into an empty
table, exactly these are found, without reading out of bounds or through a null pointer, and an iteration visits each of them once. -/
theorem C102_set {α : Type} [DecidableEq α] (hash : α → Nat) (grow : Nat → Option Nat) (hg : ∀ m n, grow m = some n → 1 ≤ n) (keys : List α) :
    ∃ t, HashTable.empty.insertAll hash grow keys = .ok t ∧ (∀ k, t.find (hash k) k = .ok (decide (k ∈ keys))) ∧ (t.nodes.map (·.2)).Perm (seen keys) := by
  obtain ⟨t, h1, h2, h3⟩ := insertAll_spec (hash := hash) hg keys (t := HashTable.empty) (HashTable.inv_start hash le_rfl)
  have h3' : ∀ k, k ∈ t.nodes.map (·.2) ↔ k ∈ keys := fun k => by rw [h3]; simp [HashTable.empty]
  refine ⟨t, h1, fun k => ?_, ?_⟩
  · rw [h2.find_key]
    simp only [h3']
  · exact (List.perm_ext_iff_of_nodup h2.keys (seen_nodup keys)).2 fun k => by rw [h3', seen_mem]

/-! ## Expansions -/

variable {F : Type}

/-- C102: an expansion that keeps the known words in such a table, with any hash function, does exactly what one does that searches a list of them. -/
theorem C102_expand (hash : IntSeq → Nat) (grow : Nat → Option Nat) (hg : ∀ m n, grow m = some n → 1 ≤ n) (E : Env F) (s : StatDict F) (slots : Int) :
    s.expandTable hash grow E slots = s.expand E slots := by
  obtain ⟨t, h1, h2, h3⟩ := expandKnownTable_eq hg E.ops s s.dict.seqs (t := HashTable.empty) (HashTable.inv_start hash le_rfl)
  unfold StatDict.expandTable StatDict.expand
  rw [h3]
  cases StatDict.expandKnown E.ops s s.dict.seqs with
  | error e => rfl
  | ok items =>
    simp only [Except.map, ok_bind]
    congr 1; funext p
    obtain ⟨st, en⟩ := p
    rw [expandPairsTable_eq hg E s st en (sumI st) (E.pairOrder s.pairs) (known := s.dict.seqs) h1 fun k => by rw [h2]; simp [HashTable.empty]]

/-! ## The hash function -/

/-- C102: hash values are 64-bit numbers; words that differ only in the last symbol, in particular words of one symbol, have different ones. -/
theorem C102_hash (w : IntSeq) : vectorHash w < 2 ^ 64 ∧ ∀ a b, IsInt a → IsInt b → vectorHash (w ++ [a]) = vectorHash (w ++ [b]) → a = b := by
  constructor
  · induction w using List.reverseRecOn with
    | nil => simp [vectorHash]
    | append_singleton w a ih =>
      rw [vectorHash_concat]
      exact Nat.xor_lt_two_pow ih (Nat.mod_lt _ (by norm_num))
  · intro a b ha hb h
    rw [vectorHash_concat, vectorHash_concat] at h
    have h := congrArg (vectorHash w ^^^ ·) h
    simp only [← Nat.xor_assoc, Nat.xor_self, Nat.zero_xor] at h
    unfold IsInt at ha hb
    generalize vectorHash w <<< 6 = x at h
    generalize vectorHash w >>> 2 = y at h
    omega

/-- C102: other words do share hash values, among them words of two codes as they occur in every model with 62 symbols; the table keeps them apart. -/
theorem C102_collision : vectorHash [0, 61] = vectorHash [1, 0] ∧ ∀ grow : Nat → Option Nat, (∀ m n, grow m = some n → 1 ≤ n) →
    ∃ t, HashTable.empty.insertAll vectorHash grow [[0, 61]] = .ok t ∧ t.find (vectorHash [0, 61]) [0, 61] = .ok true ∧ t.find (vectorHash [1, 0]) [1, 0] = .ok false := by
  refine ⟨by decide +kernel, fun grow hg => ?_⟩
  obtain ⟨t, h1, h2, _⟩ := C102_set vectorHash grow hg [[0, 61]]
  exact ⟨t, h1, by rw [h2]; rfl, by rw [h2]; rfl⟩

set_option synthInstance.maxSize 2000 in
/-- Eight words in a table that starts with one bucket, has 3 from the first word on and 5 from the fifth on.  Two of them have the same hash value. -/
example : (do
    let t ← HashTable.empty.insertAll vectorHash (fun n => if n = 0 then some 3 else if n = 4 then some 5 else none) [[0, 61], [1, 0], [2], [0, 61], [3], [4], [5, 5], [], [6]]
    let found ← ([[1, 0], [2], [6], [7], [], [5, 5], [5, 6]] : List IntSeq).mapM fun k => t.find (vectorHash k) k
    pure (t.nodes.map fun e => (e.1 % 5, e.2), t.buckets, found) : M (List (Nat × IntSeq) × List (Option (Option IntSeq)) × List Bool)) =
    .ok ([(0, [6]), (0, []), (3, [4]), (3, [0, 61]), (3, [1, 0]), (1, [2]), (2, [5, 5]), (2, [3])], [some none, some (some [1, 0]), some (some [2]), some (some []), none],
      [true, true, true, false, true, true, false]) := by decide +kernel

/-- An expansion with `VectorHash`, and one in which all words have the same hash value. -/
example : (do
    let (s, _) ← parseAll ratOps (StatDict.new (Ext.fin (1 / 500 : Rat))) [[0, 1, 0, 1], [1, 2]]
    let (words, freqs, _) ← s.expandTable vectorHash (fun n => if n = 0 then some 13 else none) ratEnv 1
    let (words', freqs', _) ← s.expandTable (fun _ => 7) (fun n => some (n + 2)) ratEnv 1
    pure (words, freqs, words', freqs') : M (List IntSeq × List Int × List IntSeq × List Int)) =
    .ok ([[0], [1], [2], [0, 1]], [2, 3, 1, 2], [[0], [1], [2], [0, 1]], [2, 3, 1, 2]) := by decide +kernel

end VGram.Props
