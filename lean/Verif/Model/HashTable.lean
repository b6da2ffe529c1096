import Verif.Model.StatDict

/-!
# Model of the hash table behind `known`

core/src/main/cpp/algorithm/stat_dict_p.cc:105 collects the texts of words in a `std::unordered_set<IntSeq, VectorHash>`; `VectorHash` is in
core/src/main/cpp/algorithm/vector_hash.h.  The text of `unordered_set` is not in the repository: this is the one of GNU libstdc++ 13 (`bits/hashtable.h`), a singly linked list
of nodes in which the nodes of a bucket are neighbours, and an array with a pointer to the node *before* the first node of every bucket.

Simplifications: the linked list is a list; nodes are identified by their keys, which are different; the decisions of the rehash policy (`bits/hashtable_policy.h`) are
a parameter.
-/

namespace VGram

/-- `VectorHash::operator()` vector_hash.h:11-19 with 64-bit `size_t`.  `std::hash<int>` converts to `size_t` (bits/functional_hash.h:114-120). -/
def vectorHash (v : IntSeq) : Nat :=
  v.foldl (fun seed i => seed ^^^ (((i % 2 ^ 64).toNat + 0x9e3779b9 + seed <<< 6 + seed >>> 2) % 2 ^ 64)) 0

/-- `_Hashtable`: nodes with their hash codes (`_M_before_begin._M_nxt` and what follows), and `_M_buckets`: a null pointer, a pointer to `_M_before_begin`
(`some none`), or to the node of a key. -/
structure HashTable (α : Type) where
  nodes : List (Nat × α)
  buckets : List (Option (Option α))
  deriving DecidableEq

namespace HashTable

variable {α : Type} [DecidableEq α]

/-- An empty table has one bucket, `_M_single_bucket`. -/
def empty : HashTable α := ⟨[], [none]⟩

/-- The nodes after a pointer: `p->_M_nxt` and what follows. -/
def following : Option α → List (Nat × α) → List (Nat × α)
  | none, l => l
  | some _, [] => []
  | some k, e :: l => if e.2 = k then l else following (some k) l

/-- `node->_M_nxt = p->_M_nxt; p->_M_nxt = node`. -/
def linkAfter : Option α → Nat × α → List (Nat × α) → List (Nat × α)
  | none, e, l => e :: l
  | some _, e, [] => [e]
  | some k, e, x :: l => if x.2 = k then x :: e :: l else x :: linkAfter (some k) e l

/-- The loop of `_M_find_before_node` hashtable.h:1958-1967, at a node and those after it: it ends at a node with the code and the key, at the last node, or before a node
of another of the `n` buckets. -/
def walk (n b code : Nat) (key : α) : List (Nat × α) → Bool
  | [] => false
  | e :: l => if e.1 = code ∧ e.2 = key then true else
    match l with
    | [] => false
    | e' :: _ => if e'.1 % n ≠ b then false else walk n b code key l

/-- `count` hashtable.h:1746-1752, that is `_M_find_before_node` hashtable.h:1950-1970. -/
def find (t : HashTable α) (code : Nat) (key : α) : M Bool :=
  let n := t.buckets.length
  let b := code % n
  match t.buckets[b]? with
  | none => .error .oob
  | some none => .ok false
  | some (some p) => match following p t.nodes with
    | [] => .error .nullDeref
    | l => .ok (walk n b code key l)

/-- `_M_insert_bucket_begin` hashtable.h:2009-2032. -/
def insertBegin (t : HashTable α) (e : Nat × α) : M (HashTable α) :=
  let n := t.buckets.length
  let b := e.1 % n
  match t.buckets[b]? with
  | none => .error .oob
  | some (some p) => .ok ⟨linkAfter p e t.nodes, t.buckets⟩
  | some none => match t.nodes with
    | [] => .ok ⟨[e], t.buckets.set b (some none)⟩
    | x :: _ => .ok ⟨e :: t.nodes, (t.buckets.set (x.1 % n) (some (some e.2))).set b (some none)⟩

/-- The loop of `_M_rehash_aux` hashtable.h:2590-2613: remaining nodes, new list, new buckets, `__bbegin_bkt`. -/
def rehashLoop (n : Nat) : List (Nat × α) → List (Nat × α) → List (Option (Option α)) → Nat → M (HashTable α)
  | [], l, bs, _ => .ok ⟨l, bs⟩
  | e :: r, l, bs, bb =>
    let b := e.1 % n
    match bs[b]? with
    | none => .error .oob
    | some none =>
      let bs := bs.set b (some none)
      rehashLoop n r (e :: l) (if l.isEmpty then bs else bs.set bb (some (some e.2))) b
    | some (some p) => rehashLoop n r (linkAfter p e l) bs bb

/-- `_M_rehash_aux` hashtable.h:2584-2618. -/
def rehash (t : HashTable α) (n : Nat) : M (HashTable α) := rehashLoop n t.nodes [] (List.replicate n none) 0

/-- `insert`, that is `_M_insert_unique` and `_M_insert_unique_node`, hashtable.h:2255-2281, 2168-2192.  `grow` tells for every number of elements to which number of
buckets the policy wants to change, if it does.  (Nothing is ever erased, so every number of elements is met once.) -/
def insert (hash : α → Nat) (grow : Nat → Option Nat) (t : HashTable α) (key : α) : M (HashTable α) := do
  let there ← t.find (hash key) key
  if there then pure t
  else do
    let t ← match grow t.nodes.length with
      | none => pure t
      | some n => t.rehash n
    t.insertBegin (hash key, key)

/-- `insert` of several keys. -/
def insertAll (hash : α → Nat) (grow : Nat → Option Nat) : HashTable α → List α → M (HashTable α)
  | t, [] => .ok t
  | t, k :: ks => do
    let t ← t.insert hash grow k
    insertAll hash grow t ks

end HashTable

namespace StatDict

variable {F : Type}

/-- First loop of `expand`, stat_dict_p.cc:106-110, with the table. -/
def expandKnownTable (hash : IntSeq → Nat) (grow : Nat → Option Nat) (O : FloatOps F) (s : StatDict F) : List IntSeq → HashTable IntSeq → M (List (StatItem F) × HashTable IntSeq)
  | [], known => .ok ([], known)
  | seq :: rest, known => do
    let known ← known.insert hash grow seq
    let (d', symbol) ← s.dict.search seq none
    if d'.size = s.dict.size then do
      let (items, known) ← expandKnownTable hash grow O s rest known
      pure (⟨-1, symbol, O.maxVal, s.freq symbol⟩ :: items, known)
    else .error .iterInvalid

/-- Second loop of `expand`, stat_dict_p.cc:124-154, with the table. -/
def expandPairsTable (hash : IntSeq → Nat) (grow : Nat → Option Nat) (E : Env F) (s : StatDict F) (st en : List Int) (total : Int) :
    PairMap → HashTable IntSeq → M (List (StatItem F))
  | [], _ => .ok []
  | ((first, second), f) :: rest, known => do
    let e ← rd en second
    let b ← rd st first
    let xb := e - f
    let ay := b - f
    let xy := total - ay - xb - f
    let score ← pairScore E f f ay xb xy
    let item : StatItem F := ⟨first, second, score, f⟩
    let text ← s.itemText item
    let there ← known.find (hash text) text
    if there then expandPairsTable hash grow E s st en total rest known
    else do
      let known ← known.insert hash grow text
      let items ← expandPairsTable hash grow E s st en total rest known
      pure (item :: items)

/-- `StatDictImpl::expand` stat_dict_p.cc:103-176, with the table. -/
def expandTable (hash : IntSeq → Nat) (grow : Nat → Option Nat) (E : Env F) (s : StatDict F) (slots : Int) : M (List IntSeq × List Int × F) := do
  let (known, table) ← expandKnownTable hash grow E.ops s s.dict.seqs HashTable.empty
  let slots' := slots + (s.dict.size : Int)
  let zeros := List.replicate s.symbolFreqs.length (0 : Int)
  let (st, en) ← pairMarginals (E.pairOrder s.pairs) zeros zeros
  let total := sumI st
  let fresh ← expandPairsTable hash grow E s st en total (E.pairOrder s.pairs) table
  let items := E.sortItems (known ++ fresh)
  let acc := sumI ((E.pairOrder s.pairs).map (·.2))
  expandTake E.ops s acc items slots' s.minProb

end StatDict

end VGram
