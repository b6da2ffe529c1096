import Verif.Model.Persist

/-!
# Model of the reading of the code map in `coder_to_json`

core/src/main/cpp/interfaces/saver.h:63.  `code_map()` (seq_coder.h:22, seq_coder.cc:49-51) returns the map by value, so `begin()` and `end()` belong to two copies.
A copy is a chain of nodes in memory.  What `end()` points to is up to the standard library: nothing (libstdc++, libc++), or a node of the copy itself (a circular list with a sentinel).
-/

namespace VGram

namespace Saver

/-- A pointer to a node. -/
inductive NodePtr
  | null | node (addr : Nat)
  deriving DecidableEq, Repr

/-- What is stored at an address: a node with its pair and the next pointer, or the sentinel of a copy, which has no pair. -/
inductive Cell
  | node (value : Int × Int) (next : NodePtr)
  | sentinel
  deriving DecidableEq, Repr

/-- How the standard library ends a chain. -/
inductive ChainEnd
  | null | sentinel
  deriving DecidableEq, Repr

/-- The pointer to the first node of a chain stored from address `b` on. -/
def chainBegin (last : NodePtr) (b : Nat) : List (Int × Int) → NodePtr
  | [] => last
  | _ :: _ => .node b

/-- The nodes of a chain stored from address `b` on. -/
def chainCells (last : NodePtr) : Nat → List (Int × Int) → List Cell
  | _, [] => []
  | b, x :: xs => .node x (chainBegin last (b + 1) xs) :: chainCells last (b + 1) xs

/-- `code_map()` seq_coder.cc:49-51: a copy with the given order of the nodes.  The new memory, `begin()` and `end()`. -/
def codeMapCopy (e : ChainEnd) (mem : List Cell) (l : List (Int × Int)) : List Cell × NodePtr × NodePtr :=
  match e with
  | .null => (mem ++ chainCells .null mem.length l, chainBegin .null mem.length l, .null)
  | .sentinel =>
    let last := .node (mem.length + l.length)
    (mem ++ chainCells last mem.length l ++ [.sentinel], chainBegin last mem.length l, last)

/-- The constructor of `pairs` from two iterators, saver.h:63: read, advance, until the iterators are equal.  Reading the sentinel is undefined. -/
def readRange (mem : List Cell) (stop : NodePtr) : Nat → NodePtr → M (List (Int × Int))
  | 0, _ => .error .diverge
  | fuel + 1, p =>
    if p = stop then .ok []
    else match p with
      | .null => .error .nullDeref
      | .node a => match mem[a]? with
        | none => .error .oob
        | some .sentinel => .error .uninit
        | some (.node x next) => do
          let xs ← readRange mem stop fuel next
          pure (x :: xs)

/-- `coder_to_json` saver.h:62-71 with the two copies of :63.  `l` and `l'` are the orders of the nodes in the copy `begin()` and the copy `end()` is taken from,
`first` says whether the former is made first. -/
def coderToJson {F : Type} (e : ChainEnd) (mem : List Cell) (first : Bool) (l l' : List (Int × Int)) : M (Json F) := do
  let (mem2, b, z) :=
    if first then
      let (mem1, b, _) := codeMapCopy e mem l
      let (mem2, _, z) := codeMapCopy e mem1 l'
      (mem2, b, z)
    else
      let (mem1, _, z) := codeMapCopy e mem l'
      let (mem2, b, _) := codeMapCopy e mem1 l
      (mem2, b, z)
  let pairs ← readRange mem2 z (mem2.length + 1) b
  pure (.ofPushed ((sortByCode pairs).map fun p => .int p.1))

end Saver

end VGram
