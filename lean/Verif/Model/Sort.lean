import Verif.Model.Basic
import Mathlib.Data.Nat.Log

/-!
# Model of `std::sort`

core/src/main/cpp/algorithm/stat_dict_p.cc:156 sorts the items of an expansion (and :239 those of a reduction) with `std::sort`.  Its text is not in the repository: this is the one
of GNU libstdc++ 13 (`bits/stl_algo.h`), introspective sort followed by an insertion sort.  Several of its loops have no test for the end of the range, they rely on the comparison
being an order; a loop that leaves the vector is the fault `oob`.

Simplifications: iterators are indices; an element that is moved from keeps its value until something is moved there, or it and its hole are removed from the list in between
(`insert`); the range that is sorted by a heap when the recursion gets too deep is taken out of the vector and put back.
-/

namespace VGram

namespace Intro

variable {α : Type} (lt : α → α → Bool)

/-- `std::iter_swap`. -/
def swap (l : List α) (i j : Nat) : M (List α) := do
  let a ← rd l i
  let b ← rd l j
  pure ((l.set i b).set j a)

/-- `__move_median_to_first` bits/stl_algo.h:82-102. -/
def median (l : List α) (result a b c : Nat) : M (List α) := do
  let x ← rd l a
  let y ← rd l b
  let z ← rd l c
  if lt x y then
    if lt y z then swap l result b
    else if lt x z then swap l result c
    else swap l result a
  else if lt x z then swap l result a
  else if lt y z then swap l result c
  else swap l result b

/-- The loop `while (comp(first, pivot)) ++first`, bits/stl_algo.h:1878-1879, on the elements from `first` to the end of the vector. -/
def up (p : α) : List α → Nat → M Nat
  | [], _ => .error .oob
  | x :: rest, first => if lt x p then up p rest (first + 1) else .ok first

/-- `--last` and the loop `while (comp(pivot, last)) --last`, bits/stl_algo.h:1880-1882, on the elements before `last`, the nearest first. -/
def down (p : α) : List α → Nat → M Nat
  | [], _ => .error .oob
  | x :: rest, last => if lt p x then down p rest (last - 1) else .ok (last - 1)

/-- `__unguarded_partition` bits/stl_algo.h:1868-1888; `p` is the pivot, which is not in the range.  `fuel` bounds the number of rounds. -/
def partition (p : α) : Nat → List α → Nat → Nat → M (List α × Nat)
  | 0, _, _, _ => .error .diverge
  | fuel + 1, l, first, last => do
    let i ← up lt p (l.drop first) first
    let j ← down lt p (l.take last).reverse last
    if ¬ i < j then pure (l, i)
    else do
      let l' ← swap l i j
      partition p fuel l' (i + 1) j

/-- `__unguarded_partition_pivot` bits/stl_algo.h:1890-1900. -/
def pivot (l : List α) (first last : Nat) : M (List α × Nat) := do
  let l' ← median lt l first (first + 1) (first + (last - first) / 2) (last - 1)
  let p ← rd l' first
  partition lt p (last + 1) l' (first + 1) last

/-- The loop of `__adjust_heap` bits/stl_heap.h:231-239 that moves the greater child up; `holeIndex` and `secondChild` are equal at its begin and end. -/
def sift (len : Nat) : Nat → List α → Nat → M (List α × Nat)
  | 0, _, _ => .error .diverge
  | fuel + 1, l, hole =>
    if hole < (len - 1) / 2 then do
      let x ← rd l (2 * (hole + 1) : Nat)
      let y ← rd l (2 * (hole + 1) - 1 : Nat)
      if lt x y then sift len fuel (l.set hole y) (2 * (hole + 1) - 1)
      else sift len fuel (l.set hole x) (2 * (hole + 1))
    else .ok (l, hole)

/-- The only child of the last parent, bits/stl_heap.h:240-246. -/
def single (len : Nat) (l : List α) (hole : Nat) : M (List α × Nat) :=
  if len % 2 = 0 ∧ hole = (len - 2) / 2 then do
    let x ← rd l (2 * (hole + 1) - 1 : Nat)
    pure (l.set hole x, 2 * (hole + 1) - 1)
  else .ok (l, hole)

/-- `__push_heap` bits/stl_heap.h:133-148. -/
def push (top : Nat) (value : α) : Nat → List α → Nat → M (List α)
  | 0, _, _ => .error .diverge
  | fuel + 1, l, hole =>
    if top < hole then do
      let x ← rd l ((hole - 1) / 2 : Nat)
      if lt x value then push top value fuel (l.set hole x) ((hole - 1) / 2)
      else wr l hole value
    else wr l hole value

/-- `__adjust_heap` bits/stl_heap.h:222-250. -/
def adjust (len : Nat) (l : List α) (hole : Nat) (value : α) : M (List α) := do
  let (l1, h1) ← sift lt len (len + 1) l hole
  let (l2, h2) ← single len l1 h1
  push lt hole value (len + 1) l2 h2

/-- The loop of `__make_heap` bits/stl_heap.h:352-362, from the parent `n - 1` down to 0. -/
def make (len : Nat) : Nat → List α → M (List α)
  | 0, l => .ok l
  | n + 1, l => do
    let value ← rd l n
    let l' ← adjust lt len l n value
    make len n l'

/-- The loop of `__sort_heap` bits/stl_heap.h:422-426 with `__pop_heap` (:252-267); `n + 1` elements are left. -/
def unheap : Nat → List α → M (List α)
  | 0, l => .ok l
  | n + 1, l => do
    let value ← rd l (n + 1 : Nat)
    let x ← rd l (0 : Nat)
    let l' ← adjust lt (n + 1) (l.set (n + 1) x) 0 value
    unheap n l'

/-- `__partial_sort(first, last, last)` bits/stl_algo.h:1902-1912: `__heap_select` (:1629-1639) has nothing to select, `__make_heap` returns at once if there are less than
two elements (bits/stl_heap.h:348). -/
def heapSort (l : List α) : M (List α) := do
  let l' ← if l.length < 2 then .ok l else make lt l.length ((l.length - 2) / 2 + 1) l
  unheap lt (l.length - 1) l'

/-- `__introsort_loop` bits/stl_algo.h:1915-1935.  A round of the loop and the recursive call have the same smaller limit. -/
def introsort : Nat → List α → Nat → Nat → M (List α)
  | 0, l, first, last =>
    if 16 < last - first then do
      let range ← heapSort lt ((l.take last).drop first)
      pure (l.take first ++ range ++ l.drop last)
    else .ok l
  | limit + 1, l, first, last =>
    if 16 < last - first then do
      let (l', cut) ← pivot lt l first last
      let l'' ← introsort limit l' cut last
      introsort limit l'' first cut
    else .ok l

/-- `__unguarded_linear_insert` bits/stl_algo.h:1789-1806: the elements before the inserted one, the nearest first. -/
def insert (val : α) : List α → M (List α)
  | [] => .error .oob
  | x :: before =>
    if lt val x then do
      let r ← insert val before
      pure (x :: r)
    else .ok (val :: x :: before)

/-- `__insertion_sort` bits/stl_algo.h:1808-1831, after the first element: `before` are the elements of the range already sorted, the greatest first. -/
def guarded : List α → List α → M (List α)
  | before, [] => .ok before
  | before, val :: rest =>
    match before.getLast? with
    | none => guarded [val] rest
    | some first =>
      if lt val first then guarded (before ++ [val]) rest
      else do
        let before' ← insert lt val before
        guarded before' rest

/-- `__unguarded_insertion_sort` bits/stl_algo.h:1833-1843. -/
def unguarded : List α → List α → M (List α)
  | before, [] => .ok before
  | before, val :: rest => do
    let before' ← insert lt val before
    unguarded before' rest

/-- `__final_insertion_sort` bits/stl_algo.h:1850-1865. -/
def final (l : List α) : M (List α) := do
  if 16 < l.length then
    let before ← guarded lt [] (l.take 16)
    let all ← unguarded lt before (l.drop 16)
    pure all.reverse
  else
    let all ← guarded lt [] l
    pure all.reverse

/-- `std::sort` bits/stl_algo.h:1939-1952; `__lg` is the logarithm to base 2. -/
def sort (l : List α) : M (List α) := do
  if l.isEmpty then pure l
  else do
    let l' ← introsort lt (Nat.log 2 l.length * 2) l 0 l.length
    final lt l'

end Intro

end VGram
