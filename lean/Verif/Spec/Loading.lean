import Mathlib.Data.List.Forall2
import Verif.Model.Persist

/-!
# What a model file says

Written without reference to the loader: which trees describe a model, and which one.
-/

namespace VGram.Spec

variable {F : Type}

/-- The integer a value stands for where an `int` is expected. -/
inductive Whole (O : FloatOps F) : Json F → Int → Prop
  | int (i : Int) : Whole O (.int i) i
  | num (x : F) : Whole O (.num x) (O.trunc x)
  | yes : Whole O (.bool true) 1
  | no : Whole O (.bool false) 0

/-- The number a value stands for where a `double` is expected. -/
inductive Numeric (O : FloatOps F) : Json F → F → Prop
  | int (i : Int) : Numeric O (.int i) (O.ofInt i)
  | num (x : F) : Numeric O (.num x) x

/-- `v` is the member `k` of the object `j` (the first one, should there be several). -/
def Member (j : Json F) (k : String) (v : Json F) : Prop := ∃ a b, j = .obj (a ++ (k.toList, v) :: b) ∧ ∀ e ∈ a, e.1 ≠ k.toList

/-- `j` is an object without a member `k`. -/
def Lacks (j : Json F) (k : String) : Prop := ∃ l, j = .obj l ∧ ∀ e ∈ l, e.1 ≠ k.toList

/-- What a loop over a value visits: everything in a list or an object, nothing in `null`, and any other value itself. -/
inductive Items : Json F → List (Json F) → Prop
  | null : Items .null []
  | arr (l : List (Json F)) : Items (.arr l) l
  | obj (l : List (Str × Json F)) : Items (.obj l) (l.map Prod.snd)
  | bool (b : Bool) : Items (.bool b) [.bool b]
  | int (i : Int) : Items (.int i) [.int i]
  | num (x : F) : Items (.num x) [.num x]
  | str (s : Str) : Items (.str s) [.str s]

/-- What a loop over the member `k` of `j` visits; nothing when there is no such member. -/
def ItemsOf (j : Json F) (k : String) (l : List (Json F)) : Prop := (∃ v, Member j k v ∧ Items v l) ∨ (Lacks j k ∧ l = [])

/-- A word of the alphabet with its frequency. -/
def Entry (O : FloatOps F) (j : Json F) (e : Int × IntSeq) : Prop :=
  ∃ f vs, Member j "freq" f ∧ Whole O f e.1 ∧ Member j "vec" (.arr vs) ∧ List.Forall₂ (Whole O) vs e.2

/-- An entry at which reading runs into a missing key: no frequency, or a proper frequency and no word. -/
def Broken (O : FloatOps F) (j : Json F) : Prop := Lacks j "freq" ∨ ((∃ v i, Member j "freq" v ∧ Whole O v i) ∧ Lacks j "vec")

/-- The part of a model file before the alphabet. -/
structure Heads (O : FloatOps F) (j : Json F) (size : Int) (prob : F) (symbols : List Int) : Prop where
  size : ∃ v, Member j "size" v ∧ Whole O v size
  prob : ∃ v, Member j "min_prob" v ∧ Numeric O v prob
  symbols : ∃ l, ItemsOf j "coder" l ∧ List.Forall₂ (Whole O) l symbols

/-- A whole model file. -/
structure Describes (O : FloatOps F) (j : Json F) (size : Int) (prob : F) (symbols : List Int) (entries : List (Int × IntSeq)) : Prop
    extends Heads O j size prob symbols where
  entries : ∃ l, ItemsOf j "alphabet" l ∧ List.Forall₂ (Entry O) l entries

/-- `j` is an object with exactly the members `ks`, in this order. -/
def Keys (j : Json F) (ks : List String) : Prop := ∃ l, j = .obj l ∧ l.map Prod.fst = ks.map String.toList

/-- The codes `w` name the symbols `x`: code `k` is the symbol at position `k` of the list. -/
def Named (symbols : List Int) (w x : List Int) : Prop := List.Forall₂ (fun k y => 0 ≤ k ∧ symbols[k.toNat]? = some y) w x

/-- An entry with a text. -/
structure TextEntry (e : Json F) (f : Int) (w : IntSeq) (s : Str) : Prop where
  keys : Keys e ["freq", "text", "vec"]
  freq : Member e "freq" (.int f)
  text : Member e "text" (.str s)
  vec : Member e "vec" (.arr (w.map .int))

/-- An entry without a text. -/
structure BareEntry (e : Json F) (f : Int) (w : IntSeq) : Prop where
  keys : Keys e ["freq", "vec"]
  freq : Member e "freq" (.int f)
  vec : Member e "vec" (.arr (w.map .int))

end VGram.Spec
