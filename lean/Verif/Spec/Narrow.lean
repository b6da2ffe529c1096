import Verif.Spec.Text

/-!
# Numbers of a file that do not fit into an `int`
-/

namespace VGram.Spec

variable {F : Type}

/-- A 32-bit `int`. -/
def IsInt (i : Int) : Prop := -(2 ^ 31) ≤ i ∧ i < 2 ^ 31

/-- `x` occurs in the file `j`, and not within its probability. -/
def Inside (x j : Json F) : Prop := ∃ l e, j = .obj l ∧ e ∈ l ∧ e.1 ≠ "min_prob".toList ∧ Sub x e.2

/-- All doubles of a file, except for its probability, have integral parts that fit into an `int`. -/
def NumsFit (O : FloatOps F) (j : Json F) : Prop := ∀ x, Inside (.num x) j → O.isFinite x = true ∧ IsInt (O.trunc x)

/-- All integers of a tree fit into an `int`. -/
def IntsFit (j : Json F) : Prop := ∀ i, Sub (.int i) j → IsInt i

/-- An integer is replaced by the `int` that is congruent modulo `2^32`. -/
def reduced : Json F → Json F
  | .int i => .int (i.bmod (2 ^ 32))
  | j => j

/-- Applied to everything in a list or an object, or to the value itself. -/
def throughout (f : Json F → Json F) : Json F → Json F
  | .arr l => .arr (l.map f)
  | .obj l => .obj (l.map fun e => (e.1, f e.2))
  | j => f j

/-- Applied to the members of an object, with a function for every key. -/
def memberwise (f : String → Json F → Json F) : Json F → Json F
  | .obj l => .obj (l.map fun e => (e.1, f (String.ofList e.1) e.2))
  | j => j

/-- An entry of the alphabet whose frequency and codes are reduced. -/
def reducedEntry : Json F → Json F :=
  memberwise fun k v => if k = "freq" then reduced v else if k = "vec" then throughout reduced v else v

/-- A file whose size, symbols, frequencies and codes are reduced. -/
def reducedFile : Json F → Json F :=
  memberwise fun k v => if k = "size" then reduced v else if k = "coder" then throughout reduced v else if k = "alphabet" then throughout reducedEntry v else v

end VGram.Spec
