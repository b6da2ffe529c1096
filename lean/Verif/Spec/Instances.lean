import Mathlib.Algebra.Order.Floor.Ring
import Mathlib.Data.Rat.Floor
import Mathlib.Tactic.Linarith
import Mathlib.Tactic.NormNum
import Verif.Spec.Score

/-!
# Arithmetics satisfying the score laws

`Ext K` is an ordered field with three special values: `bot` for `numeric_limits::lowest()`
(absorbing under addition of finite numbers, as the double is), `top` for `numeric_limits::max()`
and `nan`.  With `K = ℝ` and `lg = Real.log` this is exact real arithmetic; with `K = ℚ` and any
`lg` it is computable and is used for concrete examples.
-/

namespace VGram.Spec

/-- An ordered field with `lowest`, `max` and NaN. -/
inductive Ext (K : Type) where
  | bot
  | fin (x : K)
  | top
  | nan
  deriving DecidableEq

namespace Ext

variable {K : Type}

def add [Add K] [Zero K] : Ext K → Ext K → Ext K
  | nan, _ => nan
  | _, nan => nan
  | fin x, fin y => fin (x + y)
  | fin _, y => y
  | x, fin _ => x
  | bot, bot => bot
  | top, top => top
  | bot, top => fin 0
  | top, bot => fin 0

def neg [Neg K] : Ext K → Ext K
  | bot => top
  | fin x => fin (-x)
  | top => bot
  | nan => nan

def mul [Mul K] : Ext K → Ext K → Ext K
  | fin x, fin y => fin (x * y)
  | _, _ => nan

/-- A positive number divided by zero is `top` (the double is infinite, which compares like `top`). -/
def div [Div K] [Zero K] [DecidableEq K] [LT K] [DecidableRel (α := K) (· < ·)] : Ext K → Ext K → Ext K
  | fin x, fin y => if y = 0 then (if 0 < x then top else nan) else fin (x / y)
  | _, _ => nan

def log [Zero K] [LT K] [DecidableRel (α := K) (· < ·)] (lg : K → K) : Ext K → Ext K
  | fin x => if 0 < x then fin (lg x) else nan
  | _ => nan

def lt [LT K] [DecidableRel (α := K) (· < ·)] : Ext K → Ext K → Bool
  | bot, fin _ => true
  | bot, top => true
  | fin _, top => true
  | fin x, fin y => decide (x < y)
  | _, _ => false

/-- The operations of `Ext K` with logarithm `lg`. -/
def ops (K : Type) [Field K] [LinearOrder K] [FloorRing K] (lg : K → K) : FloatOps (Ext K) where
  ofInt n := fin (n : K)
  lit m e := fin ((m : K) / (10 : K) ^ e)
  add := add
  sub x y := add x (neg y)
  mul := mul
  div := div
  neg := neg
  log := log lg
  lt := lt
  lowest := bot
  maxVal := top
  trunc x := match x with
    | fin x => if 0 ≤ x then ⌊x⌋ else ⌈x⌉
    | _ => 0
  isFinite x := match x with
    | nan => false
    | _ => true

variable {K : Type} [Field K] [LinearOrder K] [FloorRing K] [IsStrictOrderedRing K] (lg : K → K)

theorem isLp_fin {lp : Ext K} (h : IsLp (ops K lg) lp) : ∃ x : K, lp = fin x := by
  obtain ⟨t, ht, rfl | ⟨f, hf, rfl⟩⟩ := h
  · have : (0 : K) < (t : K) := by exact_mod_cast ht
    exact ⟨_, by simp only [ops, log, this, if_true, neg, add]; rfl⟩
  · have h1 : (0 : K) < (t : K) := by exact_mod_cast ht
    have h2 : (0 : K) < ((f + 1 : Int) : K) := by
      have : (0 : Int) < f + 1 := by omega
      exact_mod_cast this
    exact ⟨_, by simp only [ops, log, h1, h2, if_true, neg, add]; rfl⟩

/-- The losslessness laws hold in `Ext K`. -/
def scoreLaws : ScoreLaws (ops K lg) where
  Good x := ∃ y : K, x = fin y
  zero := ⟨_, rfl⟩
  step := by
    rintro _ lp ⟨x, rfl⟩ h
    obtain ⟨y, rfl⟩ := isLp_fin lg h
    exact ⟨_, rfl⟩
  above := by rintro _ ⟨x, rfl⟩; rfl
  notGood := by rintro ⟨x, hx⟩; cases hx
  dead := by
    rintro x lp hx h
    obtain ⟨y, rfl⟩ := isLp_fin lg h
    rcases hx with rfl | ⟨x, rfl⟩ <;> rfl

/-- The optimality laws hold in `Ext K`. -/
def orderLaws : OrderLaws (ops K lg) where
  Ok x := x = bot ∨ ∃ y : K, x = fin y
  lowest := Or.inl rfl
  zero := Or.inr ⟨_, rfl⟩
  step := by
    rintro x lp hx h
    obtain ⟨y, rfl⟩ := isLp_fin lg h
    rcases hx with rfl | ⟨x, rfl⟩
    · exact Or.inl rfl
    · exact Or.inr ⟨_, rfl⟩
  asymm := by
    rintro _ _ (rfl | ⟨x, rfl⟩) (rfl | ⟨y, rfl⟩) h <;> simp_all [ops, lt, le_of_lt]
  leTrans := by
    rintro _ _ _ (rfl | ⟨x, rfl⟩) (rfl | ⟨y, rfl⟩) (rfl | ⟨z, rfl⟩) h h' <;> simp_all [ops, lt]
    exact le_trans h h'
  mono := by
    rintro x y lp hx hy h hle
    obtain ⟨l, rfl⟩ := isLp_fin lg h
    rcases hx with rfl | ⟨x, rfl⟩ <;> rcases hy with rfl | ⟨y, rfl⟩ <;> simp_all [ops, lt, add]

end Ext

/-- A computable arithmetic for the concrete examples: rationals with `log x ≈ x - 1`. -/
def ratOps : FloatOps (Ext Rat) := Ext.ops Rat (fun x => x - 1)

end VGram.Spec
