import Mathlib.Analysis.SpecialFunctions.Log.Basic
import Verif.Spec.Env
import Verif.Spec.Parse

/-!
# Adjacent ids, the value of a pair, and environments with exact real arithmetic
-/

namespace VGram.Spec

/-- All pairs of adjacent ids in the emitted lists. -/
def pairsOf (outs : List (List Int)) : List (Int × Int) := outs.flatMap fun ids => ids.zip ids.tail

/-- How often `b` directly follows `a`. -/
def followed (outs : List (List Int)) (a b : Int) : Nat := (pairsOf outs).count (a, b)

/-- How often `a` is followed by some id. -/
def leading (outs : List (List Int)) (a : Int) : Nat := (pairsOf outs).countP fun k => k.1 == a

/-- How often `b` follows some id. -/
def trailing (outs : List (List Int)) (b : Int) : Nat := (pairsOf outs).countP fun k => k.2 == b

/-- The contingency table of the pair `a b`: both, only the first, only the second, neither. -/
def contingency (outs : List (List Int)) (a b : Int) : List Int :=
  [followed outs a b, leading outs a - followed outs a b, trailing outs b - followed outs a b,
    (pairsOf outs).length - leading outs a - trailing outs b + followed outs a b]

/-- The value of merging a pair that occurred `f` times, for a table with cell weights `g`: with the normalised weights `p`,
`f` times the conditional probability of the second id, times the log-ratio of that probability and its marginal. -/
noncomputable def pairValue (f : ℝ) (g : Nat → ℝ) : ℝ :=
  let t := g 0 + g 1 + g 2 + g 3
  let both := g 0 / t
  let first := g 1 / t + both
  let second := g 2 / t + both
  f * both / first * Real.log (both / first / second)

/-- The worth of a pair given the emitted lists: the weights are variates drawn for the table, each cell increased by one. -/
noncomputable def pairWorth (gam : List (Ext ℝ) → Nat → ℝ) (outs : List (List Int)) (k : Int × Int) : ℝ :=
  pairValue (followed outs k.1 k.2) (gam ((contingency outs k.1 k.2).map fun c => .fin ((c + 1 : Int) : ℝ)))

/-- `k` is a pair of adjacent ids whose words make up `w`. -/
def MakesUp (words : List IntSeq) (outs : List (List Int)) (k : Int × Int) (w : IntSeq) : Prop :=
  k ∈ pairsOf outs ∧ ∃ u v, IsWord words k.1 u ∧ IsWord words k.2 v ∧ u ++ v = w

/-- `m` is a least element of `l`. -/
def LeastOf {F : Type} (lt : F → F → Bool) (m : F) (l : List F) : Prop := m ∈ l ∧ ∀ x ∈ l, lt x m = false

/-- An environment with exact real arithmetic. -/
noncomputable def exactEnv (srt : List (StatItem (Ext ℝ)) → List (StatItem (Ext ℝ))) (ord : PairMap → PairMap)
    (gam : List (Ext ℝ) → Nat → ℝ) : Env (Ext ℝ) :=
  ⟨Ext.ops ℝ Real.log, srt, ord, fun ps i => .fin (gam ps i)⟩

/-- What is required of it: a sort, an iteration that visits every entry once, positive variates. -/
structure RealLaws (srt : List (StatItem (Ext ℝ)) → List (StatItem (Ext ℝ))) (ord : PairMap → PairMap)
    (gam : List (Ext ℝ) → Nat → ℝ) : Prop where
  sort : ∀ l, (∀ a ∈ l, a.score = .top ∨ ∃ x, a.score = .fin x) → (srt l).Perm l ∧
    (srt l).Pairwise (fun a b => Ext.lt (Ext.neg b.score) (Ext.neg a.score) = false)
  order : ∀ p, (ord p).Perm p
  gamma : ∀ ps i, 0 < gam ps i

/-- Such an environment satisfies the general laws. -/
noncomputable def RealLaws.env {srt : List (StatItem (Ext ℝ)) → List (StatItem (Ext ℝ))} {ord : PairMap → PairMap}
    {gam : List (Ext ℝ) → Nat → ℝ} (L : RealLaws srt ord gam) : EnvLaws (exactEnv srt ord gam) where
  Mag _ x := ∃ y : ℝ, x = .fin y
  Pos _ x := ∃ y : ℝ, 0 < y ∧ x = .fin y
  mono _ h := h
  monoPos _ h := h
  posMag := (Ext.envLaws Real.log).posMag (k := 0)
  int := (Ext.envLaws Real.log).int
  intPos := (Ext.envLaws Real.log).intPos
  one := (Ext.envLaws Real.log).one
  add _ := (Ext.envLaws Real.log).add (k := 0) (by omega)
  sub _ := (Ext.envLaws Real.log).sub (k := 0) (by omega)
  absorbAdd _ _ := (Ext.envLaws Real.log).absorbAdd (j := 0) (k := 60) (by omega) (by omega)
  absorbSub _ _ := (Ext.envLaws Real.log).absorbSub (j := 0) (k := 60) (by omega) (by omega)
  mul _ := (Ext.envLaws Real.log).mul (j := 0) (k := 0) (by omega)
  div _ := (Ext.envLaws Real.log).div (j := 0) (k := 0) (by omega)
  log := (Ext.envLaws Real.log).log
  addPos _ := (Ext.envLaws Real.log).addPos (k := 0) (by omega)
  addZero _ := (Ext.envLaws Real.log).addZero (k := 0) (by omega)
  mulPos _ := (Ext.envLaws Real.log).mulPos (j := 0) (k := 0) (by omega)
  divPos _ := (Ext.envLaws Real.log).divPos (j := 0) (k := 0) (by omega)
  gamma _ _ _ i _ := ⟨_, L.gamma _ i, rfl⟩
  below := (Ext.envLaws Real.log).below
  top := rfl
  factor := (Ext.envLaws Real.log).factor
  order := L.order
  sort := L.sort

/-- The laws can be satisfied. -/
theorem realLaws_example : RealLaws (insSort (Ext.ops ℝ Real.log)) (fun p => p) (fun _ _ => 1) :=
  ⟨(Ext.envLaws Real.log).sort, fun p => .refl p, fun _ _ => one_pos⟩

end VGram.Spec
