import Mathlib.Data.List.Basic
import Verif.Model.StatDict
import Verif.Spec.Instances

/-!
# Laws of the environment: arithmetic of scores, sorting, hashing, random variates

The theorems about `expand`, `reduce` and training hold for every environment satisfying these laws:
every iteration order of the hash table, every outcome of the random variates and every tie-breaking
of the unstable sort.
-/

namespace VGram.Spec

variable {F : Type}

/-- `Mag k x` is "a number of absolute value at most `2^k`", `Pos k x` is "a number from `2^-k` to `2^k`".

For doubles the laws hold with overflow and underflow taken into account (`Verif/Spec/Ieee.lean`): a bound above the range of exponents is never asked for.
A sum with one term for every word is covered by `absorb`: adding terms that are `2^60` times smaller than the bound does not lift a sum above
the bound, because it would have to be rounded up past it.  In an arithmetic without overflow, `Mag k` and `Pos k` can be the same for all `k`.

`sort` is the contract of `std::sort` for the comparator `-a.score < -b.score`; the contract is only
given when no score is NaN (the comparator is not a strict weak order otherwise), so every theorem that
sorts has to prove that no NaN score is produced. -/
structure EnvLaws (E : Env F) where
  Mag : Nat → F → Prop
  Pos : Nat → F → Prop
  mono : ∀ {j k x}, j ≤ k → Mag j x → Mag k x
  monoPos : ∀ {j k x}, j ≤ k → Pos j x → Pos k x
  posMag : ∀ {k x}, Pos k x → Mag k x
  /-- an integer of at most 64 bits -/
  int : ∀ n : Int, Mag 64 (E.ops.ofInt n)
  intPos : ∀ n : Int, 1 ≤ n → Pos 64 (E.ops.ofInt n)
  one : Pos 0 (E.ops.ofInt 1)
  add : ∀ {k x y}, k < 1000 → Mag k x → Mag k y → Mag (k + 1) (E.ops.add x y)
  sub : ∀ {k x y}, k < 1000 → Mag k x → Mag k y → Mag (k + 1) (E.ops.sub x y)
  absorbAdd : ∀ {j k x y}, j + 60 ≤ k → k ≤ 1000 → Mag k x → Mag j y → Mag k (E.ops.add x y)
  absorbSub : ∀ {j k x y}, j + 60 ≤ k → k ≤ 1000 → Mag k x → Mag j y → Mag k (E.ops.sub x y)
  mul : ∀ {j k x y}, j + k ≤ 1000 → Mag j x → Mag k y → Mag (j + k) (E.ops.mul x y)
  div : ∀ {j k x y}, j + k ≤ 1000 → Mag j x → Pos k y → Mag (j + k) (E.ops.div x y)
  /-- the logarithm of a number from `2^-1000` to `2^1000` is less than 1024 -/
  log : ∀ {x}, Pos 1000 x → Mag 10 (E.ops.log x)
  addPos : ∀ {k x y}, k < 1000 → Pos k x → Pos k y → Pos (k + 1) (E.ops.add x y)
  addZero : ∀ {k x}, k ≤ 1000 → Pos k x → Pos k (E.ops.add (E.ops.ofInt 0) x)
  mulPos : ∀ {j k x y}, j + k ≤ 1000 → Pos j x → Pos k y → Pos (j + k) (E.ops.mul x y)
  divPos : ∀ {j k x y}, j + k ≤ 1000 → Pos j x → Pos k y → Pos (j + k) (E.ops.div x y)
  /-- Four gamma variates with integers from 1 to `2^64` as parameters are not extremely large or small (C100 proves it for libstdc++).  `std::gamma_distribution` of libstdc++ multiplies a number of at least
  2/3 by the cube of a positive number `1 + c * n`, and that is at least `2^-53`. -/
  gamma : ∀ ns : List Int, ns.length = 4 → (∀ n ∈ ns, 1 ≤ n) → ∀ i < 4, Pos 160 (E.gammas (ns.map E.ops.ofInt) i)
  /-- numbers that are not extremely large are below `numeric_limits<double>::max()` -/
  below : ∀ x, Mag 1000 x → E.ops.lt (E.ops.neg E.ops.maxVal) (E.ops.neg x) = true
  top : E.ops.lt E.ops.maxVal (E.ops.ofInt 0) = false
  /-- `static_cast<int>(n * 1.3)` is not negative -/
  factor : ∀ n : Nat, 0 ≤ E.ops.trunc (E.ops.mul (E.ops.ofInt (n : Int)) (E.ops.lit 13 1))
  /-- iterating over the hash table visits every entry once -/
  order : ∀ p, (E.pairOrder p).Perm p
  sort : ∀ l, (∀ a ∈ l, a.score = E.ops.maxVal ∨ Mag 1000 a.score) →
    (E.sortItems l).Perm l ∧
    (E.sortItems l).Pairwise (fun a b => E.ops.lt (E.ops.neg b.score) (E.ops.neg a.score) = false)

/-- A number that can be compared with others and is below `max`. -/
def EnvLaws.Num {E : Env F} (L : EnvLaws E) (x : F) : Prop := L.Mag 1000 x

/-- Laws for following the minimal probability: on the values that occur `<` is a strict weak order. -/
structure ProbLaws (O : FloatOps F) where
  Ok : F → Prop
  div : ∀ a b : Int, 0 ≤ a → 1 ≤ b → Ok (O.div (O.ofInt a) (O.ofInt b))
  /-- `1. / size()`, also for an empty dictionary -/
  inv : ∀ b : Int, 0 ≤ b → Ok (O.div (O.ofInt 1) (O.ofInt b))
  lit : ∀ (m : Int) (e : Nat), Ok (O.lit m e)
  int : ∀ n : Int, Ok (O.ofInt n)
  asymm : ∀ x y, Ok x → Ok y → O.lt x y = true → O.lt y x = false
  leTrans : ∀ x y z, Ok x → Ok y → Ok z → O.lt y x = false → O.lt z y = false → O.lt z x = false

/-! ## An instance -/

/-- Insertion by decreasing score, for the example environments. -/
def insItem (O : FloatOps F) (a : StatItem F) : List (StatItem F) → List (StatItem F)
  | [] => [a]
  | b :: l => if O.lt (O.neg b.score) (O.neg a.score) then b :: insItem O a l else a :: b :: l

/-- Insertion sort by decreasing score. -/
def insSort (O : FloatOps F) : List (StatItem F) → List (StatItem F)
  | [] => []
  | a :: l => insItem O a (insSort O l)

/-- An environment over `Ext K`: insertion sort, insertion-order hash table, gamma variates all equal to 1. -/
def Ext.env (K : Type) [Field K] [LinearOrder K] [FloorRing K] (lg : K → K) : Env (Ext K) where
  ops := Ext.ops K lg
  sortItems := insSort (Ext.ops K lg)
  pairOrder := fun p => p
  gammas := fun _ _ => .fin 1

/-- The environment of the concrete examples. -/
def ratEnv : Env (Ext Rat) := Ext.env Rat (fun x => x - 1)

theorem insItem_perm (O : FloatOps F) (a : StatItem F) (l : List (StatItem F)) : (insItem O a l).Perm (a :: l) := by
  induction l with
  | nil => exact List.Perm.refl _
  | cons b l ih =>
    unfold insItem
    split
    · exact (ih.cons b).trans (List.Perm.swap a b l)
    · exact List.Perm.refl _

theorem insSort_perm (O : FloatOps F) (l : List (StatItem F)) : (insSort O l).Perm l := by
  induction l with
  | nil => exact List.Perm.refl _
  | cons a l ih => exact (insItem_perm O a _).trans (ih.cons a)

namespace Ext

variable {K : Type} [Field K] [LinearOrder K] [FloorRing K] [IsStrictOrderedRing K] (lg : K → K)

omit [FloorRing K] in
/-- The `<` of `Ext` restricted to `fin` and `top`. -/
theorem lt_neg (x y : Ext K) (hx : x = top ∨ ∃ a, x = fin a) (hy : y = top ∨ ∃ a, y = fin a) :
    Ext.lt (Ext.neg x) (Ext.neg y) = Ext.lt y x := by
  rcases hx with rfl | ⟨a, rfl⟩ <;> rcases hy with rfl | ⟨b, rfl⟩ <;> simp [Ext.lt, Ext.neg]

theorem insItem_sorted {a : StatItem (Ext K)} {l : List (StatItem (Ext K))}
    (ha : a.score = top ∨ ∃ x, a.score = fin x) (hl : ∀ b ∈ l, b.score = top ∨ ∃ x, b.score = fin x)
    (h : l.Pairwise (fun a b => Ext.lt (Ext.neg b.score) (Ext.neg a.score) = false)) :
    (insItem (ops K lg) a l).Pairwise (fun a b => Ext.lt (Ext.neg b.score) (Ext.neg a.score) = false) := by
  induction l with
  | nil => simp [insItem]
  | cons b l ih =>
    rw [List.pairwise_cons] at h
    have hb := hl b (by simp)
    unfold insItem
    show List.Pairwise _ (if Ext.lt (Ext.neg b.score) (Ext.neg a.score) = true then _ else _)
    split
    · next hlt =>
      rw [List.pairwise_cons]
      refine ⟨?_, ih (fun c hc => hl c (by simp [hc])) h.2⟩
      intro c hc
      rcases List.mem_cons.1 ((insItem_perm _ a l).mem_iff.1 hc) with rfl | hc
      · rw [lt_neg _ _ hb ha] at hlt
        rw [lt_neg _ _ ha hb]
        rcases ha with e | ⟨x, e⟩ <;> rcases hb with e' | ⟨y, e'⟩ <;> rw [e, e'] at hlt ⊢ <;> simp_all [Ext.lt, le_of_lt]
      · exact h.1 c hc
    · next hlt =>
      rw [List.pairwise_cons]
      refine ⟨?_, List.pairwise_cons.2 h⟩
      intro c hc
      rcases List.mem_cons.1 hc with rfl | hc
      · simpa using hlt
      · have h1 := h.1 c hc
        have hc' := hl c (by simp [hc])
        have hlt : Ext.lt (Ext.neg b.score) (Ext.neg a.score) = false := by simpa using hlt
        rw [lt_neg _ _ hc' hb] at h1
        rw [lt_neg _ _ hb ha] at hlt
        rw [lt_neg _ _ hc' ha]
        rcases ha with e | ⟨x, e⟩ <;> rcases hb with e' | ⟨y, e'⟩ <;> rcases hc' with e'' | ⟨z, e''⟩ <;>
          rw [e, e''] <;> rw [e, e'] at hlt <;> rw [e', e''] at h1 <;> simp_all [Ext.lt]
        exact le_trans h1 hlt

theorem insSort_sorted {l : List (StatItem (Ext K))} (hl : ∀ b ∈ l, b.score = top ∨ ∃ x, b.score = fin x) :
    (insSort (ops K lg) l).Pairwise (fun a b => Ext.lt (Ext.neg b.score) (Ext.neg a.score) = false) := by
  induction l with
  | nil => exact List.Pairwise.nil
  | cons a l ih =>
    refine insItem_sorted lg (hl a (by simp)) ?_ (ih fun b hb => hl b (by simp [hb]))
    intro b hb
    exact hl b (by simp [(insSort_perm _ l).mem_iff.1 hb])

/-- The environment laws hold in `Ext K`. -/
def envLaws : EnvLaws (env K lg) where
  Mag _ x := ∃ y : K, x = fin y
  Pos _ x := ∃ y : K, 0 < y ∧ x = fin y
  mono _ h := h
  monoPos _ h := h
  posMag := by rintro _ _ ⟨y, _, rfl⟩; exact ⟨y, rfl⟩
  int n := ⟨_, rfl⟩
  intPos n h := ⟨_, by have : (0 : Int) < n := by omega
                       exact_mod_cast this, rfl⟩
  one := ⟨_, by norm_num, rfl⟩
  add := by rintro _ _ _ _ ⟨x, rfl⟩ ⟨y, rfl⟩; exact ⟨_, rfl⟩
  sub := by rintro _ _ _ _ ⟨x, rfl⟩ ⟨y, rfl⟩; exact ⟨_, rfl⟩
  absorbAdd := by rintro _ _ _ _ _ _ ⟨x, rfl⟩ ⟨y, rfl⟩; exact ⟨_, rfl⟩
  absorbSub := by rintro _ _ _ _ _ _ ⟨x, rfl⟩ ⟨y, rfl⟩; exact ⟨_, rfl⟩
  mul := by rintro _ _ _ _ _ ⟨x, rfl⟩ ⟨y, rfl⟩; exact ⟨_, rfl⟩
  div := by
    rintro _ _ _ _ _ ⟨x, rfl⟩ ⟨y, hy, rfl⟩
    exact ⟨x / y, by simp [env, ops, Ext.div, hy.ne']⟩
  log := by
    rintro _ ⟨x, hx, rfl⟩
    exact ⟨lg x, by simp [env, ops, Ext.log, hx]⟩
  addPos := by rintro _ _ _ _ ⟨x, hx, rfl⟩ ⟨y, hy, rfl⟩; exact ⟨x + y, by positivity, rfl⟩
  addZero := by rintro _ _ _ ⟨x, hx, rfl⟩; exact ⟨x, hx, by simp [env, ops, Ext.add]⟩
  mulPos := by rintro _ _ _ _ _ ⟨x, hx, rfl⟩ ⟨y, hy, rfl⟩; exact ⟨x * y, by positivity, rfl⟩
  divPos := by
    rintro _ _ _ _ _ ⟨x, hx, rfl⟩ ⟨y, hy, rfl⟩
    exact ⟨x / y, by positivity, by simp [env, ops, Ext.div, hy.ne']⟩
  gamma _ _ _ _ _ := ⟨1, one_pos, rfl⟩
  below := by rintro _ ⟨x, rfl⟩; rfl
  top := rfl
  factor n := by
    have h : (0 : K) ≤ (n : K) * ((13 : Int) / (10 : K) ^ 1) := by positivity
    show 0 ≤ (if (0 : K) ≤ ((n : Int) : K) * (((13 : Int) : K) / (10 : K) ^ 1) then _ else _ : Int)
    have h' : (0 : K) ≤ ((n : Int) : K) * (((13 : Int) : K) / (10 : K) ^ 1) := by exact_mod_cast h
    rw [if_pos h']
    exact Int.floor_nonneg.2 h'
  order p := List.Perm.refl p
  sort l h := ⟨insSort_perm _ l, insSort_sorted lg h⟩

/-- The probability laws hold in `Ext K`. -/
def probLaws : ProbLaws (ops K lg) where
  Ok x := x = top ∨ ∃ y : K, x = fin y
  div a b _ hb := by
    have : ((b : Int) : K) ≠ 0 := by
      have : b ≠ 0 := by omega
      exact_mod_cast this
    exact Or.inr ⟨_, by simp only [ops, Ext.div, this, if_false]; rfl⟩
  inv b _ := by
    by_cases h : ((b : Int) : K) = 0
    · left; simp [ops, Ext.div, h]
    · exact Or.inr ⟨_, by simp only [ops, Ext.div, h, if_false]; rfl⟩
  lit m e := Or.inr ⟨_, rfl⟩
  int n := Or.inr ⟨_, rfl⟩
  asymm := by
    rintro _ _ (rfl | ⟨x, rfl⟩) (rfl | ⟨y, rfl⟩) h <;> simp_all [ops, lt, le_of_lt]
  leTrans := by
    rintro _ _ _ (rfl | ⟨x, rfl⟩) (rfl | ⟨y, rfl⟩) (rfl | ⟨z, rfl⟩) h h' <;> simp_all [ops, lt]
    exact le_trans h h'

end Ext

/-- The laws are satisfiable by a computable environment. -/
def ratLaws : EnvLaws ratEnv := Ext.envLaws _

end VGram.Spec
