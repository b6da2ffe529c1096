import Verif.Spec.Rounded

/-!
# Arithmetics whose divisions give finite numbers
-/

namespace VGram.Spec

variable {F : Type}

/-- Which divisions give a finite number.  `inv` is `std::min(1. / size(), p)`, stat_dict_p.cc:183, where `1. / 0` is infinite. -/
structure FiniteLaws (O : FloatOps F) : Prop where
  div : ∀ a b : Int, 0 ≤ a → 1 ≤ b → O.isFinite (O.div (O.ofInt a) (O.ofInt b)) = true
  inv : ∀ (b : Int) x, 0 ≤ b → O.isFinite x = true → O.isFinite (O.min (O.div (O.ofInt 1) (O.ofInt b)) x) = true
  lit : ∀ (m : Int) (e : Nat), O.isFinite (O.lit m e) = true
  int : ∀ n : Int, O.isFinite (O.ofInt n) = true

theorem min_finite {O : FloatOps F} {a b : F} (ha : O.isFinite a = true) (hb : O.isFinite b = true) : O.isFinite (O.min a b) = true := by
  unfold FloatOps.min
  split
  · exact hb
  · exact ha

/-- The laws hold in `Ext K`. -/
theorem Ext.finiteLaws {K : Type} [Field K] [LinearOrder K] [FloorRing K] [IsStrictOrderedRing K] (lg : K → K) : FiniteLaws (Ext.ops K lg) := by
  have hd : ∀ a b : Int, 1 ≤ b → (Ext.ops K lg).isFinite ((Ext.ops K lg).div ((Ext.ops K lg).ofInt a) ((Ext.ops K lg).ofInt b)) = true := by
    intro a b hb
    have : ((b : Int) : K) ≠ 0 := by
      have : (0 : K) < (b : K) := by exact_mod_cast hb
      exact this.ne'
    simp only [Ext.ops, Ext.div, this, if_false]
  refine ⟨fun a b _ hb => hd a b hb, fun b x hb hx => ?_, fun _ _ => rfl, fun _ => rfl⟩
  refine min_finite ?_ hx
  rcases hb.lt_or_eq with h | rfl
  · exact hd 1 b (by omega)
  · simp [Ext.ops, Ext.div]

/-- They hold with rounding as well. -/
theorem Ext.rfiniteLaws {K : Type} [Field K] [LinearOrder K] [FloorRing K] [IsStrictOrderedRing K] {rnd : K → K} (R : Rounding rnd) (lg : K → K) :
    FiniteLaws (Ext.rops rnd lg) := by
  have hd : ∀ a b : Int, 1 ≤ b → (Ext.rops rnd lg).isFinite ((Ext.rops rnd lg).div ((Ext.rops rnd lg).ofInt a) ((Ext.rops rnd lg).ofInt b)) = true := by
    intro a b hb
    simp only [Ext.rops, Ext.div, (Ext.rint_pos R hb).ne', if_false, Ext.round]
  refine ⟨fun a b _ hb => hd a b hb, fun b x hb hx => ?_, fun _ _ => rfl, fun _ => rfl⟩
  refine min_finite ?_ hx
  rcases hb.lt_or_eq with h | rfl
  · exact hd 1 b (by omega)
  · have := Ext.rint_pos R (show (1 : Int) ≤ 1 by omega)
    simp only [Int.cast_one] at this
    simp [Ext.rops, Ext.div, R.zero, this, Ext.round]

end VGram.Spec
