import Mathlib.Data.List.Basic

/-!
# Strict weak orders on some elements
-/

namespace VGram.Spec

/-- A comparison that is a strict weak order on the elements of `S`, as `std::sort` requires. -/
structure Weak {α : Type} (lt : α → α → Bool) (S : α → Prop) : Prop where
  asymm : ∀ a b, S a → S b → lt a b = true → lt b a = false
  trans : ∀ a b c, S a → S b → S c → lt a b = false → lt b c = false → lt a c = false

end VGram.Spec
