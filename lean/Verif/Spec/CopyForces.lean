import Verif.Spec.Unfold

/-!
# Specification of the forces on the copies of an atom
-/

namespace Hotbit

/-- The derivatives of the tables of elements `a-b` and `b-a` describe the same integrals. -/
structure MutualDerivatives (tab : String → String → SkTable) : Prop where
  dh : ∀ a b d, ∀ la ≤ 2, ∀ lb ≤ 2, ∀ m : Fin 3, m.val ≤ min la lb →
    (tab b a).dh d (skIntegralIndex lb la m) = (-1) ^ (la + lb) * (tab a b).dh d (skIntegralIndex la lb m)
  ds : ∀ a b d, ∀ la ≤ 2, ∀ lb ≤ 2, ∀ m : Fin 3, m.val ≤ min la lb →
    (tab b a).ds d (skIntegralIndex lb la m) = (-1) ^ (la + lb) * (tab a b).ds d (skIntegralIndex la lb m)

end Hotbit
