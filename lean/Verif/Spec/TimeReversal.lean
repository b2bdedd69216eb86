import Verif.Spec.TotalEnergy
import Verif.Spec.KPoints

/-!
# Specification of samplings that leave out inverse k-points
-/

namespace Hotbit

/-- A set of k-points with weights. -/
structure KSet where
  nk : ℕ
  kpt : Fin nk → Vec
  wk : Fin nk → ℝ

/-- The k-points of a list. -/
abbrev KSet.ofList (l : List (Vec × ℝ)) : KSet := ⟨l.length, fun i => l[i].1, fun i => l[i].2⟩

/-- The calculation with other k-points. -/
abbrev ScfIn.sampled (P : ScfIn) (K : KSet) : ScfIn := { P with nk := K.nk, kpt := K.kpt, wk := K.wk }

/-- The same k-point or its inverse, up to full turns of the phases. -/
def SameOrInverse (k k' : Vec) : Prop :=
  ∃ s : ℤ, (s = 1 ∨ s = -1) ∧ ∃ z : Op, ∀ c, k' c = s * k c + 2 * Real.pi * z c

/-- Every k-point of `K'` is represented by the same k-point or its inverse in `K`, where the weights of all
the k-points that it represents are added. -/
structure Represents (K K' : KSet) (κ : Fin K'.nk → Fin K.nk) : Prop where
  onto : Function.Surjective κ
  same : ∀ k, SameOrInverse (K.kpt (κ k)) (K'.kpt k)
  weight : ∀ l, K.wk l = ∑ k, if κ k = l then K'.wk k else 0

/-- All points of the mesh, each with the same weight. -/
noncomputable def fullMesh (A : Atoms) (n : Fin 3 → ℤ) : KSet :=
  .ofList ((List.range (n 0).toNat).flatMap fun a => (List.range (n 1).toNat).flatMap fun b =>
    (List.range (n 2).toNat).map fun c => (meshPoint A n ![a, b, c], 1 / ((n 0 * n 1 * n 2 : ℤ) : ℝ)))

end Hotbit
