import Verif.Model.OrbitalRotation
import Verif.Lemmas.Containers
import Verif.Lemmas.SkRotation

/-!
# The SAGE-generated d transformation is the representation of the rotation
-/

set_option linter.unusedSimpArgs false
set_option linter.unusedVariables false

namespace Hotbit

local macro "sagerow" : tactic => `(tactic|
  (intro pi ca sa ct st cp sp hpi ha ht hp
   have h3 : Real.sqrt 3 * Real.sqrt 3 = 3 := by norm_num
   simp [orbTransD, dRep, rodr, quadOrb, Matrix.trace, Matrix.mul_apply, Fin.sum_univ_three]
   generalize Real.sqrt 3 = s at *
   rw [div_eq_iff hpi]
   grind))

set_option maxHeartbeats 4000000 in
theorem sage00 : ∀ pi ca sa ct st cp sp : ℝ, pi ≠ 0 → ca ^ 2 + sa ^ 2 = 1 → ct ^ 2 + st ^ 2 = 1 →
    cp ^ 2 + sp ^ 2 = 1 →
    orbTransD pi (Real.sqrt 3) ca sa ct st cp sp (ca ^ 2) (sa ^ 2) (ct ^ 2) (st ^ 2) (cp ^ 2)
      (sp ^ 2) 0 0 = dRep (rodr (st * cp) (st * sp) ct ca sa) 0 0 := by
  sagerow

set_option maxHeartbeats 4000000 in
theorem sage01 : ∀ pi ca sa ct st cp sp : ℝ, pi ≠ 0 → ca ^ 2 + sa ^ 2 = 1 → ct ^ 2 + st ^ 2 = 1 →
    cp ^ 2 + sp ^ 2 = 1 →
    orbTransD pi (Real.sqrt 3) ca sa ct st cp sp (ca ^ 2) (sa ^ 2) (ct ^ 2) (st ^ 2) (cp ^ 2)
      (sp ^ 2) 0 1 = dRep (rodr (st * cp) (st * sp) ct ca sa) 1 0 := by
  sagerow

set_option maxHeartbeats 4000000 in
theorem sage02 : ∀ pi ca sa ct st cp sp : ℝ, pi ≠ 0 → ca ^ 2 + sa ^ 2 = 1 → ct ^ 2 + st ^ 2 = 1 →
    cp ^ 2 + sp ^ 2 = 1 →
    orbTransD pi (Real.sqrt 3) ca sa ct st cp sp (ca ^ 2) (sa ^ 2) (ct ^ 2) (st ^ 2) (cp ^ 2)
      (sp ^ 2) 0 2 = dRep (rodr (st * cp) (st * sp) ct ca sa) 2 0 := by
  sagerow

set_option maxHeartbeats 4000000 in
theorem sage03 : ∀ pi ca sa ct st cp sp : ℝ, pi ≠ 0 → ca ^ 2 + sa ^ 2 = 1 → ct ^ 2 + st ^ 2 = 1 →
    cp ^ 2 + sp ^ 2 = 1 →
    orbTransD pi (Real.sqrt 3) ca sa ct st cp sp (ca ^ 2) (sa ^ 2) (ct ^ 2) (st ^ 2) (cp ^ 2)
      (sp ^ 2) 0 3 = dRep (rodr (st * cp) (st * sp) ct ca sa) 3 0 := by
  sagerow

set_option maxHeartbeats 4000000 in
theorem sage04 : ∀ pi ca sa ct st cp sp : ℝ, pi ≠ 0 → ca ^ 2 + sa ^ 2 = 1 → ct ^ 2 + st ^ 2 = 1 →
    cp ^ 2 + sp ^ 2 = 1 →
    orbTransD pi (Real.sqrt 3) ca sa ct st cp sp (ca ^ 2) (sa ^ 2) (ct ^ 2) (st ^ 2) (cp ^ 2)
      (sp ^ 2) 0 4 = dRep (rodr (st * cp) (st * sp) ct ca sa) 4 0 := by
  sagerow

set_option maxHeartbeats 4000000 in
theorem sage10 : ∀ pi ca sa ct st cp sp : ℝ, pi ≠ 0 → ca ^ 2 + sa ^ 2 = 1 → ct ^ 2 + st ^ 2 = 1 →
    cp ^ 2 + sp ^ 2 = 1 →
    orbTransD pi (Real.sqrt 3) ca sa ct st cp sp (ca ^ 2) (sa ^ 2) (ct ^ 2) (st ^ 2) (cp ^ 2)
      (sp ^ 2) 1 0 = dRep (rodr (st * cp) (st * sp) ct ca sa) 0 1 := by
  sagerow

set_option maxHeartbeats 4000000 in
theorem sage11 : ∀ pi ca sa ct st cp sp : ℝ, pi ≠ 0 → ca ^ 2 + sa ^ 2 = 1 → ct ^ 2 + st ^ 2 = 1 →
    cp ^ 2 + sp ^ 2 = 1 →
    orbTransD pi (Real.sqrt 3) ca sa ct st cp sp (ca ^ 2) (sa ^ 2) (ct ^ 2) (st ^ 2) (cp ^ 2)
      (sp ^ 2) 1 1 = dRep (rodr (st * cp) (st * sp) ct ca sa) 1 1 := by
  sagerow

set_option maxHeartbeats 4000000 in
theorem sage12 : ∀ pi ca sa ct st cp sp : ℝ, pi ≠ 0 → ca ^ 2 + sa ^ 2 = 1 → ct ^ 2 + st ^ 2 = 1 →
    cp ^ 2 + sp ^ 2 = 1 →
    orbTransD pi (Real.sqrt 3) ca sa ct st cp sp (ca ^ 2) (sa ^ 2) (ct ^ 2) (st ^ 2) (cp ^ 2)
      (sp ^ 2) 1 2 = dRep (rodr (st * cp) (st * sp) ct ca sa) 2 1 := by
  sagerow

set_option maxHeartbeats 4000000 in
theorem sage13 : ∀ pi ca sa ct st cp sp : ℝ, pi ≠ 0 → ca ^ 2 + sa ^ 2 = 1 → ct ^ 2 + st ^ 2 = 1 →
    cp ^ 2 + sp ^ 2 = 1 →
    orbTransD pi (Real.sqrt 3) ca sa ct st cp sp (ca ^ 2) (sa ^ 2) (ct ^ 2) (st ^ 2) (cp ^ 2)
      (sp ^ 2) 1 3 = dRep (rodr (st * cp) (st * sp) ct ca sa) 3 1 := by
  sagerow

set_option maxHeartbeats 4000000 in
theorem sage14 : ∀ pi ca sa ct st cp sp : ℝ, pi ≠ 0 → ca ^ 2 + sa ^ 2 = 1 → ct ^ 2 + st ^ 2 = 1 →
    cp ^ 2 + sp ^ 2 = 1 →
    orbTransD pi (Real.sqrt 3) ca sa ct st cp sp (ca ^ 2) (sa ^ 2) (ct ^ 2) (st ^ 2) (cp ^ 2)
      (sp ^ 2) 1 4 = dRep (rodr (st * cp) (st * sp) ct ca sa) 4 1 := by
  sagerow

set_option maxHeartbeats 4000000 in
theorem sage20 : ∀ pi ca sa ct st cp sp : ℝ, pi ≠ 0 → ca ^ 2 + sa ^ 2 = 1 → ct ^ 2 + st ^ 2 = 1 →
    cp ^ 2 + sp ^ 2 = 1 →
    orbTransD pi (Real.sqrt 3) ca sa ct st cp sp (ca ^ 2) (sa ^ 2) (ct ^ 2) (st ^ 2) (cp ^ 2)
      (sp ^ 2) 2 0 = dRep (rodr (st * cp) (st * sp) ct ca sa) 0 2 := by
  sagerow

set_option maxHeartbeats 4000000 in
theorem sage21 : ∀ pi ca sa ct st cp sp : ℝ, pi ≠ 0 → ca ^ 2 + sa ^ 2 = 1 → ct ^ 2 + st ^ 2 = 1 →
    cp ^ 2 + sp ^ 2 = 1 →
    orbTransD pi (Real.sqrt 3) ca sa ct st cp sp (ca ^ 2) (sa ^ 2) (ct ^ 2) (st ^ 2) (cp ^ 2)
      (sp ^ 2) 2 1 = dRep (rodr (st * cp) (st * sp) ct ca sa) 1 2 := by
  sagerow

set_option maxHeartbeats 4000000 in
theorem sage22 : ∀ pi ca sa ct st cp sp : ℝ, pi ≠ 0 → ca ^ 2 + sa ^ 2 = 1 → ct ^ 2 + st ^ 2 = 1 →
    cp ^ 2 + sp ^ 2 = 1 →
    orbTransD pi (Real.sqrt 3) ca sa ct st cp sp (ca ^ 2) (sa ^ 2) (ct ^ 2) (st ^ 2) (cp ^ 2)
      (sp ^ 2) 2 2 = dRep (rodr (st * cp) (st * sp) ct ca sa) 2 2 := by
  sagerow

set_option maxHeartbeats 4000000 in
theorem sage23 : ∀ pi ca sa ct st cp sp : ℝ, pi ≠ 0 → ca ^ 2 + sa ^ 2 = 1 → ct ^ 2 + st ^ 2 = 1 →
    cp ^ 2 + sp ^ 2 = 1 →
    orbTransD pi (Real.sqrt 3) ca sa ct st cp sp (ca ^ 2) (sa ^ 2) (ct ^ 2) (st ^ 2) (cp ^ 2)
      (sp ^ 2) 2 3 = dRep (rodr (st * cp) (st * sp) ct ca sa) 3 2 := by
  sagerow

set_option maxHeartbeats 4000000 in
theorem sage24 : ∀ pi ca sa ct st cp sp : ℝ, pi ≠ 0 → ca ^ 2 + sa ^ 2 = 1 → ct ^ 2 + st ^ 2 = 1 →
    cp ^ 2 + sp ^ 2 = 1 →
    orbTransD pi (Real.sqrt 3) ca sa ct st cp sp (ca ^ 2) (sa ^ 2) (ct ^ 2) (st ^ 2) (cp ^ 2)
      (sp ^ 2) 2 4 = dRep (rodr (st * cp) (st * sp) ct ca sa) 4 2 := by
  sagerow

set_option maxHeartbeats 4000000 in
theorem sage30 : ∀ pi ca sa ct st cp sp : ℝ, pi ≠ 0 → ca ^ 2 + sa ^ 2 = 1 → ct ^ 2 + st ^ 2 = 1 →
    cp ^ 2 + sp ^ 2 = 1 →
    orbTransD pi (Real.sqrt 3) ca sa ct st cp sp (ca ^ 2) (sa ^ 2) (ct ^ 2) (st ^ 2) (cp ^ 2)
      (sp ^ 2) 3 0 = dRep (rodr (st * cp) (st * sp) ct ca sa) 0 3 := by
  sagerow

set_option maxHeartbeats 4000000 in
theorem sage31 : ∀ pi ca sa ct st cp sp : ℝ, pi ≠ 0 → ca ^ 2 + sa ^ 2 = 1 → ct ^ 2 + st ^ 2 = 1 →
    cp ^ 2 + sp ^ 2 = 1 →
    orbTransD pi (Real.sqrt 3) ca sa ct st cp sp (ca ^ 2) (sa ^ 2) (ct ^ 2) (st ^ 2) (cp ^ 2)
      (sp ^ 2) 3 1 = dRep (rodr (st * cp) (st * sp) ct ca sa) 1 3 := by
  sagerow

set_option maxHeartbeats 4000000 in
theorem sage32 : ∀ pi ca sa ct st cp sp : ℝ, pi ≠ 0 → ca ^ 2 + sa ^ 2 = 1 → ct ^ 2 + st ^ 2 = 1 →
    cp ^ 2 + sp ^ 2 = 1 →
    orbTransD pi (Real.sqrt 3) ca sa ct st cp sp (ca ^ 2) (sa ^ 2) (ct ^ 2) (st ^ 2) (cp ^ 2)
      (sp ^ 2) 3 2 = dRep (rodr (st * cp) (st * sp) ct ca sa) 2 3 := by
  sagerow

set_option maxHeartbeats 4000000 in
theorem sage33 : ∀ pi ca sa ct st cp sp : ℝ, pi ≠ 0 → ca ^ 2 + sa ^ 2 = 1 → ct ^ 2 + st ^ 2 = 1 →
    cp ^ 2 + sp ^ 2 = 1 →
    orbTransD pi (Real.sqrt 3) ca sa ct st cp sp (ca ^ 2) (sa ^ 2) (ct ^ 2) (st ^ 2) (cp ^ 2)
      (sp ^ 2) 3 3 = dRep (rodr (st * cp) (st * sp) ct ca sa) 3 3 := by
  sagerow

set_option maxHeartbeats 4000000 in
theorem sage34 : ∀ pi ca sa ct st cp sp : ℝ, pi ≠ 0 → ca ^ 2 + sa ^ 2 = 1 → ct ^ 2 + st ^ 2 = 1 →
    cp ^ 2 + sp ^ 2 = 1 →
    orbTransD pi (Real.sqrt 3) ca sa ct st cp sp (ca ^ 2) (sa ^ 2) (ct ^ 2) (st ^ 2) (cp ^ 2)
      (sp ^ 2) 3 4 = dRep (rodr (st * cp) (st * sp) ct ca sa) 4 3 := by
  sagerow

set_option maxHeartbeats 4000000 in
theorem sage40 : ∀ pi ca sa ct st cp sp : ℝ, pi ≠ 0 → ca ^ 2 + sa ^ 2 = 1 → ct ^ 2 + st ^ 2 = 1 →
    cp ^ 2 + sp ^ 2 = 1 →
    orbTransD pi (Real.sqrt 3) ca sa ct st cp sp (ca ^ 2) (sa ^ 2) (ct ^ 2) (st ^ 2) (cp ^ 2)
      (sp ^ 2) 4 0 = dRep (rodr (st * cp) (st * sp) ct ca sa) 0 4 := by
  sagerow

set_option maxHeartbeats 4000000 in
theorem sage41 : ∀ pi ca sa ct st cp sp : ℝ, pi ≠ 0 → ca ^ 2 + sa ^ 2 = 1 → ct ^ 2 + st ^ 2 = 1 →
    cp ^ 2 + sp ^ 2 = 1 →
    orbTransD pi (Real.sqrt 3) ca sa ct st cp sp (ca ^ 2) (sa ^ 2) (ct ^ 2) (st ^ 2) (cp ^ 2)
      (sp ^ 2) 4 1 = dRep (rodr (st * cp) (st * sp) ct ca sa) 1 4 := by
  sagerow

set_option maxHeartbeats 4000000 in
theorem sage42 : ∀ pi ca sa ct st cp sp : ℝ, pi ≠ 0 → ca ^ 2 + sa ^ 2 = 1 → ct ^ 2 + st ^ 2 = 1 →
    cp ^ 2 + sp ^ 2 = 1 →
    orbTransD pi (Real.sqrt 3) ca sa ct st cp sp (ca ^ 2) (sa ^ 2) (ct ^ 2) (st ^ 2) (cp ^ 2)
      (sp ^ 2) 4 2 = dRep (rodr (st * cp) (st * sp) ct ca sa) 2 4 := by
  sagerow

set_option maxHeartbeats 4000000 in
theorem sage43 : ∀ pi ca sa ct st cp sp : ℝ, pi ≠ 0 → ca ^ 2 + sa ^ 2 = 1 → ct ^ 2 + st ^ 2 = 1 →
    cp ^ 2 + sp ^ 2 = 1 →
    orbTransD pi (Real.sqrt 3) ca sa ct st cp sp (ca ^ 2) (sa ^ 2) (ct ^ 2) (st ^ 2) (cp ^ 2)
      (sp ^ 2) 4 3 = dRep (rodr (st * cp) (st * sp) ct ca sa) 3 4 := by
  sagerow

set_option maxHeartbeats 4000000 in
theorem sage44 : ∀ pi ca sa ct st cp sp : ℝ, pi ≠ 0 → ca ^ 2 + sa ^ 2 = 1 → ct ^ 2 + st ^ 2 = 1 →
    cp ^ 2 + sp ^ 2 = 1 →
    orbTransD pi (Real.sqrt 3) ca sa ct st cp sp (ca ^ 2) (sa ^ 2) (ct ^ 2) (st ^ 2) (cp ^ 2)
      (sp ^ 2) 4 4 = dRep (rodr (st * cp) (st * sp) ct ca sa) 4 4 := by
  sagerow

end Hotbit
