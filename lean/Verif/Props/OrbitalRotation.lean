import Verif.Lemmas.OrbitalRotation
import Verif.Props.Containers

/-!
# C71: orbitals are carried along by the symmetry operation

The matrix used to carry the orbitals of an atom to its image equals the representation `orbRep`
of the rotation part of the symmetry operation (`cubic a (R x) = ∑ b, orbRep R a b * cubic b x`).
-/

set_option linter.unusedSimpArgs false

namespace Hotbit

open Matrix

theorem sage_all (pi ca sa ct st cp sp : ℝ) (hpi : pi ≠ 0) (ha : ca ^ 2 + sa ^ 2 = 1)
    (ht : ct ^ 2 + st ^ 2 = 1) (hp : cp ^ 2 + sp ^ 2 = 1) (i j : Fin 5) :
    orbTransD pi (Real.sqrt 3) ca sa ct st cp sp (ca ^ 2) (sa ^ 2) (ct ^ 2) (st ^ 2) (cp ^ 2)
      (sp ^ 2) i j = dRep (rodr (st * cp) (st * sp) ct ca sa) j i := by
  fin_cases i <;> fin_cases j
  · exact sage00 pi ca sa ct st cp sp hpi ha ht hp
  · exact sage01 pi ca sa ct st cp sp hpi ha ht hp
  · exact sage02 pi ca sa ct st cp sp hpi ha ht hp
  · exact sage03 pi ca sa ct st cp sp hpi ha ht hp
  · exact sage04 pi ca sa ct st cp sp hpi ha ht hp
  · exact sage10 pi ca sa ct st cp sp hpi ha ht hp
  · exact sage11 pi ca sa ct st cp sp hpi ha ht hp
  · exact sage12 pi ca sa ct st cp sp hpi ha ht hp
  · exact sage13 pi ca sa ct st cp sp hpi ha ht hp
  · exact sage14 pi ca sa ct st cp sp hpi ha ht hp
  · exact sage20 pi ca sa ct st cp sp hpi ha ht hp
  · exact sage21 pi ca sa ct st cp sp hpi ha ht hp
  · exact sage22 pi ca sa ct st cp sp hpi ha ht hp
  · exact sage23 pi ca sa ct st cp sp hpi ha ht hp
  · exact sage24 pi ca sa ct st cp sp hpi ha ht hp
  · exact sage30 pi ca sa ct st cp sp hpi ha ht hp
  · exact sage31 pi ca sa ct st cp sp hpi ha ht hp
  · exact sage32 pi ca sa ct st cp sp hpi ha ht hp
  · exact sage33 pi ca sa ct st cp sp hpi ha ht hp
  · exact sage34 pi ca sa ct st cp sp hpi ha ht hp
  · exact sage40 pi ca sa ct st cp sp hpi ha ht hp
  · exact sage41 pi ca sa ct st cp sp hpi ha ht hp
  · exact sage42 pi ca sa ct st cp sp hpi ha ht hp
  · exact sage43 pi ca sa ct st cp sp hpi ha ht hp
  · exact sage44 pi ca sa ct st cp sp hpi ha ht hp

theorem orbTrans_off (theta phi angle : ℝ) (a b : Fin 9) (h : orbL a ≠ orbL b) :
    orbTrans theta phi angle a b = 0 := by
  unfold orbTrans
  unfold orbL at h
  dsimp only
  rw [if_neg, dif_neg, dif_neg]
  · rintro ⟨h1, h2⟩; apply h
    rw [if_neg (by omega), if_neg (by omega), if_neg (by omega), if_neg (by omega)]
  · rintro ⟨h1, h2, h3, h4⟩; apply h
    rw [if_neg (by omega), if_pos (by omega), if_neg (by omega), if_pos (by omega)]
  · rintro ⟨h1, h2⟩; apply h
    rw [if_pos h1, if_pos h2]

theorem orbTrans_pp (theta phi angle : ℝ) (i j : Fin 3) :
    orbTrans theta phi angle (pOrb i) (pOrb j)
      = rodr (Real.sin theta * Real.cos phi) (Real.sin theta * Real.sin phi) (Real.cos theta)
          (Real.cos angle) (Real.sin angle) j i := by
  have := i.2; have := j.2
  unfold orbTrans
  dsimp only
  rw [if_neg (by simp [pOrb]), dif_pos (by simp only [pOrb]; omega)]
  fin_cases i <;> fin_cases j <;> simp [orbTransP, rodr, pOrb] <;> ring

theorem orbTrans_dd (theta phi angle : ℝ) (i j : Fin 5) :
    orbTrans theta phi angle (dOrb i) (dOrb j)
      = dRep (rodr (Real.sin theta * Real.cos phi) (Real.sin theta * Real.sin phi) (Real.cos theta)
          (Real.cos angle) (Real.sin angle)) j i := by
  have := i.2; have := j.2
  unfold orbTrans
  dsimp only
  rw [if_neg (by simp [dOrb]), dif_neg (by simp only [dOrb]; omega),
    dif_pos (by simp only [dOrb]; omega)]
  exact sage_all _ _ _ _ _ _ _ Real.pi_ne_zero (by rw [add_comm]; exact Real.sin_sq_add_cos_sq _)
    (by rw [add_comm]; exact Real.sin_sq_add_cos_sq _)
    (by rw [add_comm]; exact Real.sin_sq_add_cos_sq _) i j

/-- **C71 (general rotation).** For every axis `(theta,phi)` and angle the generated nine-orbital
transformation is the transpose of the representation of the rotation about that axis. -/
theorem c71_from_angles (theta phi angle : ℝ) :
    (orbTrans theta phi angle).transpose
      = orbRep (rotationMatrix ![Real.sin theta * Real.cos phi, Real.sin theta * Real.sin phi,
          Real.cos theta] angle) := by
  have hn : norm3 ![Real.sin theta * Real.cos phi, Real.sin theta * Real.sin phi, Real.cos theta] = 1 := by
    unfold norm3
    rw [Real.sqrt_eq_one]
    have h1 := Real.sin_sq_add_cos_sq theta
    have h2 := Real.sin_sq_add_cos_sq phi
    simp
    linear_combination h1 + Real.sin theta ^ 2 * h2
  rw [rotationMatrix_eq, hn]
  ext a b
  rw [Matrix.transpose_apply]
  rcases orb_cases a with rfl | ⟨i, rfl⟩ | ⟨i, rfl⟩ <;>
    rcases orb_cases b with rfl | ⟨j, rfl⟩ | ⟨j, rfl⟩
  · simp [orbTrans]
  · rw [orbRep_off _ _ _ (by simp), orbTrans_off _ _ _ _ _ (by simp)]
  · rw [orbRep_off _ _ _ (by simp), orbTrans_off _ _ _ _ _ (by simp)]
  · rw [orbRep_off _ _ _ (by simp), orbTrans_off _ _ _ _ _ (by simp)]
  · rw [orbTrans_pp, orbRep_pp]; simp
  · rw [orbRep_off _ _ _ (by simp), orbTrans_off _ _ _ _ _ (by simp)]
  · rw [orbRep_off _ _ _ (by simp), orbTrans_off _ _ _ _ _ (by simp)]
  · rw [orbRep_off _ _ _ (by simp), orbTrans_off _ _ _ _ _ (by simp)]
  · rw [orbTrans_dd, orbRep_dd]; simp

theorem zRot_dd (al : ℝ) (i j : Fin 5) :
    zRotD (rotZ al) (dOrb j) (dOrb i) = dRep (rotZ al) i j := by
  have h3 : Real.sqrt 3 * Real.sqrt 3 = 3 := by norm_num
  have hcs := Real.sin_sq_add_cos_sq al
  fin_cases i <;> fin_cases j <;>
    simp [zRotD, dOrb, dRep, rotZ, quadOrb, Matrix.trace, Matrix.mul_apply, Fin.sum_univ_three] <;>
    generalize Real.sqrt 3 = s at * <;> grind

/-- **C71 (rotation about z).** -/
theorem c71_z_rotation (al : ℝ) : (zRotD (rotZ al)).transpose = orbRep (rotZ al) := by
  ext a b
  rw [Matrix.transpose_apply]
  rcases orb_cases a with rfl | ⟨i, rfl⟩ | ⟨i, rfl⟩ <;>
    rcases orb_cases b with rfl | ⟨j, rfl⟩ | ⟨j, rfl⟩
  · simp [zRotD]
  · rw [orbRep_off _ _ _ (by simp)]; fin_cases j <;> simp [zRotD, pOrb]
  · rw [orbRep_off _ _ _ (by simp)]; fin_cases j <;> simp [zRotD, dOrb]
  · rw [orbRep_off _ _ _ (by simp)]; fin_cases i <;> simp [zRotD, pOrb]
  · rw [orbRep_pp]; fin_cases i <;> fin_cases j <;> simp [zRotD, pOrb]
  · rw [orbRep_off _ _ _ (by simp)]; fin_cases i <;> fin_cases j <;> simp [zRotD, pOrb, dOrb]
  · rw [orbRep_off _ _ _ (by simp)]; fin_cases i <;> simp [zRotD, dOrb]
  · rw [orbRep_off _ _ _ (by simp)]; fin_cases i <;> fin_cases j <;> simp [zRotD, pOrb, dOrb]
  · rw [orbRep_dd, zRot_dd]

theorem orbRep_one : orbRep 1 = 1 := by
  have h0 : rotZ 0 = 1 := by
    ext i j; fin_cases i <;> fin_cases j <;> simp [rotZ]
  rw [← h0, ← c71_z_rotation]
  ext a b
  rw [Matrix.transpose_apply]
  fin_cases a <;> fin_cases b <;> simp [zRotD, rotZ] <;> norm_num

/-- The reflection branch is right for the reflection in the xy plane. -/
theorem c71_reflection : reflD = orbRep !![1, 0, 0; 0, 1, 0; 0, 0, -1] := by
  have h3 : Real.sqrt 3 * Real.sqrt 3 = 3 := by norm_num
  ext a b
  rcases orb_cases a with rfl | ⟨i, rfl⟩ | ⟨i, rfl⟩ <;>
    rcases orb_cases b with rfl | ⟨j, rfl⟩ | ⟨j, rfl⟩
  · simp [reflD]
  · rw [orbRep_off _ _ _ (by simp), reflD, Matrix.diagonal_apply_ne _ (ne_of_orbL (by simp))]
  · rw [orbRep_off _ _ _ (by simp), reflD, Matrix.diagonal_apply_ne _ (ne_of_orbL (by simp))]
  · rw [orbRep_off _ _ _ (by simp), reflD, Matrix.diagonal_apply_ne _ (ne_of_orbL (by simp))]
  · rw [orbRep_pp]; fin_cases i <;> fin_cases j <;> simp [reflD, pOrb, Matrix.diagonal]
  · rw [orbRep_off _ _ _ (by simp), reflD, Matrix.diagonal_apply_ne _ (ne_of_orbL (by simp))]
  · rw [orbRep_off _ _ _ (by simp), reflD, Matrix.diagonal_apply_ne _ (ne_of_orbL (by simp))]
  · rw [orbRep_off _ _ _ (by simp), reflD, Matrix.diagonal_apply_ne _ (ne_of_orbL (by simp))]
  · rw [orbRep_dd]
    fin_cases i <;> fin_cases j <;>
      simp [reflD, dOrb, dRep, Matrix.diagonal, quadOrb, Matrix.trace, Matrix.mul_apply,
        Fin.sum_univ_three] <;>
      generalize Real.sqrt 3 = s at * <;> grind

theorem rotY_eq (al : ℝ) : rotationMatrix ![Real.sin (Real.pi / 2) * Real.cos (Real.pi / 2),
    Real.sin (Real.pi / 2) * Real.sin (Real.pi / 2), Real.cos (Real.pi / 2)] al = rotY al := by
  have hn : norm3 ![0, 1, 0] = 1 := by simp [norm3]
  rw [Real.sin_pi_div_two, Real.cos_pi_div_two, rotationMatrix_eq]
  simp only [mul_zero, mul_one]
  rw [hn]
  ext i j; fin_cases i <;> fin_cases j <;> simp [rodr, rotY]

/-- The p block of the simple branch is right for every matrix. -/
theorem zRotD_sp (R : Mat) (a b : Fin 9) (ha : a.val < 4) (hb : b.val < 4) :
    (zRotD R).transpose a b = orbRep R a b := by
  rw [Matrix.transpose_apply]
  rcases orb_cases a with rfl | ⟨i, rfl⟩ | ⟨i, rfl⟩ <;>
    rcases orb_cases b with rfl | ⟨j, rfl⟩ | ⟨j, rfl⟩
  · simp [zRotD]
  · rw [orbRep_off _ _ _ (by simp)]; fin_cases j <;> simp [zRotD, pOrb]
  · simp [dOrb] at hb
  · rw [orbRep_off _ _ _ (by simp)]; fin_cases i <;> simp [zRotD, pOrb]
  · rw [orbRep_pp]; fin_cases i <;> fin_cases j <;> simp [zRotD, pOrb]
  · simp [dOrb] at hb
  · simp [dOrb] at ha
  · simp [dOrb] at ha
  · simp [dOrb] at ha

/-- **C71 (every container).** For a legal operation of any container except Sphere and
TwistAndTurn (whose angle extraction is C69), the matrix used for carrying orbitals to the image is
the representation of the operation's rotation: all nine orbitals if some atom has d orbitals, the
s and p orbitals otherwise.
Missing (hence `_partial`): rotations within 1e-12 of the identity, which are treated as identity
(`htol`), and half turns of the y-axis wedge (`hhalf`), for which the statement is false
(`c71_half_turn_fails`). -/
theorem c71_orbitals_follow_partial (A : Atoms) (n : Op) (hasD : Prop)
    (ang : Except Exn (ℝ × ℝ × ℝ)) (hang : A.rawAngles n = some ang)
    (htol : (∀ i, |A.rawRotation n i i - 1| ≤ 1e-12) → A.rawRotation n = 1)
    (hhalf : A.ctype = .wedgeYAxis → hasD → ¬ |A.rawRotation n 2 2 + 1| < 1e-12) :
    ∃ D, rotationTransformation (A.rawRotation n) ang hasD = .ok D ∧
      ∀ a b : Fin 9, (hasD ∨ (a.val < 4 ∧ b.val < 4)) → D a b = orbRep (A.rawRotation n) a b := by
  classical
  unfold rotationTransformation
  by_cases h1 : ∀ i, |A.rawRotation n i i - 1| < 1e-12
  · rw [if_pos h1]
    refine ⟨1, rfl, fun a b _ => ?_⟩
    rw [htol fun i => (h1 i).le, orbRep_one]
  rw [if_neg h1]
  -- rotations about z
  have hz : ∀ al, A.rawRotation n = rotZ al →
      ∃ D, (if hasD ∧ |A.rawRotation n 2 2 - 1| > 1e-12 then
        if |A.rawRotation n 2 2 + 1| < 1e-12 then Except.ok reflD
        else do
          let x ← ang
          return (orbTrans x.1 x.2.1 x.2.2).transpose
        else .ok (zRotD (A.rawRotation n)).transpose) = .ok D ∧
      ∀ a b : Fin 9, (hasD ∨ (a.val < 4 ∧ b.val < 4)) → D a b = orbRep (A.rawRotation n) a b := by
    intro al hal
    refine ⟨(zRotD (A.rawRotation n)).transpose, ?_, ?_⟩
    · rw [if_neg]
      rintro ⟨_, h⟩
      rw [hal] at h
      simp [rotZ] at h
      norm_num at h
    · intro a b _
      rw [hal, c71_z_rotation]
  cases hct : A.ctype
  · -- bravais
    exact hz 0 (by
      simp only [Atoms.rawRotation, hct]
      ext i j; fin_cases i <;> fin_cases j <;> simp [rotZ])
  · exact hz (n 0 * A.wedgeAngle) (by simp only [Atoms.rawRotation, hct])
  · exact hz (n 2 * A.cell 2 0) (by simp only [Atoms.rawRotation, hct])
  · exact hz (n 2 * A.cell 1 0 + n 0 * (Real.pi + A.cell 1 0 * A.cell 0 1)) (by
      simp only [Atoms.rawRotation, hct])
  · simp [Atoms.rawAngles, hct] at hang
  · -- slab
    have hR : A.rawRotation n = if n 2 = 0 then 1 else !![1, 0, 0; 0, 1, 0; 0, 0, -1] := by
      simp only [Atoms.rawRotation, hct]
    by_cases hn : n 2 = 0
    · exact hz 0 (by
        rw [hR, if_pos hn]
        ext i j; fin_cases i <;> fin_cases j <;> simp [rotZ])
    rw [if_neg hn] at hR
    by_cases hd : hasD
    · refine ⟨reflD, ?_, fun a b _ => by rw [hR, c71_reflection]⟩
      rw [if_pos, if_pos]
      · rw [hR]; simp; norm_num
      · rw [hR]; simp [hd]; norm_num
    · refine ⟨_, by rw [if_neg (by simp [hd])], fun a b hab => ?_⟩
      rcases hab with h | ⟨ha, hb⟩
      · exact absurd h hd
      · exact zRotD_sp _ a b ha hb
  · exact hz (n 0 * A.cell 2 0 + n 2 * A.cell 0 1) (by simp only [Atoms.rawRotation, hct])
  · -- wedgeYAxis
    have hR : A.rawRotation n = rotY (n 0 * A.wedgeAngle) := by
      simp only [Atoms.rawRotation, hct]
    have ha : ang = .ok (Real.pi / 2, Real.pi / 2, n 0 * A.wedgeAngle) := by
      simp [Atoms.rawAngles, hct] at hang
      exact hang.symm
    by_cases hd : hasD
    · by_cases h22 : |A.rawRotation n 2 2 - 1| > 1e-12
      · refine ⟨_, by rw [if_pos ⟨hd, h22⟩, if_neg (hhalf hct hd), ha]; rfl, fun a b _ => ?_⟩
        rw [hR, ← rotY_eq, ← c71_from_angles]
      · exfalso
        apply h1
        have h1' : A.rawRotation n = 1 := by
          apply htol
          intro i
          have : |A.rawRotation n 2 2 - 1| ≤ 1e-12 := not_lt.mp h22
          rw [hR] at this ⊢
          fin_cases i
          · simpa [rotY] using this
          · simp [rotY]; norm_num
          · simpa [rotY] using this
        intro i
        rw [h1']; simp; norm_num
    · refine ⟨_, by rw [if_neg (by simp [hd])], fun a b hab => ?_⟩
      rcases hab with h | ⟨ha, hb⟩
      · exact absurd h hd
      · exact zRotD_sp _ a b ha hb
  · simp [Atoms.rawAngles, hct] at hang
  · exact hz (n 0 * A.cell 2 0 + n 1 * A.cell 1 1) (by simp only [Atoms.rawRotation, hct])

theorem rotZ_eq (al : ℝ) : rotationMatrix ![Real.sin 0 * Real.cos 0, Real.sin 0 * Real.sin 0, Real.cos 0] al =
    rotZ al := by
  have hn : norm3 ![0, 0, 1] = 1 := by simp [norm3]
  rw [Real.sin_zero, Real.cos_zero, rotationMatrix_eq]
  simp only [mul_zero, zero_mul]
  rw [hn]
  ext i j; fin_cases i <;> fin_cases j <;> simp [rodr, rotZ]

/-- **C71 (angles).** Whenever a container returns the axis and the angle of an operation instead of its matrix,
the rotation by this angle about this axis is the operation's rotation matrix. -/
theorem c71_angles (A : Atoms) (n : Op) (theta phi angle : ℝ) (h : A.rawAngles n = some (.ok (theta, phi, angle))) :
    rotationMatrix ![Real.sin theta * Real.cos phi, Real.sin theta * Real.sin phi, Real.cos theta] angle =
      A.rawRotation n := by
  unfold Atoms.rawAngles at h
  cases hct : A.ctype <;> rw [hct] at h <;>
    simp only [Option.some.injEq, Except.ok.injEq, Prod.mk.injEq, reduceCtorEq] at h
  all_goals
    obtain ⟨rfl, rfl, rfl⟩ := h
    simp only [Atoms.rawRotation, hct]
  · exact rotZ_eq _
  · exact rotY_eq _
  · exact rotZ_eq _

/-- The angles exist for both wedges and for the general chiral container. -/
example (A : Atoms) (n : Op) (h : A.ctype = .wedge ∨ A.ctype = .wedgeYAxis ∨ A.ctype = .chiralGeneral) :
    ∃ x, A.rawAngles n = some (.ok x) := by
  unfold Atoms.rawAngles
  rcases h with h | h | h <;> rw [h] <;> exact ⟨_, rfl⟩

/-- A quarter-turn wedge with d orbitals meets the hypotheses of `c71_orbitals_follow_partial`, for
both kinds of wedge. -/
example (ct : CType) (hc : ct = .wedge ∨ ct = .wedgeYAxis) :
    let A : Atoms := { ctype := ct, atoms := [("C", ![1, 0, 0])], pbc := fun _ => true,
                       cell := fun i j => if i = 2 ∧ j = 0 then Real.pi / 2 else 1 }
    let n : Op := ![1, 0, 0]
    (∃ ang, A.rawAngles n = some ang) ∧
      ((∀ i, |A.rawRotation n i i - 1| ≤ 1e-12) → A.rawRotation n = 1) ∧
      (A.ctype = .wedgeYAxis → True → ¬ |A.rawRotation n 2 2 + 1| < 1e-12) := by
  rcases hc with rfl | rfl
  · refine ⟨⟨_, rfl⟩, fun h => ?_, by simp⟩
    have := h 0
    simp [Atoms.rawRotation, Atoms.wedgeAngle, rotZ] at this
    norm_num at this
  · refine ⟨⟨_, rfl⟩, fun h => ?_, fun _ _ => ?_⟩
    · have := h 0
      simp [Atoms.rawRotation, Atoms.wedgeAngle, rotY] at this
      norm_num at this
    · simp [Atoms.rawRotation, Atoms.wedgeAngle, rotY]
      norm_num

/-- Witness: a half turn about the y axis. -/
def halfTurnY : Mat := !![-1, 0, 0; 0, 1, 0; 0, 0, -1]

/-- **C71 is false for half turns about y** (a `WedgeYAxis` container with opening angle `π`, whose
only non-trivial operation is `R = halfTurnY`): with d orbitals present, whatever the angles the
container returns, the code takes the operation for the reflection `z ↦ -z` and leaves `p_x`
unchanged, although the rotation reverses it. -/
theorem c71_half_turn_fails (ang : Except Exn (ℝ × ℝ × ℝ)) :
    halfTurnY = rotY Real.pi ∧
    ∃ D, rotationTransformation halfTurnY ang True = .ok D ∧
      D 1 1 = 1 ∧ orbRep halfTurnY 1 1 = -1 := by
  refine ⟨?_, reflD, ?_, ?_, ?_⟩
  · ext i j; fin_cases i <;> fin_cases j <;> simp [halfTurnY, rotY]
  · unfold rotationTransformation
    rw [if_neg, if_pos, if_pos]
    · simp [halfTurnY]; norm_num
    · simp [halfTurnY]; norm_num
    · intro h
      have := h 0
      simp [halfTurnY] at this
      norm_num at this
  · simp [reflD]
  · have : (1 : Fin 9) = pOrb 0 := by decide
    rw [this, orbRep_pp]
    simp [halfTurnY]

/-- `c71_half_turn_fails` is about a real container: a legal operation of `WedgeYAxis` with `M = 2`. -/
example : ∃ (A : Atoms) (n : Op), A.ctype = .wedgeYAxis ∧ A.rawRotation n = rotY Real.pi :=
  ⟨{ ctype := .wedgeYAxis, cell := fun i j => if i = 0 ∧ j = 0 then 1 else
        if i = 2 ∧ j = 0 then Real.pi else 0, pbc := fun _ => true, atoms := [], slabX := fun _ => 0 },
    ![1, 0, 0], rfl, by simp [Atoms.rawRotation, Atoms.wedgeAngle]⟩

end Hotbit
