import Verif.Props.ContainerSet

/-!
# C107: scaling the atoms with the container
-/

namespace Hotbit

open Real Matrix

/-- The components are zero or not extremely small, so that `phival` is exact. -/
def Regular (x y : ℝ) : Prop := (x = 0 ∨ 1e-16 < |x|) ∧ (y = 0 ∨ 1e-16 < |y|)

/-! ## Helical containers -/

noncomputable def helixMoved (da h h' : ℝ) (r : Vec) : Vec :=
  ![√(r 0 ^ 2 + r 1 ^ 2) * cos (phiOf (r 0) (r 1) + r 2 / h * da), √(r 0 ^ 2 + r 1 ^ 2) * sin (phiOf (r 0) (r 1) + r 2 / h * da), r 2 / h * h']

theorem helixMove_ok (da h h' : ℝ) (r : Vec) : helixMove da h h' r = .ok (helixMoved da h h' r) := by
  unfold helixMove
  rw [(phiOf_spec (r 0) (r 1)).1]
  rfl

theorem helixMoved_exact (da h h' : ℝ) (r : Vec) (hr : Regular (r 0) (r 1)) : helixMoved da h h' r = twistStretch da h h' r := by
  obtain ⟨h1, h2⟩ := phiOf_exact (r 0) (r 1) hr.1 hr.2
  set ρ := √(r 0 ^ 2 + r 1 ^ 2) with hρ
  set φ := phiOf (r 0) (r 1) with hφ
  unfold helixMoved twistStretch
  rw [← hρ, ← hφ, cos_add, sin_add]
  ext i
  fin_cases i
  · change ρ * (cos φ * cos (r 2 / h * da) - sin φ * sin (r 2 / h * da)) = cos (r 2 / h * da) * r 0 - sin (r 2 / h * da) * r 1
    linear_combination (-cos (r 2 / h * da)) * h1 + sin (r 2 / h * da) * h2
  · change ρ * (sin φ * cos (r 2 / h * da) + cos φ * sin (r 2 / h * da)) = sin (r 2 / h * da) * r 0 + cos (r 2 / h * da) * r 1
    linear_combination (-sin (r 2 / h * da)) * h1 - cos (r 2 / h * da) * h2
  · rfl

theorem helixMoved_near (da h h' : ℝ) (r : Vec) (i : Fin 3) : |helixMoved da h h' r i - twistStretch da h h' r i| ≤ 6e-16 := by
  obtain ⟨-, -, -, h1, h2⟩ := phiOf_spec (r 0) (r 1)
  set ρ := √(r 0 ^ 2 + r 1 ^ 2) with hρ
  set φ := phiOf (r 0) (r 1) with hφ
  set c := cos (r 2 / h * da) with hc
  set s := sin (r 2 / h * da) with hs
  have hc1 : |c| ≤ 1 := abs_cos_le_one _
  have hs1 : |s| ≤ 1 := abs_sin_le_one _
  have key : ∀ a b u v : ℝ, |a| ≤ 1 → |b| ≤ 1 → |u| ≤ 3e-16 → |v| ≤ 3e-16 → |a * u + b * v| ≤ 6e-16 := by
    intro a b u v ha hb hu hv
    calc |a * u + b * v| ≤ |a * u| + |b * v| := abs_add_le _ _
      _ = |a| * |u| + |b| * |v| := by rw [abs_mul, abs_mul]
      _ ≤ 1 * 3e-16 + 1 * 3e-16 := by gcongr
      _ = 6e-16 := by norm_num
  unfold helixMoved twistStretch
  rw [← hρ, ← hφ, cos_add, sin_add, ← hc, ← hs]
  fin_cases i
  · change |ρ * (cos φ * c - sin φ * s) - (c * r 0 - s * r 1)| ≤ 6e-16
    have e : ρ * (cos φ * c - sin φ * s) - (c * r 0 - s * r 1) = (-c) * (r 0 - ρ * cos φ) + s * (r 1 - ρ * sin φ) := by ring
    rw [e]
    exact key _ _ _ _ (by rwa [abs_neg]) hs1 h1 h2
  · change |ρ * (sin φ * c + cos φ * s) - (s * r 0 + c * r 1)| ≤ 6e-16
    have e : ρ * (sin φ * c + cos φ * s) - (s * r 0 + c * r 1) = (-s) * (r 0 - ρ * cos φ) + (-c) * (r 1 - ρ * sin φ) := by ring
    rw [e]
    exact key _ _ _ _ (by rwa [abs_neg]) (by rwa [abs_neg]) h1 h2
  · change |r 2 / h * h' - r 2 / h * h'| ≤ 6e-16
    norm_num

/-- C107: `Chiral.set` with scaling sets the parameters asked for and moves each atom as the twist and stretch of the whole space
does (to 6e-16, and exactly for coordinates that are not extremely small). -/
theorem c107_chiral (A : Atoms) (angle height : Option ℝ) :
    ∃ (A' : Atoms) (g : Vec → Vec), chiralSet A { angle := angle, height := height, scaleAtoms := true } = (A', none) ∧
      A'.ctype = A.ctype ∧ A'.cell 2 0 = angle.getD (A.cell 2 0) ∧ A'.cell 1 0 = height.getD (A.cell 1 0) ∧
      A'.atoms = A.atoms.map (fun p => (p.1, g p.2)) ∧
      (∀ r i, |g r i - twistStretch (A'.cell 2 0 - A.cell 2 0) (A.cell 1 0) (A'.cell 1 0) r i| ≤ 6e-16) ∧
      (∀ r, Regular (r 0) (r 1) → g r = twistStretch (A'.cell 2 0 - A.cell 2 0) (A.cell 1 0) (A'.cell 1 0) r) := by
  have hda : angleChange (A.cell 2 0) angle = angle.getD (A.cell 2 0) - A.cell 2 0 := by
    cases angle <;> simp [angleChange]
  have e20 : (optWrite (optWrite A 2 0 angle) 1 0 height).cell 2 0 = angle.getD (A.cell 2 0) := by simp [optWrite_cell]
  have e10 : (optWrite (optWrite A 2 0 angle) 1 0 height).cell 1 0 = height.getD (A.cell 1 0) := by simp [optWrite_cell]
  have e10' : (optWrite A 2 0 angle).cell 1 0 = A.cell 1 0 := by simp [optWrite_cell]
  refine ⟨(optWrite (optWrite A 2 0 angle) 1 0 height).mapPos
      (helixMoved (angle.getD (A.cell 2 0) - A.cell 2 0) (A.cell 1 0) (height.getD (A.cell 1 0))),
    helixMoved (angle.getD (A.cell 2 0) - A.cell 2 0) (A.cell 1 0) (height.getD (A.cell 1 0)), ?_, ?_, e20, e10, ?_, ?_, ?_⟩
  · unfold chiralSet
    rw [if_neg (by simp), if_neg (by simp)]
    simp only
    rw [hda, e10, e10', moveAll_ok _ _ _ (helixMove_ok _ _ _)]
  · simp [Atoms.mapPos]
  · simp [Atoms.mapPos]
  · intro r i
    change |_ - twistStretch ((optWrite (optWrite A 2 0 angle) 1 0 height).cell 2 0 - A.cell 2 0) (A.cell 1 0)
      ((optWrite (optWrite A 2 0 angle) 1 0 height).cell 1 0) r i| ≤ 6e-16
    rw [e20, e10]
    exact helixMoved_near _ _ _ _ _
  · intro r hr
    change _ = twistStretch ((optWrite (optWrite A 2 0 angle) 1 0 height).cell 2 0 - A.cell 2 0) (A.cell 1 0)
      ((optWrite (optWrite A 2 0 angle) 1 0 height).cell 1 0) r
    rw [e20, e10]
    exact helixMoved_exact _ _ _ _ hr

/-- C107: the twist and stretch carries every image of a point in the old cell to the same image of the moved point in the new cell,
so that the infinite structure is deformed as a whole: chiral cells. -/
theorem c107_chiral_images (A A' : Atoms) (hA : A.ctype = .chiral) (hA' : A'.ctype = .chiral) (hh : A.cell 1 0 ≠ 0) (r : Vec) (n : Op) :
    A'.rawTransform (twistStretch (A'.cell 2 0 - A.cell 2 0) (A.cell 1 0) (A'.cell 1 0) r) n =
      twistStretch (A'.cell 2 0 - A.cell 2 0) (A.cell 1 0) (A'.cell 1 0) (A.rawTransform r n) := by
  simp only [Atoms.rawTransform, hA, hA', Atoms.rawRotation]
  set α := A.cell 2 0
  set α' := A'.cell 2 0
  set h := A.cell 1 0
  set h' := A'.cell 1 0
  have e : (r 2 + n 2 * h) / h * (α' - α) = r 2 / h * (α' - α) + n 2 * α' - n 2 * α := by field_simp; ring
  have e2 : (r 2 + n 2 * h) / h * h' = r 2 / h * h' + n 2 * h' := by field_simp
  ext i
  fin_cases i
  · simp [twistStretch, rotZ, mulVec, dotProduct, Fin.sum_univ_three, e]
    rw [cos_sub, sin_sub, cos_add, sin_add]
    have h1 := sin_sq_add_cos_sq (n 2 * α : ℝ)
    generalize cos (n 2 * α : ℝ) = c1 at *
    generalize sin (n 2 * α : ℝ) = s1 at *
    generalize cos (n 2 * α' : ℝ) = c2 at *
    generalize sin (n 2 * α' : ℝ) = s2 at *
    generalize cos (r 2 / h * (α' - α)) = c3 at *
    generalize sin (r 2 / h * (α' - α)) = s3 at *
    linear_combination (-(c3 * c2 - s3 * s2) * r 0 + (s3 * c2 + c3 * s2) * r 1) * h1
  · simp [twistStretch, rotZ, mulVec, dotProduct, Fin.sum_univ_three, e]
    rw [cos_sub, sin_sub, cos_add, sin_add]
    have h1 := sin_sq_add_cos_sq (n 2 * α : ℝ)
    generalize cos (n 2 * α : ℝ) = c1 at *
    generalize sin (n 2 * α : ℝ) = s1 at *
    generalize cos (n 2 * α' : ℝ) = c2 at *
    generalize sin (n 2 * α' : ℝ) = s2 at *
    generalize cos (r 2 / h * (α' - α)) = c3 at *
    generalize sin (r 2 / h * (α' - α)) = s3 at *
    linear_combination (-(s3 * c2 + c3 * s2) * r 0 - (c3 * c2 - s3 * s2) * r 1) * h1
  · simp [twistStretch, rotZ, mulVec, dotProduct, Fin.sum_univ_three, e2]

/-- C107: `DoubleChiral.set` with scaling (`x` not given) sets the parameters asked for and moves each atom as the twist and stretch of the whole space
does (to 6e-16, and exactly for coordinates that are not extremely small). -/
theorem c107_doubleChiral (A : Atoms) (angle height : Option ℝ) :
    ∃ (A' : Atoms) (g : Vec → Vec), doubleChiralSet A { angle := angle, height := height, scaleAtoms := true } = (A', none) ∧
      A'.ctype = A.ctype ∧ A'.cell 1 0 = angle.getD (A.cell 1 0) ∧ A'.cell 2 0 = height.getD (A.cell 2 0) ∧ A'.cell 0 1 = A.cell 0 1 ∧
      A'.atoms = A.atoms.map (fun p => (p.1, g p.2)) ∧
      (∀ r i, |g r i - twistStretch (A'.cell 1 0 - A.cell 1 0) (A.cell 2 0) (A'.cell 2 0) r i| ≤ 6e-16) ∧
      (∀ r, Regular (r 0) (r 1) → g r = twistStretch (A'.cell 1 0 - A.cell 1 0) (A.cell 2 0) (A'.cell 2 0) r) := by
  have hda : angleChange (A.cell 1 0) angle = angle.getD (A.cell 1 0) - A.cell 1 0 := by
    cases angle <;> simp [angleChange]
  have e20 : (optWrite (optWrite A 1 0 angle) 2 0 height).cell 1 0 = angle.getD (A.cell 1 0) := by simp [optWrite_cell]
  have e10 : (optWrite (optWrite A 1 0 angle) 2 0 height).cell 2 0 = height.getD (A.cell 2 0) := by simp [optWrite_cell]
  have e10' : (optWrite A 1 0 angle).cell 2 0 = A.cell 2 0 := by simp [optWrite_cell]
  refine ⟨(optWrite (optWrite A 1 0 angle) 2 0 height).mapPos
      (helixMoved (angle.getD (A.cell 1 0) - A.cell 1 0) (A.cell 2 0) (height.getD (A.cell 2 0))),
    helixMoved (angle.getD (A.cell 1 0) - A.cell 1 0) (A.cell 2 0) (height.getD (A.cell 2 0)), ?_, ?_, e20, e10, by simp [Atoms.mapPos, optWrite_cell], ?_, ?_, ?_⟩
  · unfold doubleChiralSet
    rw [if_neg (by simp), if_neg (by simp), if_neg (by simp), if_neg (by simp)]
    simp only
    rw [hda, e10, e10', moveAll_ok _ _ _ (helixMove_ok _ _ _)]
  · simp [Atoms.mapPos]
  · simp [Atoms.mapPos]
  · intro r i
    change |_ - twistStretch ((optWrite (optWrite A 1 0 angle) 2 0 height).cell 1 0 - A.cell 1 0) (A.cell 2 0)
      ((optWrite (optWrite A 1 0 angle) 2 0 height).cell 2 0) r i| ≤ 6e-16
    rw [e20, e10]
    exact helixMoved_near _ _ _ _ _
  · intro r hr
    change _ = twistStretch ((optWrite (optWrite A 1 0 angle) 2 0 height).cell 1 0 - A.cell 1 0) (A.cell 2 0)
      ((optWrite (optWrite A 1 0 angle) 2 0 height).cell 2 0) r
    rw [e20, e10]
    exact helixMoved_exact _ _ _ _ hr

/-- C107: the same for the operations of doubly chiral cells, with the half turn. -/
theorem c107_doubleChiral_images (A A' : Atoms) (hA : A.ctype = .doubleChiral) (hA' : A'.ctype = .doubleChiral)
    (hx : A'.cell 0 1 = A.cell 0 1) (hh : A.cell 2 0 ≠ 0) (r : Vec) (n : Op) :
    A'.rawTransform (twistStretch (A'.cell 1 0 - A.cell 1 0) (A.cell 2 0) (A'.cell 2 0) r) n =
      twistStretch (A'.cell 1 0 - A.cell 1 0) (A.cell 2 0) (A'.cell 2 0) (A.rawTransform r n) := by
  simp only [Atoms.rawTransform, hA, hA', Atoms.rawRotation, hx]
  set α := A.cell 1 0
  set α' := A'.cell 1 0
  set h := A.cell 2 0
  set h' := A'.cell 2 0
  set x := A.cell 0 1
  have e : (r 2 + (n 2 + n 0 * x) * h) / h * (α' - α) =
      r 2 / h * (α' - α) + (n 2 * α' + n 0 * (π + α' * x)) - (n 2 * α + n 0 * (π + α * x)) := by field_simp; ring
  have e2 : (r 2 + (n 2 + n 0 * x) * h) / h * h' = r 2 / h * h' + (n 2 + n 0 * x) * h' := by field_simp
  ext i
  fin_cases i
  · simp [twistStretch, rotZ, mulVec, dotProduct, Fin.sum_univ_three, e]
    rw [cos_sub, sin_sub, cos_add (r 2 / h * (α' - α)), sin_add (r 2 / h * (α' - α))]
    have h1 := sin_sq_add_cos_sq (n 2 * α + n 0 * (π + α * x) : ℝ)
    generalize cos (n 2 * α + n 0 * (π + α * x) : ℝ) = c1 at *
    generalize sin (n 2 * α + n 0 * (π + α * x) : ℝ) = s1 at *
    generalize cos (n 2 * α' + n 0 * (π + α' * x) : ℝ) = c2 at *
    generalize sin (n 2 * α' + n 0 * (π + α' * x) : ℝ) = s2 at *
    generalize cos (r 2 / h * (α' - α)) = c3 at *
    generalize sin (r 2 / h * (α' - α)) = s3 at *
    linear_combination (-(c3 * c2 - s3 * s2) * r 0 + (s3 * c2 + c3 * s2) * r 1) * h1
  · simp [twistStretch, rotZ, mulVec, dotProduct, Fin.sum_univ_three, e]
    rw [cos_sub, sin_sub, cos_add (r 2 / h * (α' - α)), sin_add (r 2 / h * (α' - α))]
    have h1 := sin_sq_add_cos_sq (n 2 * α + n 0 * (π + α * x) : ℝ)
    generalize cos (n 2 * α + n 0 * (π + α * x) : ℝ) = c1 at *
    generalize sin (n 2 * α + n 0 * (π + α * x) : ℝ) = s1 at *
    generalize cos (n 2 * α' + n 0 * (π + α' * x) : ℝ) = c2 at *
    generalize sin (n 2 * α' + n 0 * (π + α' * x) : ℝ) = s2 at *
    generalize cos (r 2 / h * (α' - α)) = c3 at *
    generalize sin (r 2 / h * (α' - α)) = s3 at *
    linear_combination (-(s3 * c2 + c3 * s2) * r 0 - (c3 * c2 - s3 * s2) * r 1) * h1
  · simp [twistStretch, rotZ, mulVec, dotProduct, Fin.sum_univ_three, e2]

/-! ## Wedges -/

theorem rotZ_aroundZ (a ρ φ z : ℝ) : (rotZ a).mulVec (aroundZ ρ φ z) = aroundZ ρ (φ + a) z := by
  ext i
  fin_cases i <;> simp [rotZ, aroundZ, mulVec, dotProduct, Fin.sum_univ_three, cos_add, sin_add] <;> ring

theorem rotY_aroundY (a ρ φ y : ℝ) : (rotY a).mulVec (aroundY ρ φ y) = aroundY ρ (φ + a) y := by
  ext i
  fin_cases i <;> simp [rotY, aroundY, mulVec, dotProduct, Fin.sum_univ_three, cos_add, sin_add] <;> ring

theorem cyl_add (ρ φ z w : ℝ) : aroundZ ρ φ z + ![0, 0, w] = aroundZ ρ φ (z + w) := by
  ext i
  fin_cases i <;> simp [aroundZ]

/-- C107: the images of a point in a chiral wedge, in cylinder coordinates. -/
theorem c107_chiralWedge_image (A : Atoms) (hA : A.ctype = .chiralWedge) (ρ φ z : ℝ) (n : Op) :
    A.rawTransform (aroundZ ρ φ z) n = aroundZ ρ (φ + (n 0 * A.cell 2 0 + n 2 * A.cell 0 1)) (z + n 2 * A.cell 1 0) := by
  simp only [Atoms.rawTransform, hA, Atoms.rawRotation, rotZ_aroundZ]
  rw [← cyl_add]
  congr 1
  ext i
  fin_cases i <;> simp

/-- C107: a change of the angle of a chiral wedge with scaling: the polar angle of each atom, taken from 0 to a full turn, is scaled as
the angle of the wedge is. -/
theorem c107_chiralWedge_angle (A : Atoms) (a : ChiralWedgeArgs) (hs : a.scaleAtoms = true) (hh : a.height = none)
    (hgiven : a.angle.isSome ∨ a.M.isSome) (A' : Atoms) (h : chiralWedgeSet A a = (A', none)) :
    A'.ctype = A.ctype ∧ A'.cell 2 0 = askedAngle a.M a.angle (A.cell 2 0) ∧ A'.cell 1 0 = A.cell 1 0 ∧ A'.cell 0 1 = A.cell 0 1 ∧
    A.cell 2 0 ≠ 0 ∧
    ∃ g : Vec → Vec, A'.atoms = A.atoms.map (fun p => (p.1, g p.2)) ∧
      ∀ r : Vec, Regular (r 0) (r 1) → ∃ ρ φ, 0 ≤ ρ ∧ 0 ≤ φ ∧ φ < 2 * π ∧ r = aroundZ ρ φ (r 2) ∧
        g r = aroundZ ρ (φ * (A'.cell 2 0 / A.cell 2 0)) (r 2) := by
  unfold chiralWedgeSet at h
  by_cases hc : a.container.isSome
  · rw [if_pos hc] at h; simp at h
  rw [if_neg hc, if_pos hgiven] at h
  cases hA1 : chiralWedgeAngle A a with
  | mk A1 e =>
    rw [hA1] at h
    cases e with
    | some e => simp at h
    | none =>
      obtain ⟨k1, k2, k3, k4, k5, -, -, -⟩ := chiralWedgeAngle_ok A a A1 hgiven hA1
      rw [hh] at h
      have hA' : A' = A1 := by
        cases ht : a.twist with
        | none => simp [ht, stretchHeight] at h; exact h.symm
        | some t => simp [ht, hs] at h
      subst hA'
      refine ⟨k2, by rw [k1]; simp [setEntry], by rw [k1]; simp [setEntry], by rw [k1]; simp [setEntry], ?_,
        fanMoved (A.cell 2 0) (A'.cell 2 0), ?_, ?_⟩
      · intro h0
        have := k5 hs
        rw [h0] at this
        norm_num at this
      · rw [k4, if_pos hs]; rfl
      · intro r hr
        obtain ⟨e1, e2⟩ := phiOf_exact (r 0) (r 1) hr.1 hr.2
        obtain ⟨-, p1, p2, -, -⟩ := phiOf_spec (r 0) (r 1)
        refine ⟨√(r 0 ^ 2 + r 1 ^ 2), phiOf (r 0) (r 1), sqrt_nonneg _, p1, p2, ?_, rfl⟩
        ext i
        fin_cases i
        · exact e1
        · exact e2
        · rfl

/-- C107: without twist, the images of the scaled atoms are the scaled images of the atoms: image `n`, at the polar angle `φ + n₀ α`,
goes to the polar angle scaled by `α'/α`, at the same radius and height. -/
theorem c107_chiralWedge_images_partial (A A' : Atoms) (hA : A.ctype = .chiralWedge) (hA' : A'.ctype = .chiralWedge)
    (h10 : A'.cell 1 0 = A.cell 1 0) (h01 : A'.cell 0 1 = A.cell 0 1) (htw : A.cell 0 1 = 0) (hα : A.cell 2 0 ≠ 0) (ρ φ z : ℝ) (n : Op) :
    A.rawTransform (aroundZ ρ φ z) n = aroundZ ρ (φ + n 0 * A.cell 2 0) (z + n 2 * A.cell 1 0) ∧
    A'.rawTransform (aroundZ ρ (φ * (A'.cell 2 0 / A.cell 2 0)) z) n =
      aroundZ ρ ((φ + n 0 * A.cell 2 0) * (A'.cell 2 0 / A.cell 2 0)) (z + n 2 * A.cell 1 0) := by
  rw [c107_chiralWedge_image A hA, c107_chiralWedge_image A' hA', h10, h01, htw]
  constructor
  · simp
  · congr 1
    field_simp
    ring

/-- C107: with a twist they are not: an atom on the x axis and its image one height above get the same angles as before, although
the angle of the wedge is halved. -/
theorem c107_chiralWedge_images_fails (A A' : Atoms) (hA : A.ctype = .chiralWedge) (hA' : A'.ctype = .chiralWedge)
    (hα : A.cell 2 0 = π / 2) (hα' : A'.cell 2 0 = π / 4) (htw : A.cell 0 1 = π / 2) (h01 : A'.cell 0 1 = A.cell 0 1) :
    A.rawTransform (aroundZ 1 0 0) ![0, 0, 1] = aroundZ 1 (π / 2) (A.cell 1 0) ∧
    A'.rawTransform (aroundZ 1 (0 * (A'.cell 2 0 / A.cell 2 0)) 0) ![0, 0, 1] ≠ aroundZ 1 (π / 2 * (A'.cell 2 0 / A.cell 2 0)) (A'.cell 1 0) := by
  rw [c107_chiralWedge_image A hA, c107_chiralWedge_image A' hA', h01, htw, hα, hα']
  constructor
  · simp
  · intro h
    have h0 := congrFun h 0
    have hpi := pi_pos
    have e : π / 2 * (π / 4 / (π / 2)) = π / 4 := by field_simp
    simp [aroundZ, e] at h0
    have : (0 : ℝ) < √2 := by positivity
    linarith

/-- C107: the height of a chiral wedge: with scaling, all heights of atoms are scaled, and so are those of all images. -/
theorem c107_chiralWedge_height (A : Atoms) (hA : A.ctype = .chiralWedge) (h' : ℝ) (hh : A.cell 1 0 ≠ 0) :
    ∃ A', chiralWedgeSet A { height := some h', scaleAtoms := true } = (A', none) ∧ A'.ctype = .chiralWedge ∧ A'.cell 1 0 = h' ∧
      A'.atoms = A.atoms.map (fun p => (p.1, ![p.2 0, p.2 1, p.2 2 * (h' / A.cell 1 0)])) ∧
      ∀ ρ φ z n, A'.rawTransform (aroundZ ρ φ (z * (h' / A.cell 1 0))) n =
        (fun r : Vec => ![r 0, r 1, r 2 * (h' / A.cell 1 0)]) (A.rawTransform (aroundZ ρ φ z) n) := by
  refine ⟨stretchHeight A 2 true (some h'), by simp [chiralWedgeSet], ?_, ?_, ?_, ?_⟩
  · exact (stretchHeight_rest A 2 true (some h')).1.trans hA
  · simp [stretchHeight_cell]
  · simp only [stretchHeight, wedgeWrite, if_true]
    apply List.map_congr_left
    intro p _
    refine Prod.ext rfl ?_
    ext i
    fin_cases i <;> simp [Function.update, mul_div_assoc]
  · intro ρ φ z n
    rw [c107_chiralWedge_image A hA, c107_chiralWedge_image _ ((stretchHeight_rest A 2 true (some h')).1.trans hA)]
    simp only [stretchHeight_cell]
    ext i
    fin_cases i
    · simp [aroundZ]
    · simp [aroundZ]
    · simp [aroundZ]; field_simp

/-- The images of a point in a wedge around the y axis. -/
theorem wedgeY_image (A : Atoms) (hA : A.ctype = .wedgeYAxis) (ρ φ y : ℝ) (n : Op) :
    A.rawTransform (aroundY ρ φ y) n = aroundY ρ (φ + n 0 * A.cell 2 0) (y + if A.pbc 1 then n 1 * A.cell 1 0 else 0) := by
  simp only [Atoms.rawTransform, hA, Atoms.rawRotation, Atoms.wedgeAngle, rotY_aroundY, Atoms.wedgeYPbc, Atoms.wedgeHeight]
  by_cases h : A.pbc 1 = true <;> (simp only [h]; ext i; fin_cases i <;> simp [aroundY])

/-- C107: a change of the angle of a wedge around the y axis with scaling. -/
theorem c107_wedgeY_angle (A : Atoms) (a : WedgeYArgs) (hs : a.scaleAtoms = true) (hh : a.height = none) (hp : a.pbc = none)
    (hgiven : a.angle.isSome ∨ a.M.isSome) (A' : Atoms) (h : wedgeYSet A a = (A', none)) :
    A'.ctype = A.ctype ∧ A'.cell 2 0 = askedAngle a.M a.angle (A.cell 2 0) ∧ A'.cell 1 0 = A.cell 1 0 ∧ A'.pbc = A.pbc ∧
    A.cell 2 0 ≠ 0 ∧
    ∃ g : Vec → Vec, A'.atoms = A.atoms.map (fun p => (p.1, g p.2)) ∧
      ∀ r : Vec, Regular (r 2) (r 0) → ∃ ρ φ, 0 ≤ ρ ∧ 0 ≤ φ ∧ φ < 2 * π ∧ r = aroundY ρ φ (r 1) ∧
        g r = aroundY ρ (φ * (A'.cell 2 0 / A.cell 2 0)) (r 1) := by
  unfold wedgeYSet at h
  by_cases hc : a.container.isSome
  · rw [if_pos hc] at h; simp at h
  rw [if_neg hc, if_pos hgiven] at h
  cases hA1 : wedgeYAngle A a with
  | mk A1 e =>
    rw [hA1] at h
    cases e with
    | some e => simp at h
    | none =>
      obtain ⟨k1, k2, k3, k4, k5, -, -, -⟩ := wedgeYAngle_ok A a A1 hgiven hA1
      rw [hh, hp] at h
      have hA' : A' = A1 := by
        simp [stretchHeight] at h; exact h.symm
      subst hA'
      refine ⟨k2, by rw [k1]; simp [setEntry], by rw [k1]; simp [setEntry], k3, ?_,
        fanMovedY (A.cell 2 0) (A'.cell 2 0), ?_, ?_⟩
      · intro h0
        have := k5 hs
        rw [h0] at this
        norm_num at this
      · rw [k4, if_pos hs]; rfl
      · intro r hr
        obtain ⟨e1, e2⟩ := phiOf_exact (r 2) (r 0) hr.1 hr.2
        obtain ⟨-, p1, p2, -, -⟩ := phiOf_spec (r 2) (r 0)
        refine ⟨√(r 2 ^ 2 + r 0 ^ 2), phiOf (r 2) (r 0), sqrt_nonneg _, p1, p2, ?_, rfl⟩
        ext i
        fin_cases i
        · exact e2
        · rfl
        · exact e1

/-- C107: all images are scaled as the atoms are. -/
theorem c107_wedgeY_images (A A' : Atoms) (hA : A.ctype = .wedgeYAxis) (hA' : A'.ctype = .wedgeYAxis)
    (h10 : A'.cell 1 0 = A.cell 1 0) (hp : A'.pbc = A.pbc) (hα : A.cell 2 0 ≠ 0) (ρ φ y : ℝ) (n : Op) :
    ∃ w, A.rawTransform (aroundY ρ φ y) n = aroundY ρ (φ + n 0 * A.cell 2 0) w ∧
    A'.rawTransform (aroundY ρ (φ * (A'.cell 2 0 / A.cell 2 0)) y) n = aroundY ρ ((φ + n 0 * A.cell 2 0) * (A'.cell 2 0 / A.cell 2 0)) w := by
  refine ⟨_, wedgeY_image A hA ρ φ y n, ?_⟩
  rw [wedgeY_image A' hA', h10, hp]
  congr 1
  field_simp

/-- C107: the height of a wedge around the y axis. -/
theorem c107_wedgeY_height (A : Atoms) (hA : A.ctype = .wedgeYAxis) (h' : ℝ) (hh : A.cell 1 0 ≠ 0) :
    ∃ A', wedgeYSet A { height := some h', scaleAtoms := true } = (A', none) ∧ A'.ctype = .wedgeYAxis ∧ A'.cell 1 0 = h' ∧
      A'.atoms = A.atoms.map (fun p => (p.1, ![p.2 0, p.2 1 * (h' / A.cell 1 0), p.2 2])) ∧
      ∀ ρ φ y n, A'.rawTransform (aroundY ρ φ (y * (h' / A.cell 1 0))) n =
        (fun r : Vec => ![r 0, r 1 * (h' / A.cell 1 0), r 2]) (A.rawTransform (aroundY ρ φ y) n) := by
  have hr := stretchHeight_rest A 1 true (some h')
  refine ⟨stretchHeight A 1 true (some h'), by simp [wedgeYSet], ?_, ?_, ?_, ?_⟩
  · exact hr.1.trans hA
  · simp [stretchHeight_cell]
  · simp only [stretchHeight, wedgeWrite, if_true]
    apply List.map_congr_left
    intro p _
    refine Prod.ext rfl ?_
    ext i
    fin_cases i <;> simp [Function.update, mul_div_assoc]
  · intro ρ φ y n
    rw [wedgeY_image A hA, wedgeY_image _ (hr.1.trans hA), hr.2.1]
    simp only [stretchHeight_cell]
    ext i
    fin_cases i
    · simp [aroundY]
    · cases A.pbc 1
      · simp [aroundY]
      · simp [aroundY]; field_simp
    · simp [aroundY]

/-- The images of a point in a wedge. -/
theorem wedge_image (A : Atoms) (hA : A.ctype = .wedge) (ρ φ z : ℝ) (n : Op) :
    A.rawTransform (aroundZ ρ φ z) n = aroundZ ρ (φ + n 0 * A.wedgeAngle) (z + if A.pbc 2 then n 2 * A.wedgeHeight else 0) := by
  simp only [Atoms.rawTransform, hA, Atoms.rawRotation, rotZ_aroundZ, Atoms.wedgePbcz]
  by_cases h : A.pbc 2 = true <;> (simp only [h]; ext i; fin_cases i <;> simp [aroundZ])

/-- C107: `Wedge.set(M=...)` with scaling: polar angles, taken between minus and plus half a turn, are scaled with the angle of the
wedge and radii inversely, so that distances along the circle stay; this is true for all images. -/
theorem c107_wedge (A : Atoms) (hA : A.ctype = .wedge) (M : ℤ) (hM : 2 ≤ M) (hM' : M ≤ 6000000) (hold : 1e-10 ≤ |A.wedgeAngle|) :
    ∃ (A' : Atoms) (g : Vec → Vec), wedgeSet A { M := some M, scaleAtoms := true } = (A', none) ∧ A'.ctype = .wedge ∧
      A'.wedgeAngle = 2 * π / M ∧ A'.wedgeHeight = A.wedgeHeight ∧ A'.pbc = A.pbc ∧ A'.atoms = A.atoms.map (fun p => (p.1, g p.2)) ∧
      (∀ r : Vec, Regular (r 0) (r 1) → ∃ ρ φ, 0 ≤ ρ ∧ -π < φ ∧ φ ≤ π ∧ r = aroundZ ρ φ (r 2) ∧
        g r = aroundZ (ρ * (A.wedgeAngle / A'.wedgeAngle)) (φ * (A'.wedgeAngle / A.wedgeAngle)) (r 2)) ∧
      ∀ ρ φ z n, ∃ w, A.rawTransform (aroundZ ρ φ z) n = aroundZ ρ (φ + n 0 * A.wedgeAngle) w ∧
        A'.rawTransform (aroundZ (ρ * (A.wedgeAngle / A'.wedgeAngle)) (φ * (A'.wedgeAngle / A.wedgeAngle)) z) n =
          aroundZ (ρ * (A.wedgeAngle / A'.wedgeAngle)) ((φ + n 0 * A.wedgeAngle) * (A'.wedgeAngle / A.wedgeAngle)) w := by
  have hMr : (2 : ℝ) ≤ M := by exact_mod_cast hM
  have hMr' : (M : ℝ) ≤ 6000000 := by exact_mod_cast hM'
  have hM0 : M ≠ 0 := by omega
  have hpi := pi_pos
  have hp3 := pi_gt_three
  have hne : A.wedgeAngle ≠ 0 := by
    intro h; rw [h] at hold; norm_num at hold
  let g : Vec → Vec := fun r =>
    let φ0 := phiOf (r 0) (r 1)
    let φ := if φ0 > π then φ0 - 2 * π else φ0
    let ρ := √(r 0 ^ 2 + r 1 ^ 2)
    ![ρ * A.wedgeAngle / (2 * π / M) * cos (φ * (2 * π / M / A.wedgeAngle)), ρ * A.wedgeAngle / (2 * π / M) * sin (φ * (2 * π / M / A.wedgeAngle)), r 2]
  have hg : ∀ r, wedgeScale A.wedgeAngle (2 * π / M) r = .ok (g r) := by
    intro r
    unfold wedgeScale
    rw [(phiOf_spec (r 0) (r 1)).1]
    simp only [g]
    rfl
  let B := wedgeWrite (wedgeWrite A 2 0 (2 * π / M)) 1 1 (boolFloat true)
  have hB20 : B.wedgeAngle = 2 * π / M := by simp [B, wedgeWrite, setEntry, Atoms.wedgeAngle]
  have hB10 : B.wedgeHeight = A.wedgeHeight := by simp [B, wedgeWrite, setEntry, Atoms.wedgeHeight]
  have hset : wedgeSet A { M := some M, scaleAtoms := true } = (B.mapPos g, none) := by
    have h1 : wedgeSetAngle A { M := some M, scaleAtoms := true } = (B.mapPos g, none) := by
      unfold wedgeSetAngle wedgeStep
      rw [if_neg (by simp)]
      simp only [if_neg hM0]
      change wedgeCheck B A.wedgeAngle M true = _
      unfold wedgeCheck
      rw [hB20, if_neg, if_neg, if_neg, if_pos rfl, if_neg (not_lt.2 hold)]
      · have := moveAll_ok B (wedgeScale A.wedgeAngle (2 * π / M)) g hg
        exact this
      · have : 2 * π / (2 * π / (M : ℝ)) = M := by field_simp
        rw [this]; norm_num
      · rw [gt_iff_lt, not_lt, div_le_iff₀ (by linarith)]
        nlinarith
      · rw [not_lt, le_div_iff₀ (by linarith)]
        linarith
    unfold wedgeSet
    simp only [Option.isSome_some, or_true, if_true, h1]
    rfl
  have hct : (B.mapPos g).ctype = .wedge := hA
  have hang : (B.mapPos g).wedgeAngle = 2 * π / M := hB20
  refine ⟨B.mapPos g, g, hset, hct, hang, hB10, rfl, rfl, ?_, ?_⟩
  · intro r hr
    obtain ⟨e1, e2⟩ := phiOf_exact (r 0) (r 1) hr.1 hr.2
    obtain ⟨-, p1, p2, -, -⟩ := phiOf_spec (r 0) (r 1)
    refine ⟨√(r 0 ^ 2 + r 1 ^ 2), if phiOf (r 0) (r 1) > π then phiOf (r 0) (r 1) - 2 * π else phiOf (r 0) (r 1), sqrt_nonneg _,
      ?_, ?_, ?_, ?_⟩
    · split_ifs with h
      · linarith
      · linarith
    · split_ifs with h
      · linarith
      · linarith
    · split_ifs with h
      · ext i
        fin_cases i
        · change r 0 = _ * cos (_ - 2 * π)
          rw [cos_sub_two_pi]; exact e1
        · change r 1 = _ * sin (_ - 2 * π)
          rw [sin_sub_two_pi]; exact e2
        · rfl
      · ext i
        fin_cases i
        · exact e1
        · exact e2
        · rfl
    · rw [hang]
      simp only [g, aroundZ, mul_div_assoc]
  · intro ρ φ z n
    refine ⟨_, wedge_image A hA ρ φ z n, ?_⟩
    rw [wedge_image _ hct]
    have h2 : (B.mapPos g).wedgeHeight = A.wedgeHeight := hB10
    rw [h2, hang]
    congr 1
    field_simp

example : (2 : ℤ) ≤ 8 ∧ (8 : ℤ) ≤ 6000000 ∧ (1e-10 : ℝ) ≤ |2 * π / 5| := by
  refine ⟨by norm_num, by norm_num, ?_⟩
  rw [abs_of_pos (by positivity)]
  have := pi_gt_three
  linarith

/-! ### Twisted and bent tubes -/

theorem norm3_cyl (ρ φ : ℝ) (h : 0 ≤ ρ) : norm3 ![ρ * cos φ, ρ * sin φ, 0] = ρ := by
  have : (ρ * cos φ) ^ 2 + (ρ * sin φ) ^ 2 + 0 ^ 2 = ρ ^ 2 := by
    have := sin_sq_add_cos_sq φ
    linear_combination ρ ^ 2 * this
  simp only [norm3, Matrix.cons_val_zero, Matrix.cons_val_one, Matrix.cons_val_two, Matrix.head_cons, Matrix.tail_cons, Matrix.cons_val]
  rw [this, sqrt_sq h]

theorem rotationMatrix_tangent (φ τ ρ d z : ℝ) (hρ : 0 < ρ) :
    (rotationMatrix (cross3 ![0, 0, 1] (aroundZ ρ φ z)) τ).mulVec (aroundZ d φ z) = aroundZ (d * cos τ + z * sin τ) φ (z * cos τ - d * sin τ) := by
  have hc : cross3 ![0, 0, 1] (aroundZ ρ φ z) = ![-(ρ * sin φ), ρ * cos φ, 0] := by
    ext i; fin_cases i <;> simp [cross3, aroundZ]
  have hn : norm3 ![-(ρ * sin φ), ρ * cos φ, 0] = ρ := by
    have e : norm3 ![-(ρ * sin φ), ρ * cos φ, 0] = norm3 ![ρ * cos φ, ρ * sin φ, 0] := by
      simp only [norm3, Matrix.cons_val_zero, Matrix.cons_val_one, Matrix.cons_val]
      congr 1; ring
    rw [e, norm3_cyl ρ φ hρ.le]
  rw [hc]
  unfold rotationMatrix
  rw [hn]
  have h := sin_sq_add_cos_sq φ
  have e0 : (![-(ρ * sin φ), ρ * cos φ, 0] : Vec) 0 / ρ = - sin φ := by
    change -(ρ * sin φ) / ρ = _
    field_simp
  have e1 : (![-(ρ * sin φ), ρ * cos φ, 0] : Vec) 1 / ρ = cos φ := by
    change (ρ * cos φ) / ρ = _
    field_simp
  have e2 : (![-(ρ * sin φ), ρ * cos φ, 0] : Vec) 2 / ρ = 0 := by
    change 0 / ρ = _
    simp
  rw [e0, e1, e2]
  ext i
  fin_cases i
  · simp [aroundZ, Matrix.mulVec, dotProduct, Fin.sum_univ_three]
    ring
  · simp [aroundZ, Matrix.mulVec, dotProduct, Fin.sum_univ_three]
    ring
  · simp [aroundZ, Matrix.mulVec, dotProduct, Fin.sum_univ_three]
    linear_combination (-(d * sin τ)) * h

/-- The transformation of a tube in cylindrical coordinates. -/
theorem tatTransform_cyl (R ρ φ z b τ : ℝ) (hρ : 0 < ρ) : tatTransform R (aroundZ ρ φ z) b τ = tubeTwist R ρ (φ + b) z τ := by
  have hRp : (![aroundZ ρ φ z 0, aroundZ ρ φ z 1, 0] : Vec) = ![ρ * cos φ, ρ * sin φ, 0] := rfl
  have hRv : (fun i => R * (![aroundZ ρ φ z 0, aroundZ ρ φ z 1, 0] : Vec) i / norm3 ![aroundZ ρ φ z 0, aroundZ ρ φ z 1, 0]) = aroundZ R φ 0 := by
    rw [hRp, norm3_cyl ρ φ hρ.le]
    ext i
    fin_cases i
    · change R * (ρ * cos φ) / ρ = R * cos φ
      field_simp
    · change R * (ρ * sin φ) / ρ = R * sin φ
      field_simp
    · change R * 0 / ρ = 0
      simp
  have hrho : aroundZ ρ φ z - aroundZ R φ 0 = aroundZ (ρ - R) φ z := by
    ext i; fin_cases i <;> simp [aroundZ] <;> ring
  unfold tatTransform
  simp only
  rw [hRv, hrho, rotationMatrix_tangent φ τ ρ (ρ - R) z hρ, rotationMatrix_z]
  have hs : aroundZ R φ 0 + aroundZ ((ρ - R) * cos τ + z * sin τ) φ (z * cos τ - (ρ - R) * sin τ) = tubeTwist R ρ φ z τ := by
    ext i; fin_cases i <;> simp [aroundZ, tubeTwist] <;> ring
  rw [hs, tubeTwist, rotZ_aroundZ]
  rfl

/-- The images of a point of a twisted and bent tube. -/
theorem tat_image (A : Atoms) (hA : A.ctype = .twistAndTurn) (ρ φ z : ℝ) (hρ : 0 < ρ) (n : Op) :
    A.rawTransform (aroundZ ρ φ z) n = tubeTwist A.tatR ρ (φ + n 2 * A.cell 0 1) z (n 2 * A.cell 0 2) := by
  simp only [Atoms.rawTransform, hA]
  by_cases h : n 2 = 0
  · rw [if_pos h, h]
    simp [tubeTwist]
  · rw [if_neg h, tatTransform_cyl _ _ _ _ _ _ hρ]

theorem arctan2_cyl (ρ φ z : ℝ) (hρ : 0 < ρ) (h1 : -π < φ) (h2 : φ ≤ π) : arctan2 (aroundZ ρ φ z 1) (aroundZ ρ φ z 0) = φ := by
  have : (⟨aroundZ ρ φ z 0, aroundZ ρ φ z 1⟩ : ℂ) = ρ * (Complex.cos φ + Complex.sin φ * Complex.I) := by
    apply Complex.ext
    · simp [aroundZ, ← Complex.ofReal_cos, ← Complex.ofReal_sin]
    · simp [aroundZ, ← Complex.ofReal_cos, ← Complex.ofReal_sin]
  unfold arctan2
  rw [this]
  exact Complex.arg_mul_cos_add_sin_mul_I hρ ⟨h1, h2⟩

theorem radius_cyl (ρ φ z : ℝ) (hρ : 0 ≤ ρ) : √(aroundZ ρ φ z 0 ^ 2 + aroundZ ρ φ z 1 ^ 2) = ρ := by
  have : (aroundZ ρ φ z 0 ^ 2 + aroundZ ρ φ z 1 ^ 2) = ρ ^ 2 := by
    have := sin_sq_add_cos_sq φ
    simp [aroundZ]
    linear_combination ρ ^ 2 * this
  rw [this, sqrt_sq hρ]

/-- C107: `TwistAndTurn.set(bend_angle=...)` with scaling: polar angles (between minus and plus half a turn) of atoms and of all
their images are scaled; distances from the axis and heights stay. -/
theorem c107_tube_bend (A : Atoms) (hA : A.ctype = .twistAndTurn) (b : ℝ) (hb : A.cell 0 1 ≠ 0) :
    ∃ (A' : Atoms) (g : Vec → Vec), tatSet A { bendAngle := some b, scaleAtoms := true } = (A', none) ∧ A'.ctype = .twistAndTurn ∧
      A'.cell 0 1 = b ∧ A'.atoms = A.atoms.map (fun p => (p.1, g p.2)) ∧
      (∀ ρ φ z, 0 < ρ → -π < φ → φ ≤ π → g (aroundZ ρ φ z) = aroundZ ρ (φ * (b / A.cell 0 1)) z) ∧
      ∀ ρ φ z n, 0 < ρ → ∃ ρ' z', A.rawTransform (aroundZ ρ φ z) n = aroundZ ρ' (φ + n 2 * A.cell 0 1) z' ∧
        A'.rawTransform (aroundZ ρ (φ * (b / A.cell 0 1)) z) n = aroundZ ρ' ((φ + n 2 * A.cell 0 1) * (b / A.cell 0 1)) z' := by
  let g := tatBendMove (b / A.cell 0 1)
  let A' : Atoms := { wedgeWrite (A.mapPos g) 0 1 b with pbc := ![false, false, true] }
  have hR : A'.tatR = A.tatR := by
    unfold Atoms.tatR
    have h1 : A'.cell 1 2 = A.cell 1 2 := by simp [A', wedgeWrite, setEntry, Atoms.mapPos]
    have h2 : A'.positions = A.positions.map g := by
      simp [A', wedgeWrite, Atoms.mapPos, Atoms.positions, Function.comp_def]
    have h3 : ∀ r, √(g r 0 ^ 2 + g r 1 ^ 2) = √(r 0 ^ 2 + r 1 ^ 2) := by
      intro r
      exact radius_cyl _ _ (r 2) (sqrt_nonneg _)
    rw [h1, h2]
    simp only [List.map_map, List.length_map, Function.comp_def, h3]
  have hct : A'.ctype = .twistAndTurn := hA
  have h01 : A'.cell 0 1 = b := by simp [A', wedgeWrite, setEntry]
  have h02 : A'.cell 0 2 = A.cell 0 2 := by simp [A', wedgeWrite, setEntry, Atoms.mapPos]
  refine ⟨A', g, by simp [tatSet, tatSetR, tatSetTwist, tatSetBend, A', g], hct, h01, rfl, ?_, ?_⟩
  · intro ρ φ z hρ h1 h2
    simp only [g, tatBendMove]
    rw [arctan2_cyl ρ φ z hρ h1 h2, radius_cyl ρ φ z hρ.le, mul_comm (b / _) φ]
    rfl
  · intro ρ φ z n hρ
    refine ⟨_, _, tat_image A hA ρ φ z hρ n, ?_⟩
    rw [tat_image A' hct _ _ _ hρ, hR, h01, h02]
    unfold tubeTwist
    congr 1
    field_simp

/-- C107: `TwistAndTurn.set(R=...)` with scaling: atoms and all their images move away from the axis by the change of the radius. -/
theorem c107_tube_radius (A : Atoms) (hA : A.ctype = .twistAndTurn) (R : ℝ) (hR : 1e-16 ≤ |R|) :
    ∃ (A' : Atoms) (g : Vec → Vec), tatSet A { R := some R, scaleAtoms := true } = (A', none) ∧ A'.ctype = .twistAndTurn ∧
      A'.tatR = R ∧ A'.atoms = A.atoms.map (fun p => (p.1, g p.2)) ∧
      (∀ ρ φ z, 0 < ρ → -π < φ → φ ≤ π → g (aroundZ ρ φ z) = aroundZ (ρ + (R - A.tatR)) φ z) ∧
      ∀ ρ φ z n, 0 < ρ → 0 < ρ + (R - A.tatR) → ∃ ρ' φ' z', A.rawTransform (aroundZ ρ φ z) n = aroundZ ρ' φ' z' ∧
        A'.rawTransform (aroundZ (ρ + (R - A.tatR)) φ z) n = aroundZ (ρ' + (R - A.tatR)) φ' z' := by
  let g := tatRadiusMove (R - A.tatR)
  let A' : Atoms := { wedgeWrite (A.mapPos g) 1 2 R with pbc := ![false, false, true] }
  have h12 : A'.cell 1 2 = R := by simp [A', wedgeWrite, setEntry]
  have hR' : A'.tatR = R := by
    unfold Atoms.tatR
    rw [h12, if_neg (not_lt.2 hR)]
  have hct : A'.ctype = .twistAndTurn := hA
  have h01 : A'.cell 0 1 = A.cell 0 1 := by simp [A', wedgeWrite, setEntry, Atoms.mapPos]
  have h02 : A'.cell 0 2 = A.cell 0 2 := by simp [A', wedgeWrite, setEntry, Atoms.mapPos]
  refine ⟨A', g, by simp [tatSet, tatSetR, tatSetTwist, tatSetBend, A', g], hct, hR', rfl, ?_, ?_⟩
  · intro ρ φ z hρ h1 h2
    simp only [g, tatRadiusMove]
    rw [arctan2_cyl ρ φ z hρ h1 h2, radius_cyl ρ φ z hρ.le]
    rfl
  · intro ρ φ z n hρ hρ'
    refine ⟨_, _, _, tat_image A hA ρ φ z hρ n, ?_⟩
    rw [tat_image A' hct _ _ _ hρ', hR', h01, h02]
    unfold tubeTwist
    congr 1 <;> ring

/-- C107: `TwistAndTurn.set(twist_angle=...)` with scaling, when a radius is stored: each atom, and each image, is turned in its
normal plane in proportion to its polar angle, by the change of the twist per bend angle. -/
theorem c107_tube_twist (A : Atoms) (hA : A.ctype = .twistAndTurn) (t : ℝ) (hb : A.cell 0 1 ≠ 0) (hR : 1e-16 ≤ |A.cell 1 2|) :
    ∃ (A' : Atoms) (g : Vec → Vec), tatSet A { twistAngle := some t, scaleAtoms := true } = (A', none) ∧ A'.ctype = .twistAndTurn ∧
      A'.cell 0 2 = t ∧ A'.atoms = A.atoms.map (fun p => (p.1, g p.2)) ∧
      (∀ ρ φ z, 0 < ρ → -π < φ → φ ≤ π → g (aroundZ ρ φ z) = tubeTwist A.tatR ρ φ z ((t - A.cell 0 2) * (φ / A.cell 0 1))) ∧
      ∀ ρ φ z n, 0 < ρ → 0 < A.tatR + (ρ - A.tatR) * cos ((t - A.cell 0 2) * (φ / A.cell 0 1)) + z * sin ((t - A.cell 0 2) * (φ / A.cell 0 1)) →
        ∃ ρ' z', A.rawTransform (aroundZ ρ φ z) n = aroundZ ρ' (φ + n 2 * A.cell 0 1) z' ∧
        A'.rawTransform (tubeTwist A.tatR ρ φ z ((t - A.cell 0 2) * (φ / A.cell 0 1))) n =
          tubeTwist A.tatR ρ' (φ + n 2 * A.cell 0 1) z' ((t - A.cell 0 2) * ((φ + n 2 * A.cell 0 1) / A.cell 0 1)) := by
  let g := tatTwistMove A.tatR (A.cell 0 1) (t - A.cell 0 2)
  let A' : Atoms := { wedgeWrite (A.mapPos g) 0 2 t with pbc := ![false, false, true] }
  have h12 : A'.cell 1 2 = A.cell 1 2 := by simp [A', wedgeWrite, setEntry, Atoms.mapPos]
  have hR' : A'.tatR = A.tatR := by
    unfold Atoms.tatR
    rw [h12, if_neg (not_lt.2 hR), if_neg (not_lt.2 hR)]
  have hct : A'.ctype = .twistAndTurn := hA
  have h01 : A'.cell 0 1 = A.cell 0 1 := by simp [A', wedgeWrite, setEntry, Atoms.mapPos]
  have h02 : A'.cell 0 2 = t := by simp [A', wedgeWrite, setEntry]
  refine ⟨A', g, by simp [tatSet, tatSetR, tatSetTwist, tatSetBend, A', g], hct, h02, rfl, ?_, ?_⟩
  · intro ρ φ z hρ h1 h2
    simp only [g, tatTwistMove]
    rw [arctan2_cyl ρ φ z hρ h1 h2, tatTransform_cyl _ _ _ _ _ _ hρ, add_zero]
  · intro ρ φ z n hρ hρ'
    refine ⟨_, _, tat_image A hA ρ φ z hρ n, ?_⟩
    have e : (t - A.cell 0 2) * ((φ + n 2 * A.cell 0 1) / A.cell 0 1) = (t - A.cell 0 2) * (φ / A.cell 0 1) + n 2 * t - n 2 * A.cell 0 2 := by
      field_simp
      ring
    rw [e]
    generalize hθ : (t - A.cell 0 2) * (φ / A.cell 0 1) = θ at *
    have := tat_image A' hct _ φ (z * cos θ - (ρ - A.tatR) * sin θ) hρ' n
    rw [tubeTwist, this, hR', h01, h02]
    unfold tubeTwist
    have e2 : θ + n 2 * t - n 2 * A.cell 0 2 = θ + (n 2 * t - n 2 * A.cell 0 2) := by ring
    have h1 := sin_sq_add_cos_sq (n 2 * A.cell 0 2)
    generalize hτ : (n 2 : ℝ) * A.cell 0 2 = τ at *
    generalize hτ' : (n 2 : ℝ) * t = τ' at *
    congr 1
    · rw [e2, cos_add, sin_add, cos_sub, sin_sub]
      linear_combination (-((ρ - A.tatR) * (cos θ * cos τ' - sin θ * sin τ') + z * (sin θ * cos τ' + cos θ * sin τ'))) * h1
    · rw [e2, cos_add, sin_add, cos_sub, sin_sub]
      linear_combination (-(z * (cos θ * cos τ' - sin θ * sin τ') - (ρ - A.tatR) * (sin θ * cos τ' + cos θ * sin τ'))) * h1

/-- Several parameters of a tube at once are the same as one after the other, in the order bend, twist, radius. -/
theorem c107_tube_order (A : Atoms) (b t R : ℝ) (s : Bool) :
    tatSet A { bendAngle := some b, twistAngle := some t, R := some R, scaleAtoms := s } =
      tatSet (tatSet (tatSet A { bendAngle := some b, scaleAtoms := s }).1 { twistAngle := some t, scaleAtoms := s }).1
        { R := some R, scaleAtoms := s } := by
  cases s <;> rfl

example : ∃ A : Atoms, A.ctype = .twistAndTurn ∧ A.cell 0 1 ≠ 0 ∧ (1e-16 : ℝ) ≤ |A.cell 1 2| ∧ A.atoms.length = 2 :=
  ⟨⟨.twistAndTurn, [("C", aroundZ 9 0.1 0.3), ("C", aroundZ 11 0.2 0)], !![0, 0.4, 0.1; 0, 0, 10; 0, 0, 0], ![false, false, true], 0⟩,
    rfl, by change (0.4 : ℝ) ≠ 0; norm_num, by change (1e-16 : ℝ) ≤ |10|; norm_num, rfl⟩

end Hotbit
