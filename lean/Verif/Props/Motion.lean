import Verif.Props.Containers

set_option linter.unusedSimpArgs false

/-!
# C63, C64: the documented motion of each container, and `rotation` as its linear part
-/

namespace Hotbit

open Real

/-- The point with cylindrical coordinates `(ρ, φ, z)`, axis z. -/
noncomputable def cyl (ρ φ z : ℝ) : Vec := ![ρ * cos φ, ρ * sin φ, z]

/-- The point with cylindrical coordinates about the y axis, angle from z towards x. -/
noncomputable def cylY (ρ φ y : ℝ) : Vec := ![ρ * sin φ, y, ρ * cos φ]

theorem rotZ_cyl (a ρ φ z w : ℝ) :
    (rotZ a).mulVec (cyl ρ φ z) + ![0, 0, w] = cyl ρ (φ + a) (z + w) := by
  ext i
  fin_cases i <;>
    simp [rotZ, cyl, Matrix.mulVec, dotProduct, Fin.sum_univ_three, cos_add, sin_add] <;> ring

theorem rotY_cyl (a ρ φ y w : ℝ) :
    (rotY a).mulVec (cylY ρ φ y) + ![0, w, 0] = cylY ρ (φ + a) (y + w) := by
  ext i
  fin_cases i <;>
    simp [rotY, cylY, Matrix.mulVec, dotProduct, Fin.sum_univ_three, cos_add, sin_add] <;> ring

/-- C63, Bravais: translation by integer combinations of the cell's rows. -/
theorem c63_bravais (A : Atoms) (hA : A.ctype = .bravais) (r : Vec) (n : Op) (hn : Legal A n) :
    A.transform r n = .ok fun i => r i + n 0 * A.cell 0 i + n 1 * A.cell 1 i + n 2 * A.cell 2 i := by
  rw [(c05_transform_guard A r n).1 hn]
  congr 1
  ext i
  simp [Atoms.rawTransform, hA]

/-- C63, Wedge: rotation by `n₀·angle` about z, and `n₂·height` along z if periodic there. -/
theorem c63_wedge (A : Atoms) (hA : A.ctype = .wedge) (ρ φ z : ℝ) (n : Op) (hn : Legal A n) :
    A.transform (cyl ρ φ z) n =
      .ok (cyl ρ (φ + n 0 * A.cell 2 0) (if A.pbc 2 then z + n 2 * A.cell 1 0 else z)) := by
  rw [(c05_transform_guard A _ n).1 hn]
  congr 1
  simp only [Atoms.rawTransform, Atoms.rawRotation, hA]
  by_cases hp : A.wedgePbcz = true
  · have hp' : A.pbc 2 = true := hp
    rw [if_pos hp, if_pos hp', zvec_smul]
    exact rotZ_cyl _ _ _ _ _
  · have hp' : ¬ A.pbc 2 = true := hp
    rw [if_neg hp, if_neg hp', show (0 : Vec) = ![0, 0, 0] from zvec_zero, rotZ_cyl, add_zero]
    rfl

/-- C63, Chiral: the screw operation. -/
theorem c63_chiral (A : Atoms) (hA : A.ctype = .chiral) (ρ φ z : ℝ) (n : Op) (hn : Legal A n) :
    A.transform (cyl ρ φ z) n = .ok (cyl ρ (φ + n 2 * A.cell 2 0) (z + n 2 * A.cell 1 0)) := by
  rw [(c05_transform_guard A _ n).1 hn]
  congr 1
  simp only [Atoms.rawTransform, Atoms.rawRotation, hA]
  rw [rotZ_cyl]

/-- C63, DoubleChiral: `n₂` screws, and for `n₀ = 1` a half turn plus `x` screws. -/
theorem c63_double_chiral (A : Atoms) (hA : A.ctype = .doubleChiral) (ρ φ z : ℝ) (n : Op)
    (hn : Legal A n) :
    A.transform (cyl ρ φ z) n =
      .ok (cyl ρ (φ + n 0 * π + (n 2 + n 0 * A.cell 0 1) * A.cell 1 0)
        (z + (n 2 + n 0 * A.cell 0 1) * A.cell 2 0)) := by
  rw [(c05_transform_guard A _ n).1 hn]
  congr 1
  simp only [Atoms.rawTransform, Atoms.rawRotation, hA]
  rw [rotZ_cyl]
  congr 1
  ring

/-- C63, ChiralWedge: `n₀` wedge angles and `n₂` screws. -/
theorem c63_chiral_wedge (A : Atoms) (hA : A.ctype = .chiralWedge) (ρ φ z : ℝ) (n : Op)
    (hn : Legal A n) :
    A.transform (cyl ρ φ z) n =
      .ok (cyl ρ (φ + n 0 * A.cell 2 0 + n 2 * A.cell 0 1) (z + n 2 * A.cell 1 0)) := by
  rw [(c05_transform_guard A _ n).1 hn]
  congr 1
  simp only [Atoms.rawTransform, Atoms.rawRotation, hA, zvec_smul]
  rw [rotZ_cyl]
  congr 1
  ring

/-- C63, WedgeYAxis: rotation by `n₀·angle` about y, from z towards x. -/
theorem c63_wedge_y (A : Atoms) (hA : A.ctype = .wedgeYAxis) (ρ φ y : ℝ) (n : Op)
    (hn : Legal A n) :
    A.transform (cylY ρ φ y) n =
      .ok (cylY ρ (φ + n 0 * A.cell 2 0) (if A.pbc 1 then y + n 1 * A.cell 1 0 else y)) := by
  rw [(c05_transform_guard A _ n).1 hn]
  congr 1
  simp only [Atoms.rawTransform, Atoms.rawRotation, hA]
  by_cases hp : A.wedgeYPbc = true
  · have hp' : A.pbc 1 = true := hp
    rw [if_pos hp, if_pos hp', yvec_smul]
    exact rotY_cyl _ _ _ _ _
  · have hp' : ¬ A.pbc 1 = true := hp
    rw [if_neg hp, if_neg hp', show (0 : Vec) = ![0, 0, 0] from zvec_zero, rotY_cyl, add_zero]
    rfl

/-- C63, ChiralGeneral: two screws. -/
theorem c63_chiral_general (A : Atoms) (hA : A.ctype = .chiralGeneral) (ρ φ z : ℝ) (n : Op)
    (hn : Legal A n) :
    A.transform (cyl ρ φ z) n =
      .ok (cyl ρ (φ + n 0 * A.cell 2 0 + n 1 * A.cell 1 1)
        (z + n 0 * A.cell 1 0 + n 1 * A.cell 0 1)) := by
  rw [(c05_transform_guard A _ n).1 hn]
  congr 1
  simp only [Atoms.rawTransform, Atoms.rawRotation, hA, zvec_smul, zvec_add]
  rw [rotZ_cyl]
  congr 1 <;> ring

/-- C63, Slab: in-plane translations; `n₂ = 1` adds the glide and reflects in the plane. -/
theorem c63_slab (A : Atoms) (hA : A.ctype = .slab) (h0 : A.cell 0 2 = 0) (h1 : A.cell 1 2 = 0)
    (r : Vec) (n : Op) (hn : Legal A n) :
    A.transform r n = .ok ![
      r 0 + (n 0 + n 2 * A.slabX 0) * A.cell 0 0 + (n 1 + n 2 * A.slabX 1) * A.cell 1 0,
      r 1 + (n 0 + n 2 * A.slabX 0) * A.cell 0 1 + (n 1 + n 2 * A.slabX 1) * A.cell 1 1,
      (if n 2 = 1 then -r 2 else r 2)] := by
  have h2 : n 2 = 0 ∨ n 2 = 1 := by
    have := (legal_iff A n).2 hn
    simp [Atoms.ranges, hA, rangeInf, Bound.leInt, Bound.geInt] at this
    omega
  rw [(c05_transform_guard A _ n).1 hn]
  congr 1
  simp only [Atoms.rawTransform, hA, slabTransform]
  rcases h2 with h2 | h2
  · ext i; fin_cases i <;> simp [h2, h0, h1]
  · ext i; fin_cases i <;> simp [h2, h0, h1] <;> ring

/-- C63, TwistAndTurn: about the circle of radius `R`, each operation turns by `bend` along the
circle and twists by `twist` in the meridian plane. -/
theorem tat_cyl (R ρ φ z b t : ℝ) (hρ : 0 < ρ) :
    tatTransform R (cyl ρ φ z) b t =
      cyl (R + (cos t * (ρ - R) + sin t * z)) (φ + b) (cos t * z - sin t * (ρ - R)) := by
  have hn : norm3 ![ρ * cos φ, ρ * sin φ, 0] = ρ := by
    simp only [norm3, Matrix.cons_val_zero, Matrix.cons_val_one, Matrix.cons_val]
    rw [show (ρ * cos φ) ^ 2 + (ρ * sin φ) ^ 2 + 0 ^ 2 = ρ ^ 2 * (sin φ ^ 2 + cos φ ^ 2) by ring,
      sin_sq_add_cos_sq, mul_one, sqrt_sq hρ.le]
  have ht : cross3 ![0, 0, 1] (cyl ρ φ z) = ![-(ρ * sin φ), ρ * cos φ, 0] := by
    ext i; fin_cases i <;> simp [cross3, cyl]
  have hn' : norm3 ![-(ρ * sin φ), ρ * cos φ, 0] = ρ := by
    simp only [norm3, Matrix.cons_val_zero, Matrix.cons_val_one, Matrix.cons_val]
    rw [show (-(ρ * sin φ)) ^ 2 + (ρ * cos φ) ^ 2 + 0 ^ 2 = ρ ^ 2 * (sin φ ^ 2 + cos φ ^ 2) by ring,
      sin_sq_add_cos_sq, mul_one, sqrt_sq hρ.le]
  have hRv : (fun i => R * (![(cyl ρ φ z) 0, (cyl ρ φ z) 1, 0] : Vec) i /
      norm3 ![(cyl ρ φ z) 0, (cyl ρ φ z) 1, 0]) = ![R * cos φ, R * sin φ, 0] := by
    have : norm3 ![(cyl ρ φ z) 0, (cyl ρ φ z) 1, 0] = ρ := by simpa [cyl] using hn
    rw [this]
    ext i; fin_cases i <;> simp [cyl] <;> field_simp
  unfold tatTransform
  simp only
  rw [hRv, ht, rotationMatrix_z]
  have hrot : rotationMatrix ![-(ρ * sin φ), ρ * cos φ, 0] t =
      !![sin φ ^ 2 * (1 - cos t) + cos t, -sin φ * cos φ * (1 - cos t), cos φ * sin t;
         -sin φ * cos φ * (1 - cos t), cos φ ^ 2 * (1 - cos t) + cos t, sin φ * sin t;
         -cos φ * sin t, -sin φ * sin t, cos t] := by
    unfold rotationMatrix
    simp only [hn', Matrix.cons_val_zero, Matrix.cons_val_one, Matrix.cons_val]
    have e1 : -(ρ * sin φ) / ρ = -sin φ := by field_simp
    have e2 : ρ * cos φ / ρ = cos φ := by field_simp
    rw [e1, e2]
    simp
  rw [hrot]
  have key : (![R * cos φ, R * sin φ, 0] +
      Matrix.mulVec !![sin φ ^ 2 * (1 - cos t) + cos t, -sin φ * cos φ * (1 - cos t), cos φ * sin t;
         -sin φ * cos φ * (1 - cos t), cos φ ^ 2 * (1 - cos t) + cos t, sin φ * sin t;
         -cos φ * sin t, -sin φ * sin t, cos t] (cyl ρ φ z - ![R * cos φ, R * sin φ, 0]) : Vec)
      = cyl (R + (cos t * (ρ - R) + sin t * z)) φ (cos t * z - sin t * (ρ - R)) := by
    have hcs := sin_sq_add_cos_sq φ
    ext i
    fin_cases i <;> simp [cyl, Matrix.mulVec, dotProduct, Fin.sum_univ_three]
    · linear_combination (ρ - R) * 0 * hcs
    · linear_combination (ρ - R) * 0 * hcs
    · linear_combination (-(ρ - R) * sin t) * hcs
  rw [key]
  have := rotZ_cyl b (R + (cos t * (ρ - R) + sin t * z)) φ (cos t * z - sin t * (ρ - R)) 0
  rw [show (![0, 0, 0] : Vec) = 0 from zvec_zero.symm, add_zero, add_zero] at this
  exact this

theorem c63_twist_and_turn (A : Atoms) (hA : A.ctype = .twistAndTurn) (ρ φ z : ℝ) (hρ : 0 < ρ)
    (n : Op) (hn : Legal A n) :
    A.transform (cyl ρ φ z) n =
      .ok (let t := n 2 * A.cell 0 2
           cyl (A.tatR + (cos t * (ρ - A.tatR) + sin t * z)) (φ + n 2 * A.cell 0 1)
             (cos t * z - sin t * (ρ - A.tatR))) := by
  rw [(c05_transform_guard A _ n).1 hn]
  congr 1
  simp only [Atoms.rawTransform, hA]
  by_cases h0 : n 2 = 0
  · simp [h0]
  · rw [if_neg h0, tat_cyl _ _ _ _ _ _ hρ]

/-- C01 for TwistAndTurn (non-zero stored radius): two operations in succession are the sum
operation, as long as the intermediate point stays off the axis of the circle. -/
theorem c01_compose_twist (A : Atoms) (hA : A.ctype = .twistAndTurn) (ρ φ z : ℝ) (hρ : 0 < ρ)
    (n m : Op) (hn : Legal A n) (hm : Legal A m) (hnm : Legal A (n + m))
    (hmid : 0 < A.tatR + (cos (n 2 * A.cell 0 2) * (ρ - A.tatR) + sin (n 2 * A.cell 0 2) * z)) :
    (do let r1 ← A.transform (cyl ρ φ z) n; A.transform r1 m)
      = A.transform (cyl ρ φ z) (n + m) := by
  rw [c63_twist_and_turn A hA ρ φ z hρ n hn, c63_twist_and_turn A hA ρ φ z hρ _ hnm]
  show A.transform _ m = _
  rw [c63_twist_and_turn A hA _ _ _ hmid m hm]
  simp only [Pi.add_apply, Int.cast_add]
  congr 1
  have e : ((n 2 : ℝ) + m 2) * A.cell 0 2 = n 2 * A.cell 0 2 + m 2 * A.cell 0 2 := by ring
  rw [e, cos_add, sin_add]
  have : ∀ a b c a' b' c' : ℝ, a = a' → b = b' → c = c' → cyl a b c = cyl a' b' c' := by
    rintro a b c _ _ _ rfl rfl rfl; rfl
  apply this <;> ring

/-- C64: for every container but TwistAndTurn, `rotation(n)` is the linear part of
`transform(·,n)`: displacing a point by `v` displaces its image by `rotation(n)·v`. -/
theorem c64_linear_part (A : Atoms) (hA : A.ctype ≠ .twistAndTurn) (r v : Vec) (n : Op)
    (hn : Legal A n) :
    ∃ R r', A.rotation n = .ok R ∧ A.transform r n = .ok r' ∧
      A.transform (r + v) n = .ok (r' + R.mulVec v) := by
  refine ⟨A.rawRotation n, A.rawTransform r n, (c05_rotation_guard A n).1 hn,
    (c05_transform_guard A r n).1 hn, ?_⟩
  rw [(c05_transform_guard A _ n).1 hn]
  congr 1
  have h2 : A.ctype = .slab → n 2 = 0 ∨ n 2 = 1 := by
    intro hs
    have := (legal_iff A n).2 hn
    simp [Atoms.ranges, hs, rangeInf, Bound.leInt, Bound.geInt] at this
    omega
  cases ht : A.ctype with
  | twistAndTurn => exact absurd ht hA
  | bravais => simp [Atoms.rawTransform, Atoms.rawRotation, ht]; abel
  | slab =>
    rcases h2 ht with h | h <;>
    · simp only [Atoms.rawTransform, Atoms.rawRotation, ht, slabTransform, h]
      ext i
      fin_cases i <;> simp [Matrix.mulVec, dotProduct, Fin.sum_univ_three] <;> ring
  | wedge => simp only [Atoms.rawTransform, ht, Matrix.mulVec_add]; abel
  | chiral => simp only [Atoms.rawTransform, ht, Matrix.mulVec_add]; abel
  | doubleChiral => simp only [Atoms.rawTransform, ht, Matrix.mulVec_add]; abel
  | sphere => simp only [Atoms.rawTransform, ht, Matrix.mulVec_add]
  | chiralWedge => simp only [Atoms.rawTransform, ht, Matrix.mulVec_add]; abel
  | wedgeYAxis => simp only [Atoms.rawTransform, ht, Matrix.mulVec_add]; abel
  | chiralGeneral => simp only [Atoms.rawTransform, ht, Matrix.mulVec_add]; abel

/-- A TwistAndTurn object with any bending angle, twist of half a turn per cell and `R = 1`. -/
noncomputable def exTwist (bend : ℝ) : Atoms where
  ctype := .twistAndTurn
  atoms := [("C", ![1, 0, 0])]
  cell := !![0, bend, π; 0, 0, 1; 0, 0, 0]
  pbc := ![false, false, true]

theorem exTwist_R (b : ℝ) : (exTwist b).tatR = 1 := by
  have h : (exTwist b).cell 1 2 = 1 := by simp [exTwist]
  unfold Atoms.tatR
  rw [h, if_neg]
  norm_num

theorem exTwist_legal (b : ℝ) : Legal (exTwist b) ![0, 0, 1] := by
  rw [← legal_iff]
  simp [Atoms.ranges, exTwist, rangeZero, rangeInf]; decide

example (b : ℝ) : (exTwist b).ctype = .twistAndTurn ∧ Legal (exTwist b) ![0, 0, 1] ∧
    0 < (exTwist b).tatR + (cos ((1 : ℤ) * (exTwist b).cell 0 2) * (3 / 2 - (exTwist b).tatR)
      + sin ((1 : ℤ) * (exTwist b).cell 0 2) * 0) := by
  refine ⟨rfl, exTwist_legal b, ?_⟩
  rw [exTwist_R]
  simp [exTwist]; norm_num

/-- C64 is false for TwistAndTurn: `rotation(n)` is taken at one fixed position on the circle, so
elsewhere it is not the rotation an atom's surroundings undergo. Whatever the bending angle, the
image of a displaced point is displaced in the direction opposite to `rotation(n)·v`. -/
theorem c64_twist_fails (b : ℝ) :
    ∃ r v R r', (exTwist b).rotation ![0, 0, 1] = .ok R ∧
      (exTwist b).transform r ![0, 0, 1] = .ok r' ∧
      (exTwist b).transform (r + v) ![0, 0, 1] = .ok (r' - R.mulVec v) ∧ R.mulVec v ≠ 0 := by
  have hl := exTwist_legal b
  set φ := π / 2 - b / 2 with hφ
  have hcos : cos (φ + b) = -sin (b / 2) := by
    rw [show φ + b = b / 2 + π / 2 by rw [hφ]; ring, cos_add_pi_div_two]
  have hsin : sin (φ + b) = cos (b / 2) := by
    rw [show φ + b = b / 2 + π / 2 by rw [hφ]; ring, sin_add_pi_div_two]
  have hc2 := sin_sq_add_cos_sq (b / 2)
  have hR : ((exTwist b).rawRotation ![0, 0, 1]).mulVec (cyl 1 φ 0)
      = ![-sin (b / 2), cos (b / 2), 0] := by
    have e1 : (exTwist b).rawRotation ![0, 0, 1]
        = rotationMatrix ![-sin (b / 2), cos (b / 2), 0] π * rotZ b := by
      simp [Atoms.rawRotation, exTwist, rotationMatrix_z]
    have e2 : (rotZ b).mulVec (cyl 1 φ 0) = ![-sin (b / 2), cos (b / 2), 0] := by
      have := rotZ_cyl b 1 φ 0 0
      rw [show (![0, 0, 0] : Vec) = 0 from zvec_zero.symm, add_zero, add_zero] at this
      rw [this, cyl, hcos, hsin]; simp
    rw [e1, ← Matrix.mulVec_mulVec, e2]
    have hn : norm3 ![-sin (b / 2), cos (b / 2), 0] = 1 := by
      simp [norm3, hc2]
    ext i
    fin_cases i <;> simp [rotationMatrix, hn, Matrix.mulVec, dotProduct, Fin.sum_univ_three]
    · linear_combination (-2 * sin (b / 2)) * hc2
    · linear_combination (2 * cos (b / 2)) * hc2
  have e2 : cyl 1 φ 0 + cyl 1 φ 0 = cyl 2 φ 0 := by
    ext i; fin_cases i <;> simp [cyl] <;> ring
  refine ⟨cyl 1 φ 0, cyl 1 φ 0, _, _, (c05_rotation_guard _ _).1 hl,
    c63_twist_and_turn _ rfl 1 φ 0 one_pos _ hl, ?_, ?_⟩
  · rw [e2, c63_twist_and_turn _ rfl 2 φ 0 two_pos _ hl, hR, exTwist_R]
    congr 1
    simp only [exTwist]
    ext i
    fin_cases i <;> simp [cyl, hcos, hsin]
    · norm_num
    · norm_num
  · rw [hR]
    intro h
    have h0 := congrFun h 0
    have h1 := congrFun h 1
    simp at h0 h1
    rw [h0, h1] at hc2
    norm_num at hc2

end Hotbit
