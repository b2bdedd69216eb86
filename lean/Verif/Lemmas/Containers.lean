import Verif.Model.Containers
import Mathlib.Data.EReal.Basic
import Mathlib.Analysis.SpecialFunctions.Trigonometric.Arctan
import Mathlib.Tactic.LinearCombination

/-! Helper lemmas about containers. -/

namespace Hotbit

open Real Matrix

theorem rotZ_zero : rotZ 0 = 1 := by
  ext i j; fin_cases i <;> fin_cases j <;> simp [rotZ]

theorem rotY_zero : rotY 0 = 1 := by
  ext i j; fin_cases i <;> fin_cases j <;> simp [rotY]

theorem rotZ_add (a b : ℝ) : rotZ (a + b) = rotZ a * rotZ b := by
  ext i j
  fin_cases i <;> fin_cases j <;>
    simp [rotZ, Matrix.mul_apply, Fin.sum_univ_three, cos_add, sin_add] <;> ring

theorem rotY_add (a b : ℝ) : rotY (a + b) = rotY a * rotY b := by
  ext i j
  fin_cases i <;> fin_cases j <;>
    simp [rotY, Matrix.mul_apply, Fin.sum_univ_three, cos_add, sin_add] <;> ring

theorem rotZ_transpose (a : ℝ) : (rotZ a)ᵀ = rotZ (-a) := by
  ext i j; fin_cases i <;> fin_cases j <;> simp [rotZ, Matrix.transpose_apply]

theorem rotY_transpose (a : ℝ) : (rotY a)ᵀ = rotY (-a) := by
  ext i j; fin_cases i <;> fin_cases j <;> simp [rotY, Matrix.transpose_apply]

theorem rotZ_orth (a : ℝ) : (rotZ a)ᵀ * rotZ a = 1 := by
  rw [rotZ_transpose, ← rotZ_add, neg_add_cancel, rotZ_zero]

theorem rotY_orth (a : ℝ) : (rotY a)ᵀ * rotY a = 1 := by
  rw [rotY_transpose, ← rotY_add, neg_add_cancel, rotY_zero]

theorem rotZ_det (a : ℝ) : (rotZ a).det = 1 := by
  have := cos_sq_add_sin_sq a
  simp [rotZ, Matrix.det_fin_three]; nlinarith

theorem rotY_det (a : ℝ) : (rotY a).det = 1 := by
  have := cos_sq_add_sin_sq a
  simp [rotY, Matrix.det_fin_three]; nlinarith

/-- z-axis translations are not changed by rotations about z. -/
theorem rotZ_mulVec_z (a z : ℝ) : (rotZ a).mulVec ![0, 0, z] = ![0, 0, z] := by
  ext i; fin_cases i <;> simp [rotZ, Matrix.mulVec, dotProduct, Fin.sum_univ_three]

theorem rotY_mulVec_y (a y : ℝ) : (rotY a).mulVec ![0, y, 0] = ![0, y, 0] := by
  ext i; fin_cases i <;> simp [rotY, Matrix.mulVec, dotProduct, Fin.sum_univ_three]

theorem rotZ_periodic (a : ℝ) (k : ℤ) : rotZ (a + k * (2 * π)) = rotZ a := by
  simp [rotZ, Real.cos_add_int_mul_two_pi, Real.sin_add_int_mul_two_pi]

theorem rotY_periodic (a : ℝ) (k : ℤ) : rotY (a + k * (2 * π)) = rotY a := by
  simp [rotY, Real.cos_add_int_mul_two_pi, Real.sin_add_int_mul_two_pi]

/-- Equal planar rotations differ by a multiple of a full turn. -/
theorem angle_of_cos_sin_eq {a b : ℝ} (hc : cos a = cos b) (hs : sin a = sin b) :
    ∃ k : ℤ, a - b = k * (2 * π) := by
  have h : cos (a - b) = 1 := by
    rw [cos_sub, hc, hs]; nlinarith [cos_sq_add_sin_sq b]
  obtain ⟨k, hk⟩ := (Real.cos_eq_one_iff _).1 h
  exact ⟨k, hk.symm⟩

theorem rotZ_inj {a b : ℝ} (h : rotZ a = rotZ b) : ∃ k : ℤ, a - b = k * (2 * π) := by
  have h0 := congrFun (congrFun h 0) 0
  have h1 := congrFun (congrFun h 1) 0
  simp [rotZ] at h0 h1
  exact angle_of_cos_sin_eq h0 h1

theorem rotY_inj {a b : ℝ} (h : rotY a = rotY b) : ∃ k : ℤ, a - b = k * (2 * π) := by
  have h0 := congrFun (congrFun h 0) 0
  have h1 := congrFun (congrFun h 0) 2
  simp [rotY] at h0 h1
  exact angle_of_cos_sin_eq h0 h1

/-- `M` recovered from `2π/M`. -/
theorem wedgeM_two_pi_div {M : ℤ} (hM : M ≠ 0) : wedgeM (2 * π / M) = M := by
  unfold wedgeM
  have : (M : ℝ) ≠ 0 := by exact_mod_cast hM
  rw [div_div_cancel₀ (by positivity)]
  exact pyRound_intCast M

theorem angularRange_spec {M : ℤ} :
    (angularRange M).2 - (angularRange M).1 + 1 = M := by
  unfold angularRange; simp only; split <;> (simp only; omega)

theorem angularRange_mem_zero {M : ℤ} (hM : 1 ≤ M) :
    (angularRange M).1 ≤ 0 ∧ 0 ≤ (angularRange M).2 := by
  unfold angularRange; simp only; split <;> (simp only; omega)

/-! Rodrigues matrix for a unit axis. -/

theorem norm3_sq (v : Vec) : norm3 v ^ 2 = v 0 ^ 2 + v 1 ^ 2 + v 2 ^ 2 := by
  unfold norm3; exact Real.sq_sqrt (by positivity)

theorem norm3_eq_zero {v : Vec} : norm3 v = 0 ↔ v = 0 := by
  unfold norm3
  rw [Real.sqrt_eq_zero (by positivity)]
  constructor
  · intro h
    have h0 : v 0 = 0 := by nlinarith [sq_nonneg (v 0), sq_nonneg (v 1), sq_nonneg (v 2)]
    have h1 : v 1 = 0 := by nlinarith [sq_nonneg (v 0), sq_nonneg (v 1), sq_nonneg (v 2)]
    have h2 : v 2 = 0 := by nlinarith [sq_nonneg (v 0), sq_nonneg (v 1), sq_nonneg (v 2)]
    ext i; fin_cases i <;> simpa
  · rintro rfl; simp

theorem norm3_nonneg (v : Vec) : 0 ≤ norm3 v := Real.sqrt_nonneg _

theorem norm3_pos {v : Vec} (h : v ≠ 0) : 0 < norm3 v :=
  lt_of_le_of_ne (norm3_nonneg v) (fun e => h (norm3_eq_zero.1 e.symm))

theorem unit_axis {v : Vec} (h : v ≠ 0) :
    (v 0 / norm3 v) ^ 2 + (v 1 / norm3 v) ^ 2 + (v 2 / norm3 v) ^ 2 = 1 := by
  have hp := norm3_pos h
  field_simp
  exact (norm3_sq v).symm

/-- Rodrigues matrix from a direction `(a,b,c)` and cosine/sine. -/
def rodr (a b c co si : ℝ) : Mat :=
  !![a^2*(1-co) + co, a*b*(1-co) - c*si, a*c*(1-co) + b*si;
     a*b*(1-co) + c*si, b^2*(1-co) + co, b*c*(1-co) - a*si;
     a*c*(1-co) - b*si, b*c*(1-co) + a*si, c^2*(1-co) + co]

theorem rotationMatrix_eq (v : Vec) (t : ℝ) :
    rotationMatrix v t =
      rodr (v 0 / norm3 v) (v 1 / norm3 v) (v 2 / norm3 v) (cos t) (sin t) := rfl

theorem rodr_mul {a b c : ℝ} (h : a^2 + b^2 + c^2 = 1) (c1 s1 c2 s2 : ℝ) :
    rodr a b c c1 s1 * rodr a b c c2 s2
      = rodr a b c (c1 * c2 - s1 * s2) (s1 * c2 + c1 * s2) := by
  have h' : c^2 = 1 - a^2 - b^2 := by linarith
  ext i j
  fin_cases i <;> fin_cases j <;>
    simp [rodr, Matrix.mul_apply, Fin.sum_univ_three]
  · linear_combination (a^2*(1-c1)*(1-c2) - s1*s2) * h
  · linear_combination (a*b*(1-c1)*(1-c2)) * h
  · linear_combination (a*c*(1-c1)*(1-c2)) * h
  · linear_combination (a*b*(1-c1)*(1-c2)) * h
  · linear_combination (b^2*(1-c1)*(1-c2) - s1*s2) * h
  · linear_combination (b*c*(1-c1)*(1-c2)) * h
  · linear_combination (a*c*(1-c1)*(1-c2)) * h
  · linear_combination (b*c*(1-c1)*(1-c2)) * h
  · linear_combination (c^2*(1-c1)*(1-c2) - s1*s2) * h

theorem rotationMatrix_add {v : Vec} (h : v ≠ 0) (s t : ℝ) :
    rotationMatrix v (s + t) = rotationMatrix v s * rotationMatrix v t := by
  rw [rotationMatrix_eq, rotationMatrix_eq, rotationMatrix_eq, rodr_mul (unit_axis h),
    cos_add, sin_add]

theorem rotationMatrix_zero (v : Vec) : rotationMatrix v 0 = 1 := by
  ext i j; fin_cases i <;> fin_cases j <;> simp [rotationMatrix]

theorem rotationMatrix_transpose (v : Vec) (t : ℝ) :
    (rotationMatrix v t)ᵀ = rotationMatrix v (-t) := by
  ext i j; fin_cases i <;> fin_cases j <;>
    simp [rotationMatrix, Matrix.transpose_apply] <;> ring

theorem rotationMatrix_orth {v : Vec} (h : v ≠ 0) (t : ℝ) :
    (rotationMatrix v t)ᵀ * rotationMatrix v t = 1 := by
  rw [rotationMatrix_transpose, ← rotationMatrix_add h, neg_add_cancel, rotationMatrix_zero]

theorem rotationMatrix_det {v : Vec} (h : v ≠ 0) (t : ℝ) : (rotationMatrix v t).det = 1 := by
  -- the determinant of a square is a square, and an orthogonal determinant is ±1
  have e : rotationMatrix v t = rotationMatrix v (t/2) * rotationMatrix v (t/2) := by
    rw [← rotationMatrix_add h]; congr 1; ring
  have o := congrArg Matrix.det (rotationMatrix_orth h (t/2))
  rw [Matrix.det_mul, Matrix.det_transpose, Matrix.det_one] at o
  rw [e, Matrix.det_mul]; exact o

/-- Rodrigues about z is the container rotation about z. -/
theorem rotationMatrix_z (a : ℝ) : rotationMatrix ![0, 0, 1] a = rotZ a := by
  have : norm3 ![0, 0, 1] = 1 := by simp [norm3]
  ext i j; fin_cases i <;> fin_cases j <;> simp [rotationMatrix, rotZ, this]

theorem orth_mul {A B : Mat} (hA : Aᵀ * A = 1) (hB : Bᵀ * B = 1) : (A * B)ᵀ * (A * B) = 1 := by
  rw [Matrix.transpose_mul, Matrix.mul_assoc, ← Matrix.mul_assoc Aᵀ, hA, Matrix.one_mul, hB]

theorem orth_pow {A : Mat} (hA : Aᵀ * A = 1) (k : ℕ) : (A ^ k)ᵀ * (A ^ k) = 1 := by
  induction k with
  | zero => simp
  | succ k ih => rw [pow_succ]; exact orth_mul ih hA

/-- An orthogonal matrix preserves lengths. -/
theorem orth_norm {A : Mat} (h : Aᵀ * A = 1) (v : Vec) : norm3 (A.mulVec v) = norm3 v := by
  have e : ∀ w : Vec, w 0 ^ 2 + w 1 ^ 2 + w 2 ^ 2 = w ⬝ᵥ w := by
    intro w; simp [dotProduct, Fin.sum_univ_three]; ring
  unfold norm3
  rw [e, e]
  congr 1
  rw [Matrix.dotProduct_mulVec, Matrix.vecMul_mulVec, ← Matrix.mulVec_transpose,
    Matrix.transpose_mul, Matrix.transpose_transpose, h, Matrix.one_mulVec]

theorem checkOp_cases (A : Atoms) (n : Op) :
    A.checkOp n =
      if ((A.ranges 0).1.leInt (n 0) && (A.ranges 0).2.geInt (n 0)) &&
         (((A.ranges 1).1.leInt (n 1) && (A.ranges 1).2.geInt (n 1)) &&
         ((A.ranges 2).1.leInt (n 2) && (A.ranges 2).2.geInt (n 2)))
      then .ok () else .error Exn.valueError := by
  simp only [Atoms.checkOp, List.forIn_cons, List.forIn_nil]
  cases ((A.ranges 0).1.leInt (n 0) && (A.ranges 0).2.geInt (n 0)) <;>
  cases ((A.ranges 1).1.leInt (n 1) && (A.ranges 1).2.geInt (n 1)) <;>
  cases ((A.ranges 2).1.leInt (n 2) && (A.ranges 2).2.geInt (n 2)) <;> rfl

/-- The unguarded transformations of the commuting containers add. -/
theorem mulVec_rot_z_add {a b : ℝ} (r : Vec) (z w : ℝ) :
    (rotZ b).mulVec ((rotZ a).mulVec r + ![0, 0, z]) + ![0, 0, w]
      = (rotZ (a + b)).mulVec r + ![0, 0, z + w] := by
  rw [Matrix.mulVec_add, rotZ_mulVec_z, Matrix.mulVec_mulVec, ← rotZ_add, add_assoc, add_comm a b]
  congr 1
  ext i; fin_cases i <;> simp

theorem mulVec_rot_y_add {a b : ℝ} (r : Vec) (z w : ℝ) :
    (rotY b).mulVec ((rotY a).mulVec r + ![0, z, 0]) + ![0, w, 0]
      = (rotY (a + b)).mulVec r + ![0, z + w, 0] := by
  rw [Matrix.mulVec_add, rotY_mulVec_y, Matrix.mulVec_mulVec, ← rotY_add, add_assoc, add_comm a b]
  congr 1
  ext i; fin_cases i <;> simp

theorem zvec_smul (c z : ℝ) : c • ![0, 0, z] = ![(0:ℝ), 0, c * z] := by
  ext i; fin_cases i <;> simp
theorem yvec_smul (c z : ℝ) : c • ![0, z, 0] = ![(0:ℝ), c * z, 0] := by
  ext i; fin_cases i <;> simp
theorem zvec_zero : (0 : Vec) = ![0, 0, 0] := by
  ext i; fin_cases i <;> simp
theorem zvec_add (z w : ℝ) : ![0, 0, z] + ![0, 0, w] = ![(0:ℝ), 0, z + w] := by
  ext i; fin_cases i <;> simp

end Hotbit
