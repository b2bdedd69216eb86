import Verif.Model.Helpers
import Verif.Lemmas.Containers
import Mathlib.LinearAlgebra.Matrix.Adjugate
import Mathlib.Tactic.Linarith

/-!
# C52, C53, C69: angles and rotation matrices
-/

namespace Hotbit

open Real Matrix

set_option linter.unusedSimpArgs false

/-! ## C52: the azimuthal angle -/

private theorem polar_pos (x y : ℝ) (hx : 0 < x) :
    x = √(x ^ 2 + y ^ 2) * cos (arctan (y / x)) ∧ y = √(x ^ 2 + y ^ 2) * sin (arctan (y / x)) := by
  have h1 : x ^ 2 + y ^ 2 = x ^ 2 * (1 + (y / x) ^ 2) := by field_simp
  have h2 : √(x ^ 2 + y ^ 2) = x * √(1 + (y / x) ^ 2) := by
    rw [h1, Real.sqrt_mul (by positivity), Real.sqrt_sq hx.le]
  have h3 : 0 < √(1 + (y / x) ^ 2) := Real.sqrt_pos.2 (by positivity)
  rw [h2, cos_arctan, sin_arctan]
  constructor <;> field_simp

private theorem polar_neg (x y : ℝ) (hx : x < 0) :
    x = √(x ^ 2 + y ^ 2) * cos (arctan (y / x) + π) ∧
      y = √(x ^ 2 + y ^ 2) * sin (arctan (y / x) + π) := by
  have := polar_pos (-x) (-y) (by linarith)
  rw [neg_div_neg_eq, neg_sq, neg_sq] at this
  rw [cos_add_pi, sin_add_pi]
  constructor <;> linarith [this.1, this.2]

private theorem arctan_pos_iff' {t : ℝ} (h : 0 < t) : 0 < arctan t ∧ arctan t < π / 2 :=
  ⟨Real.arctan_pos.2 h, arctan_lt_pi_div_two t⟩

private theorem arctan_neg_iff' {t : ℝ} (h : t < 0) : -(π / 2) < arctan t ∧ arctan t < 0 :=
  ⟨neg_pi_div_two_lt_arctan t, Real.arctan_lt_zero.2 h⟩

set_option maxHeartbeats 1000000 in
/-- C52 with an arbitrary tolerance `e ≥ 0`: an angle in [0, 2π) is returned for every point; the point
it describes is within `3 e` of the given one in each component, and is the given one if each component
is zero or larger than `e`. -/
theorem phivalE_spec (e x y : ℝ) (he : 0 ≤ e) : ∃ φ, phivalE e x y = .ok φ ∧ 0 ≤ φ ∧ φ < 2 * π ∧
    (|x - √(x ^ 2 + y ^ 2) * cos φ| ≤ 3 * e ∧ |y - √(x ^ 2 + y ^ 2) * sin φ| ≤ 3 * e) ∧
    ((x = 0 ∨ e < |x|) → (y = 0 ∨ e < |y|) →
      x = √(x ^ 2 + y ^ 2) * cos φ ∧ y = √(x ^ 2 + y ^ 2) * sin φ) := by
  have hpi := Real.pi_pos
  -- an exact answer satisfies everything
  have exact : ∀ φ, (x = √(x ^ 2 + y ^ 2) * cos φ ∧ y = √(x ^ 2 + y ^ 2) * sin φ) →
      ((|x - √(x ^ 2 + y ^ 2) * cos φ| ≤ 3 * e ∧ |y - √(x ^ 2 + y ^ 2) * sin φ| ≤ 3 * e) ∧
      ((x = 0 ∨ e < |x|) → (y = 0 ∨ e < |y|) →
        x = √(x ^ 2 + y ^ 2) * cos φ ∧ y = √(x ^ 2 + y ^ 2) * sin φ)) := by
    rintro φ ⟨h1, h2⟩
    refine ⟨⟨?_, ?_⟩, fun _ _ => ⟨h1, h2⟩⟩
    · rw [← h1, sub_self, abs_zero]; positivity
    · rw [← h2, sub_self, abs_zero]; positivity
  -- the length of a vector close to an axis
  have axis : ∀ a b : ℝ, 0 ≤ a → |b| ≤ e → |a - √(a ^ 2 + b ^ 2)| ≤ e ∧
      (b = 0 → √(a ^ 2 + b ^ 2) = a) := by
    intro a b ha hb
    constructor
    · have h1 : a ≤ √(a ^ 2 + b ^ 2) := Real.le_sqrt_of_sq_le (by nlinarith [sq_nonneg b])
      have h2 : √(a ^ 2 + b ^ 2) ≤ a + |b| := by
        rw [Real.sqrt_le_left (by positivity)]
        nlinarith [sq_abs b, abs_nonneg b]
      rw [abs_le]
      constructor <;> linarith
    · rintro rfl
      simp [Real.sqrt_sq ha]
  unfold phivalE
  by_cases c1 : x > e ∧ y > e
  · rw [if_pos c1]
    have hx : 0 < x := by linarith [c1.1]
    have hy : 0 < y := by linarith [c1.2]
    have ha := arctan_pos_iff' (div_pos hy hx)
    exact ⟨_, rfl, ha.1.le, by linarith [ha.2], exact _ (polar_pos x y hx)⟩
  rw [if_neg c1]
  by_cases c2 : x < -e ∧ y > e
  · rw [if_pos c2]
    have hx : x < 0 := by linarith [c2.1]
    have hy : 0 < y := by linarith [c2.2]
    have ha := arctan_neg_iff' (div_neg_of_pos_of_neg hy hx)
    exact ⟨_, rfl, by linarith [ha.1], by linarith [ha.2], exact _ (polar_neg x y hx)⟩
  rw [if_neg c2]
  by_cases c3 : x < -e ∧ y < -e
  · rw [if_pos c3]
    have hx : x < 0 := by linarith [c3.1]
    have hy : y < 0 := by linarith [c3.2]
    have ha := arctan_pos_iff' (div_pos_of_neg_of_neg hy hx)
    exact ⟨_, rfl, by linarith [ha.1], by linarith [ha.2], exact _ (polar_neg x y hx)⟩
  rw [if_neg c3]
  by_cases c4 : x > e ∧ y < -e
  · rw [if_pos c4]
    have hx : 0 < x := by linarith [c4.1]
    have hy : y < 0 := by linarith [c4.2]
    have ha := arctan_neg_iff' (div_neg_of_neg_of_pos hy hx)
    refine ⟨_, rfl, by linarith [ha.1], by linarith [ha.2], exact _ ?_⟩
    rw [cos_add_two_pi, sin_add_two_pi]
    exact polar_pos x y hx
  rw [if_neg c4]
  by_cases c5 : |x| ≤ e ∧ |y| ≤ e
  · rw [if_pos c5]
    refine ⟨0, rfl, le_refl _, by linarith, ⟨?_, ?_⟩, ?_⟩
    · rw [cos_zero, mul_one]
      have h1 : √(x ^ 2 + y ^ 2) ≤ |x| + |y| := by
        rw [Real.sqrt_le_left (by positivity)]
        nlinarith [sq_abs x, sq_abs y, abs_nonneg x, abs_nonneg y]
      have h2 := Real.sqrt_nonneg (x ^ 2 + y ^ 2)
      have h3 := abs_le.1 c5.1
      rw [abs_le]
      constructor <;> linarith [c5.1, c5.2]
    · rw [sin_zero, mul_zero, sub_zero]
      linarith [c5.2]
    · intro hx hy
      have hx0 : x = 0 := hx.resolve_right (not_lt.2 c5.1)
      have hy0 : y = 0 := hy.resolve_right (not_lt.2 c5.2)
      subst hx0; subst hy0
      simp
  rw [if_neg c5]
  by_cases c6 : x > e ∧ |y| ≤ e
  · rw [if_pos c6]
    have := axis x y (by linarith [c6.1]) c6.2
    refine ⟨0, rfl, le_refl _, by linarith, ⟨?_, ?_⟩, ?_⟩
    · rw [cos_zero, mul_one]; linarith [this.1]
    · rw [sin_zero, mul_zero, sub_zero]; linarith [c6.2]
    · intro _ hy
      have hy0 : y = 0 := hy.resolve_right (not_lt.2 c6.2)
      rw [this.2 hy0, cos_zero, sin_zero]
      exact ⟨by ring, by rw [hy0]; ring⟩
  rw [if_neg c6]
  by_cases c7 : y > e ∧ |x| ≤ e
  · rw [if_pos c7]
    have := axis y x (by linarith [c7.1]) c7.2
    rw [add_comm] at this
    refine ⟨_, rfl, by positivity, by linarith, ⟨?_, ?_⟩, ?_⟩
    · rw [cos_pi_div_two, mul_zero, sub_zero]; linarith [c7.2]
    · rw [sin_pi_div_two, mul_one]; linarith [this.1]
    · intro hx _
      have hx0 : x = 0 := hx.resolve_right (not_lt.2 c7.2)
      rw [this.2 hx0, cos_pi_div_two, sin_pi_div_two]
      exact ⟨by rw [hx0]; ring, by ring⟩
  rw [if_neg c7]
  by_cases c8 : x < -e ∧ |y| ≤ e
  · rw [if_pos c8]
    have := axis (-x) y (by linarith [c8.1]) c8.2
    rw [neg_sq] at this
    refine ⟨_, rfl, by positivity, by linarith, ⟨?_, ?_⟩, ?_⟩
    · rw [cos_pi, mul_neg_one, sub_neg_eq_add]
      rw [show x + √(x ^ 2 + y ^ 2) = -(-x - √(x ^ 2 + y ^ 2)) by ring, abs_neg]
      linarith [this.1]
    · rw [sin_pi, mul_zero, sub_zero]; linarith [c8.2]
    · intro _ hy
      have hy0 : y = 0 := hy.resolve_right (not_lt.2 c8.2)
      rw [this.2 hy0, cos_pi, sin_pi]
      exact ⟨by ring, by rw [hy0]; ring⟩
  rw [if_neg c8]
  by_cases c9 : y < -e ∧ |x| ≤ e
  · rw [if_pos c9]
    have := axis (-y) x (by linarith [c9.1]) c9.2
    rw [neg_sq, add_comm] at this
    have hc : cos (3 * π / 2) = 0 := by
      rw [show 3 * π / 2 = π / 2 + π by ring, cos_add_pi, cos_pi_div_two, neg_zero]
    have hs : sin (3 * π / 2) = -1 := by
      rw [show 3 * π / 2 = π / 2 + π by ring, sin_add_pi, sin_pi_div_two]
    refine ⟨_, rfl, by positivity, by linarith, ⟨?_, ?_⟩, ?_⟩
    · rw [hc, mul_zero, sub_zero]; linarith [c9.2]
    · rw [hs, mul_neg_one, sub_neg_eq_add]
      rw [show y + √(x ^ 2 + y ^ 2) = -(-y - √(x ^ 2 + y ^ 2)) by ring, abs_neg]
      linarith [this.1]
    · intro hx _
      have hx0 : x = 0 := hx.resolve_right (not_lt.2 c9.2)
      rw [this.2 hx0, hc, hs]
      exact ⟨by rw [hx0]; ring, by ring⟩
  exfalso
  -- no tenth case
  have hx : x > e ∨ |x| ≤ e ∨ x < -e := by
    rcases le_or_gt |x| e with h | h
    · exact .inr (.inl h)
    · rcases lt_abs.1 h with h | h
      · exact .inl h
      · exact .inr (.inr (by linarith))
  have hy : y > e ∨ |y| ≤ e ∨ y < -e := by
    rcases le_or_gt |y| e with h | h
    · exact .inr (.inl h)
    · rcases lt_abs.1 h with h | h
      · exact .inl h
      · exact .inr (.inr (by linarith))
  rcases hx with hx | hx | hx
  · rcases hy with hy | hy | hy
    · exact c1 ⟨hx, hy⟩
    · exact c6 ⟨hx, hy⟩
    · exact c4 ⟨hx, hy⟩
  · rcases hy with hy | hy | hy
    · exact c7 ⟨hy, hx⟩
    · exact c5 ⟨hx, hy⟩
    · exact c9 ⟨hy, hx⟩
  · rcases hy with hy | hy | hy
    · exact c2 ⟨hx, hy⟩
    · exact c8 ⟨hx, hy⟩
    · exact c3 ⟨hx, hy⟩

/-- C52: for every point an angle in [0, 2π) is returned (no `RuntimeError`), and the point at that angle
and the same distance is within 3e-16 of the given one in each component. -/
theorem c52_returns (x y : ℝ) : ∃ φ, phival x y = .ok φ ∧ 0 ≤ φ ∧ φ < 2 * π ∧
    |x - √(x ^ 2 + y ^ 2) * cos φ| ≤ 3e-16 ∧ |y - √(x ^ 2 + y ^ 2) * sin φ| ≤ 3e-16 := by
  obtain ⟨φ, h1, h2, h3, h4, -⟩ := phivalE_spec 1e-16 x y (by norm_num)
  refine ⟨φ, h1, h2, h3, ?_, ?_⟩
  · exact h4.1.trans (by norm_num)
  · exact h4.2.trans (by norm_num)

/-- C52: it is exactly the polar angle unless a component is non-zero and at most 1e-16. -/
theorem c52_exact (x y : ℝ) (hx : x = 0 ∨ 1e-16 < |x|) (hy : y = 0 ∨ 1e-16 < |y|) :
    ∃ φ, phival x y = .ok φ ∧ 0 ≤ φ ∧ φ < 2 * π ∧
      x = √(x ^ 2 + y ^ 2) * cos φ ∧ y = √(x ^ 2 + y ^ 2) * sin φ := by
  obtain ⟨φ, h1, h2, h3, -, h5⟩ := phivalE_spec 1e-16 x y (by norm_num)
  exact ⟨φ, h1, h2, h3, h5 hx hy⟩

example : (-1 : ℝ) = 0 ∨ (1e-16 : ℝ) < |-1| := by right; norm_num

/-! ## C53: rotation matrices -/

/-- C53: orthogonal with determinant one. -/
theorem c53_orthogonal (v : Vec) (hv : v ≠ 0) (t : ℝ) :
    (rotationMatrix v t)ᵀ * rotationMatrix v t = 1 ∧ (rotationMatrix v t).det = 1 :=
  ⟨rotationMatrix_orth hv t, rotationMatrix_det hv t⟩

/-- C53: angles about the same axis add; zero is the identity. -/
theorem c53_add (v : Vec) (hv : v ≠ 0) (s t : ℝ) :
    rotationMatrix v (s + t) = rotationMatrix v s * rotationMatrix v t ∧ rotationMatrix v 0 = 1 :=
  ⟨rotationMatrix_add hv s t, rotationMatrix_zero v⟩

/-- C53: Rodrigues' formula: the rotation by `t` about the unit axis `u`, in the right-hand sense. In
particular the axis is fixed and a perpendicular vector `w` goes to `cos t · w + sin t · u × w`. -/
theorem c53_rodrigues (u : Vec) (hu : norm3 u = 1) (t : ℝ) (w : Vec) :
    (rotationMatrix u t).mulVec w = fun i =>
      cos t * w i + sin t * cross3 u w i + (1 - cos t) * (∑ j, u j * w j) * u i := by
  ext i
  fin_cases i <;>
    simp [rotationMatrix, hu, cross3, Matrix.mulVec, dotProduct, Fin.sum_univ_three] <;> ring

/-- C53: the axis is fixed. -/
theorem c53_axis (v : Vec) (hv : v ≠ 0) (t : ℝ) : (rotationMatrix v t).mulVec v = v := by
  have hu := unit_axis hv
  have hp := norm3_pos hv
  rw [rotationMatrix_eq]
  have hv' : ∀ i, v i = norm3 v * (v i / norm3 v) := by intro i; field_simp
  generalize norm3 v = N at *
  ext i
  have h0 := hv' 0; have h1 := hv' 1; have h2 := hv' 2
  generalize v 0 / N = a at *
  generalize v 1 / N = b at *
  generalize v 2 / N = c at *
  fin_cases i <;>
    simp [rodr, Matrix.mulVec, dotProduct, Fin.sum_univ_three, h0, h1, h2]
  · linear_combination (N * a * (1 - cos t)) * hu
  · linear_combination (N * b * (1 - cos t)) * hu
  · linear_combination (N * c * (1 - cos t)) * hu

example : (![1, 2, 2] : Vec) ≠ 0 := by
  intro h
  have := congrFun h 0
  simp at this

/-- Rescaling the axis by a positive number does not change the rotation; by a negative number it
reverses it. -/
theorem rotationMatrix_scale (v : Vec) (s t : ℝ) :
    (0 < s → rotationMatrix (fun i => s * v i) t = rotationMatrix v t) ∧
    (s < 0 → rotationMatrix (fun i => s * v i) t = rotationMatrix v (-t)) := by
  have hn : norm3 (fun i => s * v i) = |s| * norm3 v := by
    unfold norm3
    rw [show (s * v 0) ^ 2 + (s * v 1) ^ 2 + (s * v 2) ^ 2 = s ^ 2 * (v 0 ^ 2 + v 1 ^ 2 + v 2 ^ 2) by ring,
      Real.sqrt_mul (sq_nonneg s), Real.sqrt_sq_eq_abs]
  constructor
  · intro hs
    rw [rotationMatrix_eq, rotationMatrix_eq, hn, abs_of_pos hs]
    rw [mul_div_mul_left _ _ hs.ne', mul_div_mul_left _ _ hs.ne', mul_div_mul_left _ _ hs.ne']
  · intro hs
    rw [rotationMatrix_eq, rotationMatrix_eq, hn, abs_of_neg hs]
    have e : ∀ i, s * v i / (-s * norm3 v) = -(v i / norm3 v) := by
      intro i
      rw [neg_mul, div_neg, mul_div_mul_left _ _ hs.ne]
    rw [e, e, e, cos_neg, sin_neg]
    ext i j
    fin_cases i <;> fin_cases j <;> simp [rodr]

/-- C53: the operation `(k,0,0)` of a Sphere container (mode other than 3) is the rotation by `k·angle1`
about `n1`. -/
theorem c53_sphere_axis (A : Atoms) (hA : A.ctype = .sphere) (hm : A.sphereMode ≠ 3) (k : ℤ) :
    A.rawRotation ![k, 0, 0] = rotationMatrix A.sphereN1 (k * A.sphereAngle1) := by
  unfold Atoms.rawRotation
  rw [hA]
  show sphereRotation A ![k, 0, 0] = _
  unfold sphereRotation
  by_cases hk : k = 0
  · subst hk
    rw [if_pos ⟨by simp, by simp⟩]
    simp [rotationMatrix_zero]
  · rw [if_neg (by simp [hk]), if_neg hm]
    simp only [Matrix.cons_val_zero, Matrix.cons_val_one, Int.cast_zero, mul_zero, zero_mul, add_zero,
      ne_eq, OfNat.ofNat_ne_zero, not_false_eq_true, zero_pow]
    rw [Real.sqrt_sq_eq_abs]
    by_cases ha : A.sphereAngle1 * k = 0
    · have ha' : A.sphereAngle1 = 0 := by
        rcases mul_eq_zero.1 ha with h | h
        · exact h
        · exact absurd (by exact_mod_cast h) hk
      simp [ha', rotationMatrix_zero]
    · rcases lt_or_gt_of_ne ha with h | h
      · rw [(rotationMatrix_scale A.sphereN1 _ _).2 h, abs_of_neg h, neg_neg, mul_comm]
      · rw [(rotationMatrix_scale A.sphereN1 _ _).1 h, abs_of_pos h, mul_comm]

/-! ## C69: angle and axis from a matrix -/

/-- A proper rotation respects the cross product. -/
theorem cross3_mulVec (R : Mat) (hR : Rᵀ * R = 1) (hdet : R.det = 1) (u v : Vec) :
    cross3 (R.mulVec u) (R.mulVec v) = R.mulVec (cross3 u v) := by
  have hadj : R.adjugate = Rᵀ := by
    have h1 : R.adjugate * R = 1 := by rw [Matrix.adjugate_mul, hdet, one_smul]
    have h2 : R * Rᵀ = 1 := _root_.mul_eq_one_comm.1 hR
    calc R.adjugate = R.adjugate * (R * Rᵀ) := by rw [h2, mul_one]
      _ = Rᵀ := by rw [← mul_assoc, h1, one_mul]
  rw [Matrix.adjugate_fin_three] at hadj
  have h00 := congrFun (congrFun hadj 0) 0
  have h01 := congrFun (congrFun hadj 0) 1
  have h02 := congrFun (congrFun hadj 0) 2
  have h10 := congrFun (congrFun hadj 1) 0
  have h11 := congrFun (congrFun hadj 1) 1
  have h12 := congrFun (congrFun hadj 1) 2
  have h20 := congrFun (congrFun hadj 2) 0
  have h21 := congrFun (congrFun hadj 2) 1
  have h22 := congrFun (congrFun hadj 2) 2
  simp [Matrix.transpose_apply] at h00 h01 h02 h10 h11 h12 h20 h21 h22
  ext i
  fin_cases i <;> simp [cross3, Matrix.mulVec, dotProduct, Fin.sum_univ_three]
  · linear_combination (u 1 * v 2 - u 2 * v 1) * h00 + (u 2 * v 0 - u 0 * v 2) * h10
      + (u 0 * v 1 - u 1 * v 0) * h20
  · linear_combination (u 1 * v 2 - u 2 * v 1) * h01 + (u 2 * v 0 - u 0 * v 2) * h11
      + (u 0 * v 1 - u 1 * v 0) * h21
  · linear_combination (u 1 * v 2 - u 2 * v 1) * h02 + (u 2 * v 0 - u 0 * v 2) * h12
      + (u 0 * v 1 - u 1 * v 0) * h22

/-- An orthonormal frame `t, a, t × a`. -/
theorem frame_orth (t a : Vec) (ht : ∑ i, t i * t i = 1) (ha : ∑ i, a i * a i = 1)
    (hta : ∑ i, t i * a i = 0) :
    (Matrix.of ![t, a, cross3 t a])ᵀ * Matrix.of ![t, a, cross3 t a] = 1 := by
  rw [_root_.mul_eq_one_comm]
  rw [Fin.sum_univ_three] at ht ha hta
  ext i j
  fin_cases i <;> fin_cases j <;>
    simp [Matrix.mul_apply, Fin.sum_univ_three, cross3, Matrix.transpose_apply]
  · linarith
  · linarith
  · ring
  · linarith
  · linarith
  · ring
  · ring
  · ring
  · linear_combination (a 0 * a 0 + a 1 * a 1 + a 2 * a 2) * ht + ha
      - (t 0 * a 0 + t 1 * a 1 + t 2 * a 2) * hta

/-- A proper rotation with fixed unit vector `t`, seen on a unit vector perpendicular to `t`. -/
theorem rotation_eq_rodr (R : Mat) (hR : Rᵀ * R = 1) (hdet : R.det = 1) (t a : Vec)
    (htR : R.mulVec t = t) (ht : ∑ i, t i * t i = 1) (ha : ∑ i, a i * a i = 1)
    (hta : ∑ i, t i * a i = 0) :
    let c := ∑ i, a i * R.mulVec a i
    let s := ∑ i, R.mulVec a i * cross3 t a i
    c ^ 2 + s ^ 2 = 1 ∧ R = rodr (t 0) (t 1) (t 2) c s := by
  intro c s
  set b := cross3 t a with hb
  have hP := frame_orth t a ht ha hta
  rw [← hb] at hP
  -- expansion of a vector in the frame
  have expand : ∀ (v : Vec) (i : Fin 3), v i =
      (∑ j, t j * v j) * t i + (∑ j, a j * v j) * a i + (∑ j, b j * v j) * b i := by
    intro v i
    have e := congrFun (congrArg (fun M : Mat => M.mulVec v) hP) i
    simp only [Matrix.one_mulVec] at e
    rw [← e, ← Matrix.mulVec_mulVec]
    simp [Matrix.mulVec, dotProduct, Fin.sum_univ_three, Matrix.transpose_apply]
    ring
  have inner : ∀ u v : Vec, ∑ i, R.mulVec u i * R.mulVec v i = ∑ i, u i * v i := by
    intro u v
    have : (R.mulVec u) ⬝ᵥ (R.mulVec v) = u ⬝ᵥ v := by
      rw [Matrix.dotProduct_mulVec, Matrix.vecMul_mulVec, hR, Matrix.vecMul_one]
    exact this
  have hRa : ∀ i, R.mulVec a i = c * a i + s * b i := by
    intro i
    rw [expand (R.mulVec a) i]
    have h0 : ∑ j, t j * R.mulVec a j = 0 := by
      have := inner t a
      rw [htR] at this
      rw [this, hta]
    have h1 : ∑ j, b j * R.mulVec a j = s := by
      show _ = ∑ i, R.mulVec a i * b i
      exact Finset.sum_congr rfl fun _ _ => mul_comm _ _
    rw [h0, h1]
    ring
  have htb : ∀ i, cross3 t b i = -a i := by
    rw [Fin.sum_univ_three] at ht hta
    intro i
    fin_cases i <;> simp [hb, cross3]
    · linear_combination (t 0) * hta - (a 0) * ht
    · linear_combination (t 1) * hta - (a 1) * ht
    · linear_combination (t 2) * hta - (a 2) * ht
  have hRb : ∀ i, R.mulVec b i = c * b i - s * a i := by
    intro i
    rw [hb, ← cross3_mulVec R hR hdet t a, htR]
    have e : cross3 t (R.mulVec a) i = c * cross3 t a i + s * cross3 t b i := by
      have h0 := hRa 0; have h1 := hRa 1; have h2 := hRa 2
      fin_cases i <;> simp only [cross3, h0, h1, h2] <;> simp <;> ring
    rw [e, htb i, ← hb]
    ring
  have hbb : ∑ i, b i * b i = 1 := by
    rw [Fin.sum_univ_three] at ht ha hta ⊢
    simp [hb, cross3]
    linear_combination (a 0 * a 0 + a 1 * a 1 + a 2 * a 2) * ht + ha
      - (t 0 * a 0 + t 1 * a 1 + t 2 * a 2) * hta
  have hab : ∑ i, a i * b i = 0 := by
    rw [Fin.sum_univ_three]; simp [hb, cross3]; ring
  have htb0 : ∑ i, t i * b i = 0 := by
    rw [Fin.sum_univ_three]; simp [hb, cross3]; ring
  refine ⟨?_, ?_⟩
  · have h1 := inner a a
    rw [ha, Fin.sum_univ_three] at h1
    rw [hRa, hRa, hRa] at h1
    rw [Fin.sum_univ_three] at ha hbb hab
    linear_combination h1 - c ^ 2 * ha - s ^ 2 * hbb - 2 * c * s * hab
  · -- both matrices agree on the frame
    have key : ∀ v : Vec, R.mulVec v = (rodr (t 0) (t 1) (t 2) c s).mulVec v := by
      intro v
      have h1 : R.mulVec v = fun i => (∑ j, t j * v j) * t i
          + (∑ j, a j * v j) * (c * a i + s * b i) + (∑ j, b j * v j) * (c * b i - s * a i) := by
        have hv : v = (∑ j, t j * v j) • t + (∑ j, a j * v j) • a + (∑ j, b j * v j) • b := by
          ext i; simpa using expand v i
        conv_lhs => rw [hv]
        rw [Matrix.mulVec_add, Matrix.mulVec_add, Matrix.mulVec_smul, Matrix.mulVec_smul,
          Matrix.mulVec_smul]
        ext i
        simp only [Pi.add_apply, Pi.smul_apply, smul_eq_mul, htR, hRa i, hRb i]
      have h2 : ∀ w : Vec, (rodr (t 0) (t 1) (t 2) c s).mulVec w = fun i =>
          c * w i + s * cross3 t w i + (1 - c) * (∑ j, t j * w j) * t i := by
        intro w
        ext i
        fin_cases i <;>
          simp [rodr, cross3, Matrix.mulVec, dotProduct, Fin.sum_univ_three] <;> ring
      have h3 : ∀ i, cross3 t v i = (∑ j, a j * v j) * b i - (∑ j, b j * v j) * a i := by
        intro i
        have e : cross3 t v i = (∑ j, t j * v j) * cross3 t t i + (∑ j, a j * v j) * cross3 t a i
            + (∑ j, b j * v j) * cross3 t b i := by
          have e0 := expand v 0; have e1 := expand v 1; have e2 := expand v 2
          generalize (∑ j, t j * v j) = x at *
          generalize (∑ j, a j * v j) = y at *
          generalize (∑ j, b j * v j) = z at *
          fin_cases i <;> simp only [cross3, e0, e1, e2] <;> simp <;> ring
        have e2 : cross3 t t i = 0 := by fin_cases i <;> simp [cross3] <;> ring
        rw [e, e2, htb i, ← hb]
        ring
      rw [h1, h2]
      ext i
      rw [h3 i]
      have := expand v i
      generalize (∑ j, t j * v j) = x at *
      generalize (∑ j, a j * v j) = y at *
      generalize (∑ j, b j * v j) = z at *
      rw [this]
      ring
    ext i j
    have := congrFun (key (Pi.single j 1)) i
    simpa using this

/-- C69: for a proper rotation matrix `R` with unit eigenvector `t` and any random vector `r` not parallel
to `t`, an angle is returned, and the rotation about `t` by that angle is `R` again. The two last
hypotheses say that cosine and sine of the angle are zero or larger than the tolerance 1e-16. -/
theorem c69_round_trip (R : Mat) (hR : Rᵀ * R = 1) (hdet : R.det = 1) (t r : Vec)
    (ht : norm3 t = 1) (htR : R.mulVec t = t) (hr : cross3 t r ≠ 0)
    (hc : (R 0 0 + R 1 1 + R 2 2 - 1) / 2 = 0 ∨ (1e-16 : ℝ) < |(R 0 0 + R 1 1 + R 2 2 - 1) / 2|)
    (hs : ((R 0 0 + R 1 1 + R 2 2 - 1) / 2) ^ 2 = 1 ∨
      ((R 0 0 + R 1 1 + R 2 2 - 1) / 2) ^ 2 < (1 - 1e-32 : ℝ)) :
    ∃ φ, rotationAngle R t r = .ok φ ∧ 0 ≤ φ ∧ φ < 2 * π ∧ rotationMatrix t φ = R := by
  have hp := norm3_pos hr
  have hsq := norm3_sq (cross3 t r)
  have htt : ∑ i, t i * t i = 1 := by
    have := norm3_sq t
    rw [ht] at this
    rw [Fin.sum_univ_three]
    linarith
  let a : Vec := fun i => cross3 t r i / norm3 (cross3 t r)
  have haa : ∑ i, a i * a i = 1 := by
    have := unit_axis hr
    rw [Fin.sum_univ_three]
    simp only [a]
    linarith
  have hta : ∑ i, t i * a i = 0 := by
    have e : t 0 * cross3 t r 0 + t 1 * cross3 t r 1 + t 2 * cross3 t r 2 = 0 := by
      simp [cross3]; ring
    rw [Fin.sum_univ_three]
    simp only [a]
    rw [← zero_div (norm3 (cross3 t r)), ← e]
    ring
  obtain ⟨h1, h2⟩ := rotation_eq_rodr R hR hdet t a htR htt haa hta
  unfold rotationAngle
  simp only
  change ∃ φ, phival (∑ i, a i * R.mulVec a i) (∑ i, R.mulVec a i * cross3 t a i) = .ok φ ∧ _
  generalize (∑ i, a i * R.mulVec a i) = c at *
  generalize (∑ i, R.mulVec a i * cross3 t a i) = s at *
  have htr : (R 0 0 + R 1 1 + R 2 2 - 1) / 2 = c := by
    rw [Fin.sum_univ_three] at htt
    rw [h2]
    simp [rodr]
    linear_combination ((1 - c) / 2) * htt
  rw [htr] at hc hs
  have hs' : s = 0 ∨ (1e-16 : ℝ) < |s| := by
    rcases hs with hs | hs
    · left
      have : s ^ 2 = 0 := by linarith
      exact pow_eq_zero_iff (two_ne_zero) |>.1 this
    · right
      apply lt_of_pow_lt_pow_left₀ 2 (abs_nonneg s)
      rw [sq_abs]
      have : ((1e-16 : ℝ)) ^ 2 = 1e-32 := by norm_num
      rw [this]
      linarith
  obtain ⟨φ, p1, p2, p3, p4, p5⟩ := c52_exact c s hc hs'
  refine ⟨φ, p1, p2, p3, ?_⟩
  rw [h1, Real.sqrt_one, one_mul] at p4 p5
  rw [h2, rotationMatrix_eq, ht, div_one, div_one, div_one, ← p4, ← p5]

/-- A quarter turn about z meets the hypotheses. -/
example : let R : Mat := !![0, -1, 0; 1, 0, 0; 0, 0, 1]
    Rᵀ * R = 1 ∧ R.det = 1 ∧ R.mulVec ![0, 0, 1] = ![0, 0, 1] ∧ norm3 ![0, 0, 1] = 1 ∧
      (R 0 0 + R 1 1 + R 2 2 - 1) / 2 = 0 := by
  refine ⟨?_, ?_, ?_, ?_, ?_⟩
  · ext i j; fin_cases i <;> fin_cases j <;> simp [Matrix.mul_apply, Fin.sum_univ_three]
  · simp [Matrix.det_fin_three]
  · ext i; fin_cases i <;> simp [Matrix.vecHead, Matrix.vecTail]
  · simp [norm3]
  · simp

end Hotbit
