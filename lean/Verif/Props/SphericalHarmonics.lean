import Verif.Model.Wavefunctions
import Verif.Spec.SphericalHarmonics
import Verif.Lemmas.Legendre
import Mathlib.Tactic

/-!
# C101: the spherical harmonics of the angular momentum analysis
-/

namespace Hotbit

open Real Polynomial ComplexConjugate

theorem legendre0 : legendrePoly 0 = 1 := by
  simp [legendrePoly]

theorem legendre_of (l : ℕ) (p q : ℝ[X]) (h1 : (X ^ 2 - 1) ^ l = p)
    (h2 : derivative^[l] p = C (2 ^ l * (l.factorial : ℝ)) * q) : legendrePoly l = q := by
  rw [legendrePoly, h1, h2, ← mul_assoc, ← C_mul]
  have : (1 / (2 ^ l * (l.factorial : ℝ))) * (2 ^ l * (l.factorial : ℝ)) = 1 := by
    have := Nat.factorial_ne_zero l
    field_simp
  rw [this]; simp

theorem legendre1 : legendrePoly 1 = X := by
  refine legendre_of 1 (X ^ 2 - 1) _ (by ring) ?_
  simp [Nat.factorial]
  apply Polynomial.funext; intro x
  norm_num

theorem legendre2 : legendrePoly 2 = C (3/2) * X ^ 2 + C (-1/2) * X ^ 0 := by
  refine legendre_of 2 (C (1) * X ^ 4 + C (-2) * X ^ 2 + C (1) * X ^ 0) _ ?_ ?_
  · apply Polynomial.funext; intro x
    simp only [eval_add, eval_mul, eval_C, eval_pow, eval_X, eval_sub, eval_one]
    ring
  · simp only [iterate_map_add, iterate_derivative_C_mul, iterate_derivative_X_pow_eq_C_mul]
    apply Polynomial.funext; intro x
    simp only [eval_add, eval_mul, eval_C, eval_pow, eval_X, Nat.descFactorial_succ, Nat.descFactorial_zero, Nat.factorial]
    norm_num
    try ring

theorem legendre3 : legendrePoly 3 = C (5/2) * X ^ 3 + C (-3/2) * X ^ 1 := by
  refine legendre_of 3 (C (1) * X ^ 6 + C (-3) * X ^ 4 + C (3) * X ^ 2 + C (-1) * X ^ 0) _ ?_ ?_
  · apply Polynomial.funext; intro x
    simp only [eval_add, eval_mul, eval_C, eval_pow, eval_X, eval_sub, eval_one]
    ring
  · simp only [iterate_map_add, iterate_derivative_C_mul, iterate_derivative_X_pow_eq_C_mul]
    apply Polynomial.funext; intro x
    simp only [eval_add, eval_mul, eval_C, eval_pow, eval_X, Nat.descFactorial_succ, Nat.descFactorial_zero, Nat.factorial]
    norm_num
    try ring

theorem legendre4 : legendrePoly 4 = C (35/8) * X ^ 4 + C (-15/4) * X ^ 2 + C (3/8) * X ^ 0 := by
  refine legendre_of 4 (C (1) * X ^ 8 + C (-4) * X ^ 6 + C (6) * X ^ 4 + C (-4) * X ^ 2 + C (1) * X ^ 0) _ ?_ ?_
  · apply Polynomial.funext; intro x
    simp only [eval_add, eval_mul, eval_C, eval_pow, eval_X, eval_sub, eval_one]
    ring
  · simp only [iterate_map_add, iterate_derivative_C_mul, iterate_derivative_X_pow_eq_C_mul]
    apply Polynomial.funext; intro x
    simp only [eval_add, eval_mul, eval_C, eval_pow, eval_X, Nat.descFactorial_succ, Nat.descFactorial_zero, Nat.factorial]
    norm_num
    try ring

theorem legendre5 : legendrePoly 5 = C (63/8) * X ^ 5 + C (-35/4) * X ^ 3 + C (15/8) * X ^ 1 := by
  refine legendre_of 5 (C (1) * X ^ 10 + C (-5) * X ^ 8 + C (10) * X ^ 6 + C (-10) * X ^ 4 + C (5) * X ^ 2 + C (-1) * X ^ 0) _ ?_ ?_
  · apply Polynomial.funext; intro x
    simp only [eval_add, eval_mul, eval_C, eval_pow, eval_X, eval_sub, eval_one]
    ring
  · simp only [iterate_map_add, iterate_derivative_C_mul, iterate_derivative_X_pow_eq_C_mul]
    apply Polynomial.funext; intro x
    simp only [eval_add, eval_mul, eval_C, eval_pow, eval_X, Nat.descFactorial_succ, Nat.descFactorial_zero, Nat.factorial]
    norm_num
    try ring

theorem legendre6 : legendrePoly 6 = C (231/16) * X ^ 6 + C (-315/16) * X ^ 4 + C (105/16) * X ^ 2 + C (-5/16) * X ^ 0 := by
  refine legendre_of 6 (C (1) * X ^ 12 + C (-6) * X ^ 10 + C (15) * X ^ 8 + C (-20) * X ^ 6 + C (15) * X ^ 4 + C (-6) * X ^ 2 + C (1) * X ^ 0) _ ?_ ?_
  · apply Polynomial.funext; intro x
    simp only [eval_add, eval_mul, eval_C, eval_pow, eval_X, eval_sub, eval_one]
    ring
  · simp only [iterate_map_add, iterate_derivative_C_mul, iterate_derivative_X_pow_eq_C_mul]
    apply Polynomial.funext; intro x
    simp only [eval_add, eval_mul, eval_C, eval_pow, eval_X, Nat.descFactorial_succ, Nat.descFactorial_zero, Nat.factorial]
    norm_num
    try ring


/-- A spherical harmonic from its square root `√spec = k √b` and the polynomial `g q`. -/
theorem harm_of (l m : ℕ) (k g A b : ℝ) (q : ℝ → ℝ) (hk : 0 ≤ k) (hA : A = k * g)
    (hb : (2 * l + 1) / (4 * π) * ((l - m).factorial / (l + m).factorial) = k ^ 2 * b)
    (hq : ∀ c, (derivative^[m] (legendrePoly l)).eval c = g * q c) (θ φ : ℝ) :
    harmonicNonneg l m θ φ = re ((-1) ^ m * (A * √b) * (sin θ ^ m * q (cos θ))) * phase m φ := by
  unfold harmonicNonneg legendreAssoc phase re
  rw [hb, Real.sqrt_mul (by positivity), Real.sqrt_sq hk, hq, hA]
  congr 1
  · congr 1; ring
  · congr 1; push_cast; ring

theorem harm_0_0 (θ φ : ℝ) : harmonicNonneg 0 0 θ φ =
    re ((-1) ^ 0 * (1/2 * √(1 / π)) * (sin θ ^ 0 * (fun c => 1) (cos θ))) * phase 0 φ := by
  refine harm_of 0 0 (1/2) (1) (1/2) (1 / π) (fun c => 1) (by norm_num) (by norm_num) ?_ (fun c => ?_) θ φ
  · have := pi_pos.ne'
    norm_num [Nat.factorial]
    try (field_simp; try norm_num)
  · rw [legendre0]
    simp only [iterate_map_add, iterate_derivative_C_mul, iterate_derivative_X_pow_eq_C_mul, Function.iterate_succ, Function.iterate_zero,
      Function.comp, id, derivative_X, derivative_one]
    simp only [eval_add, eval_mul, eval_C, eval_pow, eval_X, eval_one, Nat.descFactorial_succ, Nat.descFactorial_zero]
    norm_num
    try ring

theorem harm_1_0 (θ φ : ℝ) : harmonicNonneg 1 0 θ φ =
    re ((-1) ^ 0 * (1/2 * √(3 / π)) * (sin θ ^ 0 * (fun c => c) (cos θ))) * phase 0 φ := by
  refine harm_of 1 0 (1/2) (1) (1/2) (3 / π) (fun c => c) (by norm_num) (by norm_num) ?_ (fun c => ?_) θ φ
  · have := pi_pos.ne'
    norm_num [Nat.factorial]
    try (field_simp; try norm_num)
  · rw [legendre1]
    simp only [iterate_map_add, iterate_derivative_C_mul, iterate_derivative_X_pow_eq_C_mul, Function.iterate_succ, Function.iterate_zero,
      Function.comp, id, derivative_X, derivative_one]
    simp only [eval_add, eval_mul, eval_C, eval_pow, eval_X, eval_one, Nat.descFactorial_succ, Nat.descFactorial_zero]
    norm_num
    try ring

theorem harm_1_1 (θ φ : ℝ) : harmonicNonneg 1 1 θ φ =
    re ((-1) ^ 1 * (1/2 * √(3 / (2 * π))) * (sin θ ^ 1 * (fun c => 1) (cos θ))) * phase 1 φ := by
  refine harm_of 1 1 (1/2) (1) (1/2) (3 / (2 * π)) (fun c => 1) (by norm_num) (by norm_num) ?_ (fun c => ?_) θ φ
  · have := pi_pos.ne'
    norm_num [Nat.factorial]
    try (field_simp; try norm_num)
  · rw [legendre1]
    simp only [iterate_map_add, iterate_derivative_C_mul, iterate_derivative_X_pow_eq_C_mul, Function.iterate_succ, Function.iterate_zero,
      Function.comp, id, derivative_X, derivative_one]
    simp only [eval_add, eval_mul, eval_C, eval_pow, eval_X, eval_one, Nat.descFactorial_succ, Nat.descFactorial_zero]
    norm_num
    try ring

theorem harm_2_0 (θ φ : ℝ) : harmonicNonneg 2 0 θ φ =
    re ((-1) ^ 0 * (1/4 * √(5 / π)) * (sin θ ^ 0 * (fun c => 3 * c ^ 2 - 1) (cos θ))) * phase 0 φ := by
  refine harm_of 2 0 (1/2) (1/2) (1/4) (5 / π) (fun c => 3 * c ^ 2 - 1) (by norm_num) (by norm_num) ?_ (fun c => ?_) θ φ
  · have := pi_pos.ne'
    norm_num [Nat.factorial]
    try (field_simp; try norm_num)
  · rw [legendre2]
    simp only [iterate_map_add, iterate_derivative_C_mul, iterate_derivative_X_pow_eq_C_mul, Function.iterate_succ, Function.iterate_zero,
      Function.comp, id, derivative_X, derivative_one]
    simp only [eval_add, eval_mul, eval_C, eval_pow, eval_X, eval_one, Nat.descFactorial_succ, Nat.descFactorial_zero]
    norm_num
    try ring

theorem harm_2_1 (θ φ : ℝ) : harmonicNonneg 2 1 θ φ =
    re ((-1) ^ 1 * (1/2 * √(15 / (2 * π))) * (sin θ ^ 1 * (fun c => c) (cos θ))) * phase 1 φ := by
  refine harm_of 2 1 (1/6) (3) (1/2) (15 / (2 * π)) (fun c => c) (by norm_num) (by norm_num) ?_ (fun c => ?_) θ φ
  · have := pi_pos.ne'
    norm_num [Nat.factorial]
    try (field_simp; try norm_num)
  · rw [legendre2]
    simp only [iterate_map_add, iterate_derivative_C_mul, iterate_derivative_X_pow_eq_C_mul, Function.iterate_succ, Function.iterate_zero,
      Function.comp, id, derivative_X, derivative_one]
    simp only [eval_add, eval_mul, eval_C, eval_pow, eval_X, eval_one, Nat.descFactorial_succ, Nat.descFactorial_zero]
    norm_num
    try ring

theorem harm_2_2 (θ φ : ℝ) : harmonicNonneg 2 2 θ φ =
    re ((-1) ^ 2 * (1/4 * √(15 / (2 * π))) * (sin θ ^ 2 * (fun c => 1) (cos θ))) * phase 2 φ := by
  refine harm_of 2 2 (1/12) (3) (1/4) (15 / (2 * π)) (fun c => 1) (by norm_num) (by norm_num) ?_ (fun c => ?_) θ φ
  · have := pi_pos.ne'
    norm_num [Nat.factorial]
    try (field_simp; try norm_num)
  · rw [legendre2]
    simp only [iterate_map_add, iterate_derivative_C_mul, iterate_derivative_X_pow_eq_C_mul, Function.iterate_succ, Function.iterate_zero,
      Function.comp, id, derivative_X, derivative_one]
    simp only [eval_add, eval_mul, eval_C, eval_pow, eval_X, eval_one, Nat.descFactorial_succ, Nat.descFactorial_zero]
    norm_num
    try ring

theorem harm_3_0 (θ φ : ℝ) : harmonicNonneg 3 0 θ φ =
    re ((-1) ^ 0 * (1/4 * √(7 / π)) * (sin θ ^ 0 * (fun c => 5 * c ^ 3 - 3 * c) (cos θ))) * phase 0 φ := by
  refine harm_of 3 0 (1/2) (1/2) (1/4) (7 / π) (fun c => 5 * c ^ 3 - 3 * c) (by norm_num) (by norm_num) ?_ (fun c => ?_) θ φ
  · have := pi_pos.ne'
    norm_num [Nat.factorial]
    try (field_simp; try norm_num)
  · rw [legendre3]
    simp only [iterate_map_add, iterate_derivative_C_mul, iterate_derivative_X_pow_eq_C_mul, Function.iterate_succ, Function.iterate_zero,
      Function.comp, id, derivative_X, derivative_one]
    simp only [eval_add, eval_mul, eval_C, eval_pow, eval_X, eval_one, Nat.descFactorial_succ, Nat.descFactorial_zero]
    norm_num
    try ring

theorem harm_3_1 (θ φ : ℝ) : harmonicNonneg 3 1 θ φ =
    re ((-1) ^ 1 * (1/8 * √(21 / π)) * (sin θ ^ 1 * (fun c => 5 * c ^ 2 - 1) (cos θ))) * phase 1 φ := by
  refine harm_of 3 1 (1/12) (3/2) (1/8) (21 / π) (fun c => 5 * c ^ 2 - 1) (by norm_num) (by norm_num) ?_ (fun c => ?_) θ φ
  · have := pi_pos.ne'
    norm_num [Nat.factorial]
    try (field_simp; try norm_num)
  · rw [legendre3]
    simp only [iterate_map_add, iterate_derivative_C_mul, iterate_derivative_X_pow_eq_C_mul, Function.iterate_succ, Function.iterate_zero,
      Function.comp, id, derivative_X, derivative_one]
    simp only [eval_add, eval_mul, eval_C, eval_pow, eval_X, eval_one, Nat.descFactorial_succ, Nat.descFactorial_zero]
    norm_num
    try ring

theorem harm_3_2 (θ φ : ℝ) : harmonicNonneg 3 2 θ φ =
    re ((-1) ^ 2 * (1/4 * √(105 / (2 * π))) * (sin θ ^ 2 * (fun c => c) (cos θ))) * phase 2 φ := by
  refine harm_of 3 2 (1/60) (15) (1/4) (105 / (2 * π)) (fun c => c) (by norm_num) (by norm_num) ?_ (fun c => ?_) θ φ
  · have := pi_pos.ne'
    norm_num [Nat.factorial]
    try (field_simp; try norm_num)
  · rw [legendre3]
    simp only [iterate_map_add, iterate_derivative_C_mul, iterate_derivative_X_pow_eq_C_mul, Function.iterate_succ, Function.iterate_zero,
      Function.comp, id, derivative_X, derivative_one]
    simp only [eval_add, eval_mul, eval_C, eval_pow, eval_X, eval_one, Nat.descFactorial_succ, Nat.descFactorial_zero]
    norm_num
    try ring

theorem harm_3_3 (θ φ : ℝ) : harmonicNonneg 3 3 θ φ =
    re ((-1) ^ 3 * (1/8 * √(35 / π)) * (sin θ ^ 3 * (fun c => 1) (cos θ))) * phase 3 φ := by
  refine harm_of 3 3 (1/120) (15) (1/8) (35 / π) (fun c => 1) (by norm_num) (by norm_num) ?_ (fun c => ?_) θ φ
  · have := pi_pos.ne'
    norm_num [Nat.factorial]
    try (field_simp; try norm_num)
  · rw [legendre3]
    simp only [iterate_map_add, iterate_derivative_C_mul, iterate_derivative_X_pow_eq_C_mul, Function.iterate_succ, Function.iterate_zero,
      Function.comp, id, derivative_X, derivative_one]
    simp only [eval_add, eval_mul, eval_C, eval_pow, eval_X, eval_one, Nat.descFactorial_succ, Nat.descFactorial_zero]
    norm_num
    try ring

theorem harm_4_0 (θ φ : ℝ) : harmonicNonneg 4 0 θ φ =
    re ((-1) ^ 0 * (3/16 * √(1 / π)) * (sin θ ^ 0 * (fun c => 35 * c ^ 4 - 30 * c ^ 2 + 3) (cos θ))) * phase 0 φ := by
  refine harm_of 4 0 (3/2) (1/8) (3/16) (1 / π) (fun c => 35 * c ^ 4 - 30 * c ^ 2 + 3) (by norm_num) (by norm_num) ?_ (fun c => ?_) θ φ
  · have := pi_pos.ne'
    norm_num [Nat.factorial]
    try (field_simp; try norm_num)
  · rw [legendre4]
    simp only [iterate_map_add, iterate_derivative_C_mul, iterate_derivative_X_pow_eq_C_mul, Function.iterate_succ, Function.iterate_zero,
      Function.comp, id, derivative_X, derivative_one]
    simp only [eval_add, eval_mul, eval_C, eval_pow, eval_X, eval_one, Nat.descFactorial_succ, Nat.descFactorial_zero]
    norm_num
    try ring

theorem harm_4_1 (θ φ : ℝ) : harmonicNonneg 4 1 θ φ =
    re ((-1) ^ 1 * (3/8 * √(5 / π)) * (sin θ ^ 1 * (fun c => 7 * c ^ 3 - 3 * c) (cos θ))) * phase 1 φ := by
  refine harm_of 4 1 (3/20) (5/2) (3/8) (5 / π) (fun c => 7 * c ^ 3 - 3 * c) (by norm_num) (by norm_num) ?_ (fun c => ?_) θ φ
  · have := pi_pos.ne'
    norm_num [Nat.factorial]
    try (field_simp; try norm_num)
  · rw [legendre4]
    simp only [iterate_map_add, iterate_derivative_C_mul, iterate_derivative_X_pow_eq_C_mul, Function.iterate_succ, Function.iterate_zero,
      Function.comp, id, derivative_X, derivative_one]
    simp only [eval_add, eval_mul, eval_C, eval_pow, eval_X, eval_one, Nat.descFactorial_succ, Nat.descFactorial_zero]
    norm_num
    try ring

theorem harm_4_2 (θ φ : ℝ) : harmonicNonneg 4 2 θ φ =
    re ((-1) ^ 2 * (3/8 * √(5 / (2 * π))) * (sin θ ^ 2 * (fun c => 7 * c ^ 2 - 1) (cos θ))) * phase 2 φ := by
  refine harm_of 4 2 (1/20) (15/2) (3/8) (5 / (2 * π)) (fun c => 7 * c ^ 2 - 1) (by norm_num) (by norm_num) ?_ (fun c => ?_) θ φ
  · have := pi_pos.ne'
    norm_num [Nat.factorial]
    try (field_simp; try norm_num)
  · rw [legendre4]
    simp only [iterate_map_add, iterate_derivative_C_mul, iterate_derivative_X_pow_eq_C_mul, Function.iterate_succ, Function.iterate_zero,
      Function.comp, id, derivative_X, derivative_one]
    simp only [eval_add, eval_mul, eval_C, eval_pow, eval_X, eval_one, Nat.descFactorial_succ, Nat.descFactorial_zero]
    norm_num
    try ring

theorem harm_4_3 (θ φ : ℝ) : harmonicNonneg 4 3 θ φ =
    re ((-1) ^ 3 * (3/8 * √(35 / π)) * (sin θ ^ 3 * (fun c => c) (cos θ))) * phase 3 φ := by
  refine harm_of 4 3 (1/280) (105) (3/8) (35 / π) (fun c => c) (by norm_num) (by norm_num) ?_ (fun c => ?_) θ φ
  · have := pi_pos.ne'
    norm_num [Nat.factorial]
    try (field_simp; try norm_num)
  · rw [legendre4]
    simp only [iterate_map_add, iterate_derivative_C_mul, iterate_derivative_X_pow_eq_C_mul, Function.iterate_succ, Function.iterate_zero,
      Function.comp, id, derivative_X, derivative_one]
    simp only [eval_add, eval_mul, eval_C, eval_pow, eval_X, eval_one, Nat.descFactorial_succ, Nat.descFactorial_zero]
    norm_num
    try ring

theorem harm_4_4 (θ φ : ℝ) : harmonicNonneg 4 4 θ φ =
    re ((-1) ^ 4 * (3/16 * √(35 / (2 * π))) * (sin θ ^ 4 * (fun c => 1) (cos θ))) * phase 4 φ := by
  refine harm_of 4 4 (1/560) (105) (3/16) (35 / (2 * π)) (fun c => 1) (by norm_num) (by norm_num) ?_ (fun c => ?_) θ φ
  · have := pi_pos.ne'
    norm_num [Nat.factorial]
    try (field_simp; try norm_num)
  · rw [legendre4]
    simp only [iterate_map_add, iterate_derivative_C_mul, iterate_derivative_X_pow_eq_C_mul, Function.iterate_succ, Function.iterate_zero,
      Function.comp, id, derivative_X, derivative_one]
    simp only [eval_add, eval_mul, eval_C, eval_pow, eval_X, eval_one, Nat.descFactorial_succ, Nat.descFactorial_zero]
    norm_num
    try ring

theorem harm_5_0 (θ φ : ℝ) : harmonicNonneg 5 0 θ φ =
    re ((-1) ^ 0 * (1/16 * √(11 / π)) * (sin θ ^ 0 * (fun c => 63 * c ^ 5 - 70 * c ^ 3 + 15 * c) (cos θ))) * phase 0 φ := by
  refine harm_of 5 0 (1/2) (1/8) (1/16) (11 / π) (fun c => 63 * c ^ 5 - 70 * c ^ 3 + 15 * c) (by norm_num) (by norm_num) ?_ (fun c => ?_) θ φ
  · have := pi_pos.ne'
    norm_num [Nat.factorial]
    try (field_simp; try norm_num)
  · rw [legendre5]
    simp only [iterate_map_add, iterate_derivative_C_mul, iterate_derivative_X_pow_eq_C_mul, Function.iterate_succ, Function.iterate_zero,
      Function.comp, id, derivative_X, derivative_one]
    simp only [eval_add, eval_mul, eval_C, eval_pow, eval_X, eval_one, Nat.descFactorial_succ, Nat.descFactorial_zero]
    norm_num
    try ring

theorem harm_5_1 (θ φ : ℝ) : harmonicNonneg 5 1 θ φ =
    re ((-1) ^ 1 * (1/16 * √(165 / (2 * π))) * (sin θ ^ 1 * (fun c => 21 * c ^ 4 - 14 * c ^ 2 + 1) (cos θ))) * phase 1 φ := by
  refine harm_of 5 1 (1/30) (15/8) (1/16) (165 / (2 * π)) (fun c => 21 * c ^ 4 - 14 * c ^ 2 + 1) (by norm_num) (by norm_num) ?_ (fun c => ?_) θ φ
  · have := pi_pos.ne'
    norm_num [Nat.factorial]
    try (field_simp; try norm_num)
  · rw [legendre5]
    simp only [iterate_map_add, iterate_derivative_C_mul, iterate_derivative_X_pow_eq_C_mul, Function.iterate_succ, Function.iterate_zero,
      Function.comp, id, derivative_X, derivative_one]
    simp only [eval_add, eval_mul, eval_C, eval_pow, eval_X, eval_one, Nat.descFactorial_succ, Nat.descFactorial_zero]
    norm_num
    try ring

theorem harm_5_2 (θ φ : ℝ) : harmonicNonneg 5 2 θ φ =
    re ((-1) ^ 2 * (1/8 * √(1155 / (2 * π))) * (sin θ ^ 2 * (fun c => 3 * c ^ 3 - c) (cos θ))) * phase 2 φ := by
  refine harm_of 5 2 (1/420) (105/2) (1/8) (1155 / (2 * π)) (fun c => 3 * c ^ 3 - c) (by norm_num) (by norm_num) ?_ (fun c => ?_) θ φ
  · have := pi_pos.ne'
    norm_num [Nat.factorial]
    try (field_simp; try norm_num)
  · rw [legendre5]
    simp only [iterate_map_add, iterate_derivative_C_mul, iterate_derivative_X_pow_eq_C_mul, Function.iterate_succ, Function.iterate_zero,
      Function.comp, id, derivative_X, derivative_one]
    simp only [eval_add, eval_mul, eval_C, eval_pow, eval_X, eval_one, Nat.descFactorial_succ, Nat.descFactorial_zero]
    norm_num
    try ring

theorem harm_5_3 (θ φ : ℝ) : harmonicNonneg 5 3 θ φ =
    re ((-1) ^ 3 * (1/32 * √(385 / π)) * (sin θ ^ 3 * (fun c => 9 * c ^ 2 - 1) (cos θ))) * phase 3 φ := by
  refine harm_of 5 3 (1/1680) (105/2) (1/32) (385 / π) (fun c => 9 * c ^ 2 - 1) (by norm_num) (by norm_num) ?_ (fun c => ?_) θ φ
  · have := pi_pos.ne'
    norm_num [Nat.factorial]
    try (field_simp; try norm_num)
  · rw [legendre5]
    simp only [iterate_map_add, iterate_derivative_C_mul, iterate_derivative_X_pow_eq_C_mul, Function.iterate_succ, Function.iterate_zero,
      Function.comp, id, derivative_X, derivative_one]
    simp only [eval_add, eval_mul, eval_C, eval_pow, eval_X, eval_one, Nat.descFactorial_succ, Nat.descFactorial_zero]
    norm_num
    try ring

theorem harm_5_4 (θ φ : ℝ) : harmonicNonneg 5 4 θ φ =
    re ((-1) ^ 4 * (3/16 * √(385 / (2 * π))) * (sin θ ^ 4 * (fun c => c) (cos θ))) * phase 4 φ := by
  refine harm_of 5 4 (1/5040) (945) (3/16) (385 / (2 * π)) (fun c => c) (by norm_num) (by norm_num) ?_ (fun c => ?_) θ φ
  · have := pi_pos.ne'
    norm_num [Nat.factorial]
    try (field_simp; try norm_num)
  · rw [legendre5]
    simp only [iterate_map_add, iterate_derivative_C_mul, iterate_derivative_X_pow_eq_C_mul, Function.iterate_succ, Function.iterate_zero,
      Function.comp, id, derivative_X, derivative_one]
    simp only [eval_add, eval_mul, eval_C, eval_pow, eval_X, eval_one, Nat.descFactorial_succ, Nat.descFactorial_zero]
    norm_num
    try ring

theorem harm_5_5 (θ φ : ℝ) : harmonicNonneg 5 5 θ φ =
    re ((-1) ^ 5 * (3/32 * √(77 / π)) * (sin θ ^ 5 * (fun c => 1) (cos θ))) * phase 5 φ := by
  refine harm_of 5 5 (1/10080) (945) (3/32) (77 / π) (fun c => 1) (by norm_num) (by norm_num) ?_ (fun c => ?_) θ φ
  · have := pi_pos.ne'
    norm_num [Nat.factorial]
    try (field_simp; try norm_num)
  · rw [legendre5]
    simp only [iterate_map_add, iterate_derivative_C_mul, iterate_derivative_X_pow_eq_C_mul, Function.iterate_succ, Function.iterate_zero,
      Function.comp, id, derivative_X, derivative_one]
    simp only [eval_add, eval_mul, eval_C, eval_pow, eval_X, eval_one, Nat.descFactorial_succ, Nat.descFactorial_zero]
    norm_num
    try ring

theorem harm_6_0 (θ φ : ℝ) : harmonicNonneg 6 0 θ φ =
    re ((-1) ^ 0 * (1/32 * √(13 / π)) * (sin θ ^ 0 * (fun c => 231 * c ^ 6 - 315 * c ^ 4 + 105 * c ^ 2 - 5) (cos θ))) * phase 0 φ := by
  refine harm_of 6 0 (1/2) (1/16) (1/32) (13 / π) (fun c => 231 * c ^ 6 - 315 * c ^ 4 + 105 * c ^ 2 - 5) (by norm_num) (by norm_num) ?_ (fun c => ?_) θ φ
  · have := pi_pos.ne'
    norm_num [Nat.factorial]
    try (field_simp; try norm_num)
  · rw [legendre6]
    simp only [iterate_map_add, iterate_derivative_C_mul, iterate_derivative_X_pow_eq_C_mul, Function.iterate_succ, Function.iterate_zero,
      Function.comp, id, derivative_X, derivative_one]
    simp only [eval_add, eval_mul, eval_C, eval_pow, eval_X, eval_one, Nat.descFactorial_succ, Nat.descFactorial_zero]
    norm_num
    try ring

theorem harm_6_1 (θ φ : ℝ) : harmonicNonneg 6 1 θ φ =
    re ((-1) ^ 1 * (1/16 * √(273 / (2 * π))) * (sin θ ^ 1 * (fun c => 33 * c ^ 5 - 30 * c ^ 3 + 5 * c) (cos θ))) * phase 1 φ := by
  refine harm_of 6 1 (1/42) (21/8) (1/16) (273 / (2 * π)) (fun c => 33 * c ^ 5 - 30 * c ^ 3 + 5 * c) (by norm_num) (by norm_num) ?_ (fun c => ?_) θ φ
  · have := pi_pos.ne'
    norm_num [Nat.factorial]
    try (field_simp; try norm_num)
  · rw [legendre6]
    simp only [iterate_map_add, iterate_derivative_C_mul, iterate_derivative_X_pow_eq_C_mul, Function.iterate_succ, Function.iterate_zero,
      Function.comp, id, derivative_X, derivative_one]
    simp only [eval_add, eval_mul, eval_C, eval_pow, eval_X, eval_one, Nat.descFactorial_succ, Nat.descFactorial_zero]
    norm_num
    try ring

theorem harm_6_2 (θ φ : ℝ) : harmonicNonneg 6 2 θ φ =
    re ((-1) ^ 2 * (1/64 * √(1365 / π)) * (sin θ ^ 2 * (fun c => 33 * c ^ 4 - 18 * c ^ 2 + 1) (cos θ))) * phase 2 φ := by
  refine harm_of 6 2 (1/840) (105/8) (1/64) (1365 / π) (fun c => 33 * c ^ 4 - 18 * c ^ 2 + 1) (by norm_num) (by norm_num) ?_ (fun c => ?_) θ φ
  · have := pi_pos.ne'
    norm_num [Nat.factorial]
    try (field_simp; try norm_num)
  · rw [legendre6]
    simp only [iterate_map_add, iterate_derivative_C_mul, iterate_derivative_X_pow_eq_C_mul, Function.iterate_succ, Function.iterate_zero,
      Function.comp, id, derivative_X, derivative_one]
    simp only [eval_add, eval_mul, eval_C, eval_pow, eval_X, eval_one, Nat.descFactorial_succ, Nat.descFactorial_zero]
    norm_num
    try ring

theorem harm_6_3 (θ φ : ℝ) : harmonicNonneg 6 3 θ φ =
    re ((-1) ^ 3 * (1/32 * √(1365 / π)) * (sin θ ^ 3 * (fun c => 11 * c ^ 3 - 3 * c) (cos θ))) * phase 3 φ := by
  refine harm_of 6 3 (1/5040) (315/2) (1/32) (1365 / π) (fun c => 11 * c ^ 3 - 3 * c) (by norm_num) (by norm_num) ?_ (fun c => ?_) θ φ
  · have := pi_pos.ne'
    norm_num [Nat.factorial]
    try (field_simp; try norm_num)
  · rw [legendre6]
    simp only [iterate_map_add, iterate_derivative_C_mul, iterate_derivative_X_pow_eq_C_mul, Function.iterate_succ, Function.iterate_zero,
      Function.comp, id, derivative_X, derivative_one]
    simp only [eval_add, eval_mul, eval_C, eval_pow, eval_X, eval_one, Nat.descFactorial_succ, Nat.descFactorial_zero]
    norm_num
    try ring

theorem harm_6_4 (θ φ : ℝ) : harmonicNonneg 6 4 θ φ =
    re ((-1) ^ 4 * (3/32 * √(91 / (2 * π))) * (sin θ ^ 4 * (fun c => 11 * c ^ 2 - 1) (cos θ))) * phase 4 φ := by
  refine harm_of 6 4 (1/5040) (945/2) (3/32) (91 / (2 * π)) (fun c => 11 * c ^ 2 - 1) (by norm_num) (by norm_num) ?_ (fun c => ?_) θ φ
  · have := pi_pos.ne'
    norm_num [Nat.factorial]
    try (field_simp; try norm_num)
  · rw [legendre6]
    simp only [iterate_map_add, iterate_derivative_C_mul, iterate_derivative_X_pow_eq_C_mul, Function.iterate_succ, Function.iterate_zero,
      Function.comp, id, derivative_X, derivative_one]
    simp only [eval_add, eval_mul, eval_C, eval_pow, eval_X, eval_one, Nat.descFactorial_succ, Nat.descFactorial_zero]
    norm_num
    try ring

theorem harm_6_5 (θ φ : ℝ) : harmonicNonneg 6 5 θ φ =
    re ((-1) ^ 5 * (3/32 * √(1001 / π)) * (sin θ ^ 5 * (fun c => c) (cos θ))) * phase 5 φ := by
  refine harm_of 6 5 (1/110880) (10395) (3/32) (1001 / π) (fun c => c) (by norm_num) (by norm_num) ?_ (fun c => ?_) θ φ
  · have := pi_pos.ne'
    norm_num [Nat.factorial]
    try (field_simp; try norm_num)
  · rw [legendre6]
    simp only [iterate_map_add, iterate_derivative_C_mul, iterate_derivative_X_pow_eq_C_mul, Function.iterate_succ, Function.iterate_zero,
      Function.comp, id, derivative_X, derivative_one]
    simp only [eval_add, eval_mul, eval_C, eval_pow, eval_X, eval_one, Nat.descFactorial_succ, Nat.descFactorial_zero]
    norm_num
    try ring

theorem harm_6_6 (θ φ : ℝ) : harmonicNonneg 6 6 θ φ =
    re ((-1) ^ 6 * (1/64 * √(3003 / π)) * (sin θ ^ 6 * (fun c => 1) (cos θ))) * phase 6 φ := by
  refine harm_of 6 6 (1/665280) (10395) (1/64) (3003 / π) (fun c => 1) (by norm_num) (by norm_num) ?_ (fun c => ?_) θ φ
  · have := pi_pos.ne'
    norm_num [Nat.factorial]
    try (field_simp; try norm_num)
  · rw [legendre6]
    simp only [iterate_map_add, iterate_derivative_C_mul, iterate_derivative_X_pow_eq_C_mul, Function.iterate_succ, Function.iterate_zero,
      Function.comp, id, derivative_X, derivative_one]
    simp only [eval_add, eval_mul, eval_C, eval_pow, eval_X, eval_one, Nat.descFactorial_succ, Nat.descFactorial_zero]
    norm_num
    try ring


theorem phase_conj (m : ℤ) (φ : ℝ) : conj (phase m φ) = phase (-m) φ := by
  unfold phase
  rw [← Complex.exp_conj]
  congr 1
  simp

theorem harmonic_nonneg (l m : ℕ) (θ φ : ℝ) : harmonic l (m : ℤ) θ φ = harmonicNonneg l m θ φ := by
  simp [harmonic]

theorem harmonic_neg (l m : ℕ) (hm : 0 < m) (θ φ : ℝ) :
    harmonic l (-(m : ℤ)) θ φ = (-1) ^ m * conj (harmonicNonneg l m θ φ) := by
  have : ¬ (0 ≤ -(m : ℤ)) := by omega
  unfold harmonic
  rw [if_neg this]
  simp

/-- C101: for every `l ≤ 6` and `|m| ≤ l` the function returned is the spherical harmonic of textbooks, at every angle. -/
theorem c101_ylm (l : ℕ) (m : ℤ) (hl : l ≤ 6) (hm : |m| ≤ l) :
    ∃ f, Ylm l m = .ok f ∧ ∀ θ φ, f θ φ = harmonic l m θ φ := by
  obtain ⟨h1, h2⟩ := abs_le.1 hm
  interval_cases l
  · interval_cases m
    · refine ⟨_, rfl, fun θ φ => ?_⟩
      rw [show (0 : ℤ) = ((0 : ℕ) : ℤ) from rfl, harmonic_nonneg, harm_0_0]
      simp [phase]
      try norm_num
      try ring
  · interval_cases m
    · refine ⟨_, rfl, fun θ φ => ?_⟩
      rw [show (-1 : ℤ) = -((1 : ℕ) : ℤ) from rfl, harmonic_neg _ _ (by norm_num), harm_1_1]
      simp only [map_mul, Complex.conj_ofReal, phase_conj]
      push_cast
      norm_num
      try ring
    · refine ⟨_, rfl, fun θ φ => ?_⟩
      rw [show (0 : ℤ) = ((0 : ℕ) : ℤ) from rfl, harmonic_nonneg, harm_1_0]
      simp [phase]
      try norm_num
      try ring
    · refine ⟨_, rfl, fun θ φ => ?_⟩
      rw [show (1 : ℤ) = ((1 : ℕ) : ℤ) from rfl, harmonic_nonneg, harm_1_1]
      push_cast
      norm_num
      try ring
  · interval_cases m
    · refine ⟨_, rfl, fun θ φ => ?_⟩
      rw [show (-2 : ℤ) = -((2 : ℕ) : ℤ) from rfl, harmonic_neg _ _ (by norm_num), harm_2_2]
      simp only [map_mul, Complex.conj_ofReal, phase_conj]
      push_cast
      norm_num
      try ring
    · refine ⟨_, rfl, fun θ φ => ?_⟩
      rw [show (-1 : ℤ) = -((1 : ℕ) : ℤ) from rfl, harmonic_neg _ _ (by norm_num), harm_2_1]
      simp only [map_mul, Complex.conj_ofReal, phase_conj]
      push_cast
      norm_num
      try ring
    · refine ⟨_, rfl, fun θ φ => ?_⟩
      rw [show (0 : ℤ) = ((0 : ℕ) : ℤ) from rfl, harmonic_nonneg, harm_2_0]
      simp [phase]
      try norm_num
      try ring
    · refine ⟨_, rfl, fun θ φ => ?_⟩
      rw [show (1 : ℤ) = ((1 : ℕ) : ℤ) from rfl, harmonic_nonneg, harm_2_1]
      push_cast
      norm_num
      try ring
    · refine ⟨_, rfl, fun θ φ => ?_⟩
      rw [show (2 : ℤ) = ((2 : ℕ) : ℤ) from rfl, harmonic_nonneg, harm_2_2]
      push_cast
      norm_num
      try ring
  · interval_cases m
    · refine ⟨_, rfl, fun θ φ => ?_⟩
      rw [show (-3 : ℤ) = -((3 : ℕ) : ℤ) from rfl, harmonic_neg _ _ (by norm_num), harm_3_3]
      simp only [map_mul, Complex.conj_ofReal, phase_conj]
      push_cast
      norm_num
      try ring
    · refine ⟨_, rfl, fun θ φ => ?_⟩
      rw [show (-2 : ℤ) = -((2 : ℕ) : ℤ) from rfl, harmonic_neg _ _ (by norm_num), harm_3_2]
      simp only [map_mul, Complex.conj_ofReal, phase_conj]
      push_cast
      norm_num
      try ring
    · refine ⟨_, rfl, fun θ φ => ?_⟩
      rw [show (-1 : ℤ) = -((1 : ℕ) : ℤ) from rfl, harmonic_neg _ _ (by norm_num), harm_3_1]
      simp only [map_mul, Complex.conj_ofReal, phase_conj]
      push_cast
      norm_num
      try ring
    · refine ⟨_, rfl, fun θ φ => ?_⟩
      rw [show (0 : ℤ) = ((0 : ℕ) : ℤ) from rfl, harmonic_nonneg, harm_3_0]
      simp [phase]
      try norm_num
      try ring
    · refine ⟨_, rfl, fun θ φ => ?_⟩
      rw [show (1 : ℤ) = ((1 : ℕ) : ℤ) from rfl, harmonic_nonneg, harm_3_1]
      push_cast
      norm_num
      try ring
    · refine ⟨_, rfl, fun θ φ => ?_⟩
      rw [show (2 : ℤ) = ((2 : ℕ) : ℤ) from rfl, harmonic_nonneg, harm_3_2]
      push_cast
      norm_num
      try ring
    · refine ⟨_, rfl, fun θ φ => ?_⟩
      rw [show (3 : ℤ) = ((3 : ℕ) : ℤ) from rfl, harmonic_nonneg, harm_3_3]
      push_cast
      norm_num
      try ring
  · interval_cases m
    · refine ⟨_, rfl, fun θ φ => ?_⟩
      rw [show (-4 : ℤ) = -((4 : ℕ) : ℤ) from rfl, harmonic_neg _ _ (by norm_num), harm_4_4]
      simp only [map_mul, Complex.conj_ofReal, phase_conj]
      push_cast
      norm_num
      try ring
    · refine ⟨_, rfl, fun θ φ => ?_⟩
      rw [show (-3 : ℤ) = -((3 : ℕ) : ℤ) from rfl, harmonic_neg _ _ (by norm_num), harm_4_3]
      simp only [map_mul, Complex.conj_ofReal, phase_conj]
      have hs : signNeg (-((3 : ℕ) : ℤ)) = 1 := by
        unfold signNeg; rw [Int.sign_eq_one_of_pos (by norm_num)]; norm_num
      simp only [hs]
      push_cast
      norm_num
      try ring
    · refine ⟨_, rfl, fun θ φ => ?_⟩
      rw [show (-2 : ℤ) = -((2 : ℕ) : ℤ) from rfl, harmonic_neg _ _ (by norm_num), harm_4_2]
      simp only [map_mul, Complex.conj_ofReal, phase_conj]
      push_cast
      norm_num
      try ring
    · refine ⟨_, rfl, fun θ φ => ?_⟩
      rw [show (-1 : ℤ) = -((1 : ℕ) : ℤ) from rfl, harmonic_neg _ _ (by norm_num), harm_4_1]
      simp only [map_mul, Complex.conj_ofReal, phase_conj]
      have hs : signNeg (-((1 : ℕ) : ℤ)) = 1 := by
        unfold signNeg; rw [Int.sign_eq_one_of_pos (by norm_num)]; norm_num
      simp only [hs]
      push_cast
      norm_num
      try ring
    · refine ⟨_, rfl, fun θ φ => ?_⟩
      rw [show (0 : ℤ) = ((0 : ℕ) : ℤ) from rfl, harmonic_nonneg, harm_4_0]
      simp [phase]
      try norm_num
      try ring
    · refine ⟨_, rfl, fun θ φ => ?_⟩
      rw [show (1 : ℤ) = ((1 : ℕ) : ℤ) from rfl, harmonic_nonneg, harm_4_1]
      have hs : signNeg (((1 : ℕ) : ℤ)) = -1 := by
        unfold signNeg; rw [Int.sign_eq_neg_one_of_neg (by norm_num)]; norm_num
      simp only [hs]
      push_cast
      norm_num
      try ring
    · refine ⟨_, rfl, fun θ φ => ?_⟩
      rw [show (2 : ℤ) = ((2 : ℕ) : ℤ) from rfl, harmonic_nonneg, harm_4_2]
      push_cast
      norm_num
      try ring
    · refine ⟨_, rfl, fun θ φ => ?_⟩
      rw [show (3 : ℤ) = ((3 : ℕ) : ℤ) from rfl, harmonic_nonneg, harm_4_3]
      have hs : signNeg (((3 : ℕ) : ℤ)) = -1 := by
        unfold signNeg; rw [Int.sign_eq_neg_one_of_neg (by norm_num)]; norm_num
      simp only [hs]
      push_cast
      norm_num
      try ring
    · refine ⟨_, rfl, fun θ φ => ?_⟩
      rw [show (4 : ℤ) = ((4 : ℕ) : ℤ) from rfl, harmonic_nonneg, harm_4_4]
      push_cast
      norm_num
      try ring
  · interval_cases m
    · refine ⟨_, rfl, fun θ φ => ?_⟩
      rw [show (-5 : ℤ) = -((5 : ℕ) : ℤ) from rfl, harmonic_neg _ _ (by norm_num), harm_5_5]
      simp only [map_mul, Complex.conj_ofReal, phase_conj]
      have hs : signNeg (-((5 : ℕ) : ℤ)) = 1 := by
        unfold signNeg; rw [Int.sign_eq_one_of_pos (by norm_num)]; norm_num
      simp only [hs]
      push_cast
      norm_num
      try ring
    · refine ⟨_, rfl, fun θ φ => ?_⟩
      rw [show (-4 : ℤ) = -((4 : ℕ) : ℤ) from rfl, harmonic_neg _ _ (by norm_num), harm_5_4]
      simp only [map_mul, Complex.conj_ofReal, phase_conj]
      push_cast
      norm_num
      try ring
    · refine ⟨_, rfl, fun θ φ => ?_⟩
      rw [show (-3 : ℤ) = -((3 : ℕ) : ℤ) from rfl, harmonic_neg _ _ (by norm_num), harm_5_3]
      simp only [map_mul, Complex.conj_ofReal, phase_conj]
      have hs : signNeg (-((3 : ℕ) : ℤ)) = 1 := by
        unfold signNeg; rw [Int.sign_eq_one_of_pos (by norm_num)]; norm_num
      simp only [hs]
      push_cast
      norm_num
      try ring
    · refine ⟨_, rfl, fun θ φ => ?_⟩
      rw [show (-2 : ℤ) = -((2 : ℕ) : ℤ) from rfl, harmonic_neg _ _ (by norm_num), harm_5_2]
      simp only [map_mul, Complex.conj_ofReal, phase_conj]
      push_cast
      norm_num
      try ring
    · refine ⟨_, rfl, fun θ φ => ?_⟩
      rw [show (-1 : ℤ) = -((1 : ℕ) : ℤ) from rfl, harmonic_neg _ _ (by norm_num), harm_5_1]
      simp only [map_mul, Complex.conj_ofReal, phase_conj]
      have hs : signNeg (-((1 : ℕ) : ℤ)) = 1 := by
        unfold signNeg; rw [Int.sign_eq_one_of_pos (by norm_num)]; norm_num
      simp only [hs]
      push_cast
      norm_num
      try ring
    · refine ⟨_, rfl, fun θ φ => ?_⟩
      rw [show (0 : ℤ) = ((0 : ℕ) : ℤ) from rfl, harmonic_nonneg, harm_5_0]
      simp [phase]
      try norm_num
      try ring
    · refine ⟨_, rfl, fun θ φ => ?_⟩
      rw [show (1 : ℤ) = ((1 : ℕ) : ℤ) from rfl, harmonic_nonneg, harm_5_1]
      have hs : signNeg (((1 : ℕ) : ℤ)) = -1 := by
        unfold signNeg; rw [Int.sign_eq_neg_one_of_neg (by norm_num)]; norm_num
      simp only [hs]
      push_cast
      norm_num
      try ring
    · refine ⟨_, rfl, fun θ φ => ?_⟩
      rw [show (2 : ℤ) = ((2 : ℕ) : ℤ) from rfl, harmonic_nonneg, harm_5_2]
      push_cast
      norm_num
      try ring
    · refine ⟨_, rfl, fun θ φ => ?_⟩
      rw [show (3 : ℤ) = ((3 : ℕ) : ℤ) from rfl, harmonic_nonneg, harm_5_3]
      have hs : signNeg (((3 : ℕ) : ℤ)) = -1 := by
        unfold signNeg; rw [Int.sign_eq_neg_one_of_neg (by norm_num)]; norm_num
      simp only [hs]
      push_cast
      norm_num
      try ring
    · refine ⟨_, rfl, fun θ φ => ?_⟩
      rw [show (4 : ℤ) = ((4 : ℕ) : ℤ) from rfl, harmonic_nonneg, harm_5_4]
      push_cast
      norm_num
      try ring
    · refine ⟨_, rfl, fun θ φ => ?_⟩
      rw [show (5 : ℤ) = ((5 : ℕ) : ℤ) from rfl, harmonic_nonneg, harm_5_5]
      have hs : signNeg (((5 : ℕ) : ℤ)) = -1 := by
        unfold signNeg; rw [Int.sign_eq_neg_one_of_neg (by norm_num)]; norm_num
      simp only [hs]
      push_cast
      norm_num
      try ring
  · interval_cases m
    · refine ⟨_, rfl, fun θ φ => ?_⟩
      rw [show (-6 : ℤ) = -((6 : ℕ) : ℤ) from rfl, harmonic_neg _ _ (by norm_num), harm_6_6]
      simp only [map_mul, Complex.conj_ofReal, phase_conj]
      push_cast
      norm_num
      try ring
    · refine ⟨_, rfl, fun θ φ => ?_⟩
      rw [show (-5 : ℤ) = -((5 : ℕ) : ℤ) from rfl, harmonic_neg _ _ (by norm_num), harm_6_5]
      simp only [map_mul, Complex.conj_ofReal, phase_conj]
      have hs : signNeg (-((5 : ℕ) : ℤ)) = 1 := by
        unfold signNeg; rw [Int.sign_eq_one_of_pos (by norm_num)]; norm_num
      simp only [hs]
      push_cast
      norm_num
      try ring
    · refine ⟨_, rfl, fun θ φ => ?_⟩
      rw [show (-4 : ℤ) = -((4 : ℕ) : ℤ) from rfl, harmonic_neg _ _ (by norm_num), harm_6_4]
      simp only [map_mul, Complex.conj_ofReal, phase_conj]
      push_cast
      norm_num
      try ring
    · refine ⟨_, rfl, fun θ φ => ?_⟩
      rw [show (-3 : ℤ) = -((3 : ℕ) : ℤ) from rfl, harmonic_neg _ _ (by norm_num), harm_6_3]
      simp only [map_mul, Complex.conj_ofReal, phase_conj]
      have hs : signNeg (-((3 : ℕ) : ℤ)) = 1 := by
        unfold signNeg; rw [Int.sign_eq_one_of_pos (by norm_num)]; norm_num
      simp only [hs]
      push_cast
      norm_num
      try ring
    · refine ⟨_, rfl, fun θ φ => ?_⟩
      rw [show (-2 : ℤ) = -((2 : ℕ) : ℤ) from rfl, harmonic_neg _ _ (by norm_num), harm_6_2]
      simp only [map_mul, Complex.conj_ofReal, phase_conj]
      push_cast
      norm_num
      try ring
    · refine ⟨_, rfl, fun θ φ => ?_⟩
      rw [show (-1 : ℤ) = -((1 : ℕ) : ℤ) from rfl, harmonic_neg _ _ (by norm_num), harm_6_1]
      simp only [map_mul, Complex.conj_ofReal, phase_conj]
      have hs : signNeg (-((1 : ℕ) : ℤ)) = 1 := by
        unfold signNeg; rw [Int.sign_eq_one_of_pos (by norm_num)]; norm_num
      simp only [hs]
      push_cast
      norm_num
      try ring
    · refine ⟨_, rfl, fun θ φ => ?_⟩
      rw [show (0 : ℤ) = ((0 : ℕ) : ℤ) from rfl, harmonic_nonneg, harm_6_0]
      simp [phase]
      try norm_num
      try ring
    · refine ⟨_, rfl, fun θ φ => ?_⟩
      rw [show (1 : ℤ) = ((1 : ℕ) : ℤ) from rfl, harmonic_nonneg, harm_6_1]
      have hs : signNeg (((1 : ℕ) : ℤ)) = -1 := by
        unfold signNeg; rw [Int.sign_eq_neg_one_of_neg (by norm_num)]; norm_num
      simp only [hs]
      push_cast
      norm_num
      try ring
    · refine ⟨_, rfl, fun θ φ => ?_⟩
      rw [show (2 : ℤ) = ((2 : ℕ) : ℤ) from rfl, harmonic_nonneg, harm_6_2]
      push_cast
      norm_num
      try ring
    · refine ⟨_, rfl, fun θ φ => ?_⟩
      rw [show (3 : ℤ) = ((3 : ℕ) : ℤ) from rfl, harmonic_nonneg, harm_6_3]
      have hs : signNeg (((3 : ℕ) : ℤ)) = -1 := by
        unfold signNeg; rw [Int.sign_eq_neg_one_of_neg (by norm_num)]; norm_num
      simp only [hs]
      push_cast
      norm_num
      try ring
    · refine ⟨_, rfl, fun θ φ => ?_⟩
      rw [show (4 : ℤ) = ((4 : ℕ) : ℤ) from rfl, harmonic_nonneg, harm_6_4]
      push_cast
      norm_num
      try ring
    · refine ⟨_, rfl, fun θ φ => ?_⟩
      rw [show (5 : ℤ) = ((5 : ℕ) : ℤ) from rfl, harmonic_nonneg, harm_6_5]
      have hs : signNeg (((5 : ℕ) : ℤ)) = -1 := by
        unfold signNeg; rw [Int.sign_eq_neg_one_of_neg (by norm_num)]; norm_num
      simp only [hs]
      push_cast
      norm_num
      try ring
    · refine ⟨_, rfl, fun θ φ => ?_⟩
      rw [show (6 : ℤ) = ((6 : ℕ) : ℤ) from rfl, harmonic_nonneg, harm_6_6]
      push_cast
      norm_num
      try ring

/-- C101: every other pair of numbers raises an `UnboundLocalError`. -/
theorem c101_other (l m : ℤ) (h : l < 0 ∨ 6 < l ∨ l < |m|) : Ylm l m = .error .unboundLocalError := by
  by_cases hl : l < 0 ∨ 6 < l
  · unfold Ylm
    simp only
    rw [if_neg (by omega), if_neg (by omega), if_neg (by omega), if_neg (by omega), if_neg (by omega), if_neg (by omega),
      if_neg (by omega)]
  · have hm : l < |m| := by omega
    have h0 : 0 ≤ l := by omega
    have h6 : l ≤ 6 := by omega
    have hm0 : m ≠ 0 := by rintro rfl; simp at hm; omega
    unfold Ylm
    simp only
    have hc := abs_choice m
    generalize |m| = a at hm hc ⊢
    obtain rfl | rfl | rfl | rfl | rfl | rfl | rfl : l = 0 ∨ l = 1 ∨ l = 2 ∨ l = 3 ∨ l = 4 ∨ l = 5 ∨ l = 6 := by omega
    all_goals repeat first | rw [if_neg (by omega)] | rw [if_pos rfl]

/-- The real factor of a harmonic. -/
noncomputable def harmonicRe (l : ℕ) (m : ℤ) (θ : ℝ) : ℝ :=
  (if 0 ≤ m then (-1) ^ m.natAbs else 1) *
    √((2 * l + 1) / (4 * π) * ((l - m.natAbs).factorial / (l + m.natAbs).factorial)) *
    (sin θ ^ m.natAbs * (derivative^[m.natAbs] (legendrePoly l)).eval (cos θ))

theorem harmonic_form (l : ℕ) (m : ℤ) (θ φ : ℝ) : harmonic l m θ φ = (harmonicRe l m θ : ℂ) * phase m φ := by
  unfold harmonic harmonicRe harmonicNonneg legendreAssoc
  have hp : ∀ k : ℤ, Complex.exp (k * φ * Complex.I) = phase k φ := by
    intro k; unfold phase; congr 1; ring
  have hn : Complex.exp ((m.natAbs : ℕ) * φ * Complex.I) = phase (m.natAbs : ℤ) φ := by rw [← hp, Int.cast_natCast]
  rw [hn]
  split_ifs with h
  · rw [Int.natAbs_of_nonneg h]
    push_cast; ring
  · rw [map_mul, phase_conj, Complex.conj_ofReal, show -(m.natAbs : ℤ) = m by omega]
    push_cast
    have : ((-1 : ℂ) ^ m.natAbs) * (-1) ^ m.natAbs = 1 := by rw [← mul_pow]; norm_num
    linear_combination (√((2 * ↑l + 1) / (4 * π) * (↑(l - m.natAbs).factorial / ↑(l + m.natAbs).factorial)) : ℂ)
      * (Complex.sin ↑θ ^ m.natAbs * ↑(eval (cos θ) ((⇑derivative)^[m.natAbs] (legendrePoly l)))) * phase m φ * this

theorem integral_cos_subst (f : ℝ → ℝ) (hf : Continuous f) :
    ∫ θ in (0 : ℝ)..π, f (cos θ) * sin θ = ∫ x in (-1 : ℝ)..1, f x := by
  have h := intervalIntegral.integral_comp_mul_deriv (a := 0) (b := π) (f := cos) (f' := fun θ => -sin θ) (g := f)
    (fun x _ => hasDerivAt_cos x) (by fun_prop) hf
  rw [cos_zero, cos_pi, intervalIntegral.integral_symm (-1) 1] at h
  rw [← neg_inj, ← h, ← intervalIntegral.integral_neg]
  congr 1; ext θ
  simp

theorem polar_integral (l k : ℕ) (m : ℤ) (hl : m.natAbs ≤ l) :
    ∫ θ in (0 : ℝ)..π, harmonicRe l m θ * harmonicRe k m θ * sin θ = if l = k then 1 / (2 * π) else 0 := by
  set n := m.natAbs with hn
  have e : ∀ θ, harmonicRe l m θ * harmonicRe k m θ * sin θ =
      √((2 * l + 1) / (4 * π) * ((l - n).factorial / (l + n).factorial)) *
      √((2 * k + 1) / (4 * π) * ((k - n).factorial / (k + n).factorial)) *
      ((fun x => ((1 - X ^ 2) ^ n * derivative^[n] (legendrePoly l) * derivative^[n] (legendrePoly k)).eval x) (cos θ) * sin θ) := by
    intro θ
    have hs : (if 0 ≤ m then (-1 : ℝ) ^ n else 1) * (if 0 ≤ m then (-1) ^ n else 1) = 1 := by
      split_ifs
      · rw [← mul_pow]; norm_num
      · norm_num
    have h2 : (1 - cos θ ^ 2) ^ n = sin θ ^ n * sin θ ^ n := by
      rw [← mul_pow, ← sin_sq]; ring
    simp only [harmonicRe, ← hn, eval_mul, eval_pow, eval_sub, eval_one, eval_X, h2]
    linear_combination (√((2 * l + 1) / (4 * π) * ((l - n).factorial / (l + n).factorial)) *
      √((2 * k + 1) / (4 * π) * ((k - n).factorial / (k + n).factorial)) * (sin θ ^ n * sin θ ^ n *
      eval (cos θ) (derivative^[n] (legendrePoly l)) * eval (cos θ) (derivative^[n] (legendrePoly k)) * sin θ)) * hs
  simp only [e]
  rw [intervalIntegral.integral_const_mul, integral_cos_subst _ (Polynomial.continuous _)]
  have ha : ∫ x in (-1 : ℝ)..1, ((1 - X ^ 2) ^ n * derivative^[n] (legendrePoly l) * derivative^[n] (legendrePoly k)).eval x
      = assocInt n l k := rfl
  rw [ha]
  split_ifs with h
  · subst h
    obtain ⟨h1, h2⟩ := assocInt_zero l
    have h3 := h2 n hl
    rw [h1] at h3
    have p1 : ((l - n).factorial : ℝ) ≠ 0 := by positivity
    have p2 : ((l + n).factorial : ℝ) ≠ 0 := by positivity
    have p3 := pi_pos.ne'
    have p4 : (2 * (l : ℝ) + 1) ≠ 0 := by positivity
    rw [Real.mul_self_sqrt (by positivity)]
    field_simp at h3 ⊢
    linarith
  · rw [assocInt_ne n l k h, mul_zero]

theorem integral_phase (n : ℤ) : ∫ φ in (0 : ℝ)..(2 * π), phase n φ = if n = 0 then ((2 * π : ℝ) : ℂ) else 0 := by
  split_ifs with h
  · subst h
    simp [phase]
  · unfold phase
    have hc : (n : ℂ) * Complex.I ≠ 0 := by simp [h]
    rw [integral_exp_mul_complex hc]
    have h1 : Complex.exp (n * Complex.I * ((2 * π : ℝ) : ℂ)) = 1 := by
      rw [Complex.exp_eq_one_iff]
      exact ⟨n, by push_cast; ring⟩
    rw [h1]; simp

/-- C101: the spherical harmonics of textbooks, of every degree, are orthonormal on the sphere. -/
theorem harmonic_orthonormal (l k : ℕ) (m n : ℤ) (hl : |m| ≤ l) :
    ∫ φ in (0 : ℝ)..(2 * π), ∫ θ in (0 : ℝ)..π, conj (harmonic l m θ φ) * harmonic k n θ φ * (sin θ : ℝ)
      = if l = k ∧ m = n then 1 else 0 := by
  have e : ∀ φ θ : ℝ, conj (harmonic l m θ φ) * harmonic k n θ φ * (sin θ : ℝ)
      = phase (n - m) φ * ((harmonicRe l m θ * harmonicRe k n θ * sin θ : ℝ) : ℂ) := by
    intro φ θ
    have hp : phase (-m) φ * phase n φ = phase (n - m) φ := by
      unfold phase; rw [← Complex.exp_add]; congr 1; push_cast; ring
    rw [harmonic_form, harmonic_form, map_mul, phase_conj, Complex.conj_ofReal, ← hp]
    push_cast; ring
  simp only [e]
  simp only [intervalIntegral.integral_const_mul, intervalIntegral.integral_mul_const, intervalIntegral.integral_ofReal]
  rw [integral_phase]
  by_cases hmn : m = n
  · subst hmn
    have hl' : m.natAbs ≤ l := by rw [Int.abs_eq_natAbs] at hl; exact_mod_cast hl
    rw [polar_integral l k m hl', if_pos (sub_self m)]
    have p3 : (π : ℂ) ≠ 0 := by exact_mod_cast pi_pos.ne'
    by_cases hlk : l = k
    · rw [if_pos hlk, if_pos ⟨hlk, rfl⟩]; push_cast; field_simp
    · rw [if_neg hlk, if_neg (fun h => hlk h.1)]; simp
  · rw [if_neg (by omega), if_neg (by tauto), zero_mul]

/-- C101: the functions of the program are orthonormal on the sphere. -/
theorem c101_orthonormal (l k : ℕ) (m n : ℤ) (hl : l ≤ 6) (hk : k ≤ 6) (hm : |m| ≤ l) (hn : |n| ≤ k) :
    ∃ f g, Ylm l m = .ok f ∧ Ylm k n = .ok g ∧
      ∫ φ in (0 : ℝ)..(2 * π), ∫ θ in (0 : ℝ)..π, conj (f θ φ) * g θ φ * (sin θ : ℝ) = if l = k ∧ m = n then 1 else 0 := by
  obtain ⟨f, hf, hf'⟩ := c101_ylm l m hl hm
  obtain ⟨g, hg, hg'⟩ := c101_ylm k n hk hn
  refine ⟨f, g, hf, hg, ?_⟩
  simp only [hf', hg']
  exact harmonic_orthonormal l k m n hm

example : (6 : ℕ) ≤ 6 ∧ |(-3 : ℤ)| ≤ (6 : ℕ) := by norm_num

end Hotbit
