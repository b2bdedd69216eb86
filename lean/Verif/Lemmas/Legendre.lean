import Verif.Spec.SphericalHarmonics
import Mathlib.Analysis.SpecialFunctions.Integrals.Basic
import Mathlib.Analysis.Calculus.Deriv.Polynomial
import Mathlib.Tactic

/-!
# Integrals of associated Legendre functions
-/

namespace Hotbit

open Polynomial

/-- Integral of a polynomial from -1 to 1. -/
noncomputable def polyInt (p : ℝ[X]) : ℝ := ∫ x in (-1 : ℝ)..1, p.eval x

theorem polyInt_add (p q : ℝ[X]) : polyInt (p + q) = polyInt p + polyInt q := by
  unfold polyInt
  simp only [eval_add]
  exact intervalIntegral.integral_add (p.continuous.intervalIntegrable _ _) (q.continuous.intervalIntegrable _ _)

theorem polyInt_C_mul (c : ℝ) (p : ℝ[X]) : polyInt (C c * p) = c * polyInt p := by
  unfold polyInt
  simp only [eval_mul, eval_C]
  exact intervalIntegral.integral_const_mul _ _

theorem polyInt_derivative (p : ℝ[X]) : polyInt (derivative p) = p.eval 1 - p.eval (-1) := by
  unfold polyInt
  exact intervalIntegral.integral_eq_sub_of_hasDerivAt (fun x _ => p.hasDerivAt x)
    ((derivative p).continuous.intervalIntegrable _ _)

/-- The differential equation of the derivatives of `(x²-1)^l`. -/
theorem rodrigues_ode (l n : ℕ) :
    (X ^ 2 - 1) * derivative^[n + 2] ((X ^ 2 - 1 : ℝ[X]) ^ l) + C (2 * (n + 1 - l : ℝ)) * X * derivative^[n + 1] ((X ^ 2 - 1) ^ l)
      + C ((n + 1) * (n - 2 * l : ℝ)) * derivative^[n] ((X ^ 2 - 1) ^ l) = 0 := by
  induction n with
  | zero =>
    have h : (X ^ 2 - 1) * derivative ((X ^ 2 - 1 : ℝ[X]) ^ l) = C (2 * (l : ℝ)) * X * (X ^ 2 - 1) ^ l := by
      rw [derivative_pow]
      cases l with
      | zero => simp
      | succ l =>
        simp only [derivative_sub, derivative_one, derivative_X_pow, Nat.add_sub_cancel]
        simp only [C_mul, map_natCast, C_ofNat]
        push_cast
        ring
    have h2 := congrArg derivative h
    simp only [derivative_mul, derivative_sub, derivative_one, derivative_X_pow, derivative_C, derivative_X] at h2
    simp only [Function.iterate_succ, Function.comp, Function.iterate_zero, id]
    simp only [C_mul, map_natCast, C_ofNat, C_add, C_sub, map_zero, map_one, Nat.cast_zero, Nat.cast_ofNat] at h2 ⊢
    linear_combination h2
  | succ n ih =>
    have h2 := congrArg derivative ih
    simp only [derivative_add, derivative_mul, derivative_sub, derivative_one, derivative_X_pow, derivative_C, derivative_X,
      derivative_zero, ← Function.iterate_succ_apply'] at h2
    simp only [C_mul, map_natCast, C_ofNat, C_add, C_sub, map_one, Nat.cast_ofNat, Nat.cast_add, Nat.cast_one, Nat.succ_eq_add_one] at h2 ⊢
    linear_combination h2

/-- The associated equation in the form of a derivative. -/
theorem legendre_ode (l m : ℕ) :
    derivative ((1 - X ^ 2) ^ (m + 1) * derivative^[m + 1] (legendrePoly l))
      = C (-((l - m : ℝ) * (l + m + 1))) * ((1 - X ^ 2) ^ m * derivative^[m] (legendrePoly l)) := by
  have h := rodrigues_ode l (l + m)
  have e : ∀ k, derivative^[k] (legendrePoly l)
      = C (1 / (2 ^ l * (l.factorial : ℝ))) * derivative^[l + k] ((X ^ 2 - 1) ^ l) := by
    intro k
    rw [legendrePoly, iterate_derivative_C_mul, ← Function.iterate_add_apply, add_comm k l]
  rw [derivative_mul, ← Function.iterate_succ_apply' (f := ⇑derivative), e, e, e, derivative_pow]
  generalize C (1 / (2 ^ l * (l.factorial : ℝ))) = c at *
  rw [show l + (m + 1) = l + m + 1 by ring, show l + (m + 1).succ = l + m + 2 by omega]
  simp only [derivative_sub, derivative_one, derivative_X_pow, Nat.add_sub_cancel]
  simp only [C_mul, map_natCast, C_ofNat, C_add, C_sub, C_neg, map_one, Nat.cast_ofNat, Nat.cast_add, Nat.cast_one] at h ⊢
  linear_combination (-c * (1 - X ^ 2) ^ m) * h

/-- `∫ (1-x²)^m P_l^(m) P_k^(m)`. -/
noncomputable def assocInt (m l k : ℕ) : ℝ :=
  polyInt ((1 - X ^ 2) ^ m * derivative^[m] (legendrePoly l) * derivative^[m] (legendrePoly k))

theorem assocInt_succ (m l k : ℕ) : assocInt (m + 1) l k = (l - m : ℝ) * (l + m + 1) * assocInt m l k := by
  have h := polyInt_derivative
    ((1 - X ^ 2) ^ (m + 1) * derivative^[m + 1] (legendrePoly l) * derivative^[m] (legendrePoly k))
  rw [derivative_mul, legendre_ode, polyInt_add, mul_assoc, polyInt_C_mul, ← Function.iterate_succ_apply' (f := ⇑derivative)] at h
  simp [-Function.iterate_succ] at h
  unfold assocInt
  linarith

theorem assocInt_comm (m l k : ℕ) : assocInt m l k = assocInt m k l := by
  unfold assocInt; congr 1; ring

/-- Orthogonality for different degrees. -/
theorem assocInt_ne (m l k : ℕ) (h : l ≠ k) : assocInt m l k = 0 := by
  have h1 := assocInt_succ m l k
  have h2 := assocInt_succ m k l
  rw [assocInt_comm (m + 1) k l, assocInt_comm m k l, h1] at h2
  have h3 : ((l : ℝ) - k) * (l + k + 1) * assocInt m l k = 0 := by linear_combination h2
  have h4 : (l : ℝ) - k ≠ 0 := by
    intro hh; apply h; exact_mod_cast sub_eq_zero.1 hh
  have h5 : (l : ℝ) + k + 1 ≠ 0 := by positivity
  simpa [h4, h5] using h3

theorem betaInt (l : ℕ) :
    polyInt ((1 - X ^ 2) ^ l) = 2 ^ (2 * l + 1) * (l.factorial : ℝ) ^ 2 / ((2 * l + 1).factorial : ℝ) := by
  induction l with
  | zero => simp [polyInt]; norm_num
  | succ l ih =>
    have h := polyInt_derivative (X * (1 - X ^ 2) ^ (l + 1))
    have e : derivative (X * (1 - X ^ 2 : ℝ[X]) ^ (l + 1))
        = C (2 * (l : ℝ) + 3) * (1 - X ^ 2) ^ (l + 1) + C (-(2 * (l : ℝ) + 2)) * (1 - X ^ 2) ^ l := by
      rw [derivative_mul, derivative_pow]
      simp only [derivative_sub, derivative_one, derivative_X_pow, derivative_X, Nat.add_sub_cancel]
      simp only [C_mul, map_natCast, C_ofNat, C_add, C_sub, C_neg, map_one, Nat.cast_ofNat, Nat.cast_add, Nat.cast_one]
      ring
    rw [e, polyInt_add, polyInt_C_mul, polyInt_C_mul, ih] at h
    simp at h
    have h3 : (2 * (l : ℝ) + 3) ≠ 0 := by positivity
    have hf : ((2 * (l + 1) + 1).factorial : ℝ) = (2 * l + 3) * (2 * l + 2) * ((2 * l + 1).factorial : ℝ) := by
      rw [show 2 * (l + 1) + 1 = (2 * l + 1) + 1 + 1 by ring, Nat.factorial_succ, Nat.factorial_succ]
      push_cast; ring
    have hn : ((2 * l + 1).factorial : ℝ) ≠ 0 := by positivity
    rw [hf, Nat.factorial_succ]
    push_cast
    have h2 : (2 * (l : ℝ) + 2) ≠ 0 := by positivity
    generalize polyInt ((1 - X ^ 2) ^ (l + 1)) = J at *
    field_simp at h ⊢
    rw [show 2 * (l + 1) + 1 = (2 * l + 1) + 2 by ring, pow_add]
    linear_combination 2 * h

theorem top_derivative (l : ℕ) : derivative^[l + l] ((X ^ 2 - 1 : ℝ[X]) ^ l) = C ((2 * l).factorial : ℝ) := by
  have hm : (X ^ 2 - 1 : ℝ[X]).Monic := by
    have := monic_X_pow_sub_C (1 : ℝ) (n := 2) (by norm_num)
    simpa using this
  have hd : (X ^ 2 - 1 : ℝ[X]).natDegree = 2 := by
    have := natDegree_X_pow_sub_C (n := 2) (r := (1 : ℝ))
    simpa using this
  have hd2 : ((X ^ 2 - 1 : ℝ[X]) ^ l).natDegree = 2 * l := by rw [hm.natDegree_pow, hd]; ring
  have h0 : (derivative^[l + l] ((X ^ 2 - 1 : ℝ[X]) ^ l)).natDegree = 0 := by
    have := natDegree_iterate_derivative ((X ^ 2 - 1 : ℝ[X]) ^ l) (l + l)
    omega
  rw [eq_C_of_natDegree_eq_zero h0, coeff_iterate_derivative]
  congr 1
  have hc : ((X ^ 2 - 1 : ℝ[X]) ^ l).coeff (0 + (l + l)) = 1 := by
    have := (hm.pow l).coeff_natDegree
    rw [hd2] at this
    rw [← this]; congr 1; ring
  rw [hc, show 0 + (l + l) = 2 * l by ring, show l + l = 2 * l by ring, Nat.descFactorial_self]
  simp

theorem assocInt_zero (l : ℕ) : assocInt 0 l l = 2 / (2 * l + 1) ∧
    ∀ m, m ≤ l → assocInt m l l * ((l - m).factorial : ℝ) = assocInt 0 l l * ((l + m).factorial : ℝ) := by
  have hall : ∀ m, m ≤ l → assocInt m l l * ((l - m).factorial : ℝ) = assocInt 0 l l * ((l + m).factorial : ℝ) := by
    intro m
    induction m with
    | zero => simp
    | succ m ih =>
      intro hm
      have := ih (by omega)
      rw [assocInt_succ]
      have e1 : ((l - m).factorial : ℝ) = (l - m : ℝ) * ((l - (m + 1)).factorial : ℝ) := by
        obtain ⟨d, rfl⟩ := Nat.exists_eq_add_of_le hm
        rw [show m + 1 + d - m = d + 1 by omega, show m + 1 + d - (m + 1) = d by omega, Nat.factorial_succ]
        push_cast; ring
      have e2 : ((l + (m + 1)).factorial : ℝ) = (l + m + 1 : ℝ) * ((l + m).factorial : ℝ) := by
        rw [show l + (m + 1) = l + m + 1 by ring, Nat.factorial_succ]; push_cast; ring
      rw [e2]
      rw [e1] at this
      linear_combination (l + m + 1 : ℝ) * this
  refine ⟨?_, hall⟩
  have h := hall l le_rfl
  have e : assocInt l l l = (1 / (2 ^ l * (l.factorial : ℝ)) * ((2 * l).factorial : ℝ)) ^ 2
      * (2 ^ (2 * l + 1) * (l.factorial : ℝ) ^ 2 / ((2 * l + 1).factorial : ℝ)) := by
    rw [← betaInt, ← polyInt_C_mul, assocInt]
    congr 1
    have : derivative^[l] (legendrePoly l) = C (1 / (2 ^ l * (l.factorial : ℝ)) * ((2 * l).factorial : ℝ)) := by
      rw [legendrePoly, iterate_derivative_C_mul, ← Function.iterate_add_apply, top_derivative, C_mul]
    rw [this, C_pow]
    ring
  rw [e] at h
  simp at h
  rw [Nat.factorial_succ, ← two_mul] at h
  push_cast at h
  have h1 : ((2 * l).factorial : ℝ) ≠ 0 := by positivity
  have h2 : (l.factorial : ℝ) ≠ 0 := by positivity
  have h3 : (2 * (l : ℝ) + 1) ≠ 0 := by positivity
  field_simp at h ⊢
  have h4 : ((2 : ℝ) ^ l) ^ 2 ≠ 0 := by positivity
  apply mul_left_cancel₀ h4
  rw [← mul_assoc, ← h]
  ring

end Hotbit
