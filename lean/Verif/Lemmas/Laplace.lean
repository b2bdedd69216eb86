import Verif.Lemmas.MultipoleTaylor
import Mathlib.Analysis.Calculus.SmoothSeries
import Mathlib.Analysis.SpecificLimits.Normed
import Mathlib.Analysis.Calculus.MeanValue
import Mathlib.Algebra.Order.BigOperators.Ring.Finset

/-!
# The multipole series of a point charge (Laplace expansion) and its error
-/

namespace Hotbit

open Finset Complex

set_option linter.unusedSimpArgs false

noncomputable def dot3 (a b : Vec) : ℝ := a 0 * b 0 + a 1 * b 1 + a 2 * b 2

theorem irrDer_deriv (u r : Vec) (h : r ≠ 0) (n : ℕ) :
    HasDerivAt (fun s : ℝ => irrDer 0 0 u n (r + s • u)) (((n : ℂ) + 1) * irrDer 0 0 u (n + 1) r) 0 := by
  have d := irrDer_hasDerivAt 0 0 (by simp) u r n 0 (by simpa using h)
  have hf : (n.factorial : ℂ) ≠ 0 := by exact_mod_cast n.factorial_ne_zero
  have d2 := d.const_mul ((n.factorial : ℂ)⁻¹)
  have e : (fun s : ℝ => (n.factorial : ℂ)⁻¹ * ((n.factorial : ℂ) * irrDer 0 0 u n (r + s • u))) =
      fun s : ℝ => irrDer 0 0 u n (r + s • u) := by
    funext s; field_simp
  rw [e] at d2
  refine d2.congr_deriv ?_
  rw [Nat.factorial_succ, zero_smul, add_zero]
  push_cast
  field_simp

theorem irrDer_zero (u r : Vec) : irrDer 0 0 u 0 r = (((norm3 r)⁻¹ : ℝ) : ℂ) := by
  simp [irrDer, irrV, irrFac, solV, solS]

theorem irrDer_one (u r : Vec) (h : r ≠ 0) : irrDer 0 0 u 1 r = ((-(dot3 r u) * (norm3 r)⁻¹ ^ 3 : ℝ) : ℂ) := by
  have d := irrDer_deriv u r h 0
  simp only [irrDer_zero] at d
  have d2 := HasDerivAt.ofReal_comp (inv_norm_pow_hasDerivAt r u h 1)
  simp only [pow_one] at d2
  have := d.unique d2
  simp only [Nat.cast_zero, zero_add, one_mul] at this
  rw [this]
  unfold dot3
  push_cast
  ring

/-- Recurrence of the terms (the recurrence of the Legendre polynomials). -/
theorem irrDer_rec (u : Vec) (n : ℕ) : ∀ r : Vec, r ≠ 0 →
    ((norm3 r ^ 2 : ℝ) : ℂ) * (((n : ℂ) + 2) * irrDer 0 0 u (n + 2) r)
      + (2 * (n : ℂ) + 3) * (dot3 r u : ℝ) * irrDer 0 0 u (n + 1) r
      + ((n : ℂ) + 1) * (dot3 u u : ℝ) * irrDer 0 0 u n r = 0 := by
  have dq : ∀ r : Vec, HasDerivAt (fun s : ℝ => ((norm3 (r + s • u) ^ 2 : ℝ) : ℂ)) ((2 * dot3 r u : ℝ) : ℂ) 0 := by
    intro r
    apply HasDerivAt.ofReal_comp
    have e : (fun s : ℝ => norm3 (r + s • u) ^ 2) = fun s => norm3 r ^ 2 + s * (2 * dot3 r u) + s ^ 2 * dot3 u u := by
      funext s
      rw [norm3_sq, norm3_sq]
      unfold dot3
      simp only [Pi.add_apply, Pi.smul_apply, smul_eq_mul]
      ring
    rw [e]
    have h1 : HasDerivAt (fun s : ℝ => norm3 r ^ 2 + s * (2 * dot3 r u)) (1 * (2 * dot3 r u)) 0 :=
      ((hasDerivAt_id (0 : ℝ)).mul_const _).const_add _
    have h2 : HasDerivAt (fun s : ℝ => s ^ 2 * dot3 u u) (((2 : ℕ) : ℝ) * (0 : ℝ) ^ (2 - 1) * 1 * dot3 u u) 0 :=
      ((hasDerivAt_id (0 : ℝ)).fun_pow 2).mul_const _
    refine (h1.fun_add h2).congr_deriv ?_
    simp
  have dd : ∀ r : Vec, HasDerivAt (fun s : ℝ => ((dot3 (r + s • u) u : ℝ) : ℂ)) ((dot3 u u : ℝ) : ℂ) 0 := by
    intro r
    apply HasDerivAt.ofReal_comp
    have e : (fun s : ℝ => dot3 (r + s • u) u) = fun s => dot3 r u + s * dot3 u u := by
      funext s
      unfold dot3
      simp only [Pi.add_apply, Pi.smul_apply, smul_eq_mul]
      ring
    rw [e]
    refine (((hasDerivAt_id (0 : ℝ)).mul_const (dot3 u u)).const_add (dot3 r u)).congr_deriv ?_
    simp
  induction n with
  | zero =>
    intro r hr
    -- differentiate `|r|² D₁ + (r·u) D₀ = 0`
    have z : (fun s : ℝ => ((norm3 (r + s • u) ^ 2 : ℝ) : ℂ) * irrDer 0 0 u 1 (r + s • u)
        + ((dot3 (r + s • u) u : ℝ) : ℂ) * irrDer 0 0 u 0 (r + s • u)) =ᶠ[nhds 0] fun _ => (0 : ℂ) := by
      filter_upwards [(line_open r u).mem_nhds (show (0 : ℝ) ∈ {s : ℝ | r + s • u ≠ 0} by simpa using hr)] with s hs
      have hp := norm3_pos hs
      rw [irrDer_one u _ hs, irrDer_zero, ← ofReal_mul, ← ofReal_mul, ← ofReal_add]
      norm_cast
      simp only [inv_pow]
      field_simp
      ring
    have d := ((dq r).fun_mul (irrDer_deriv u r hr 1)).fun_add ((dd r).fun_mul (irrDer_deriv u r hr 0))
    have := d.unique ((hasDerivAt_const (0 : ℝ) (0 : ℂ)).congr_of_eventuallyEq z)
    simp only [zero_smul, add_zero] at this
    push_cast at *
    linear_combination this
  | succ n ih =>
    intro r hr
    have z : (fun s : ℝ => ((norm3 (r + s • u) ^ 2 : ℝ) : ℂ) * (((n : ℂ) + 2) * irrDer 0 0 u (n + 2) (r + s • u))
        + (2 * (n : ℂ) + 3) * ((dot3 (r + s • u) u : ℝ) * irrDer 0 0 u (n + 1) (r + s • u))
        + ((n : ℂ) + 1) * (dot3 u u : ℝ) * irrDer 0 0 u n (r + s • u)) =ᶠ[nhds 0] fun _ => (0 : ℂ) := by
      filter_upwards [(line_open r u).mem_nhds (show (0 : ℝ) ∈ {s : ℝ | r + s • u ≠ 0} by simpa using hr)] with s hs
      rw [← ih _ hs]; ring
    have d := (((dq r).fun_mul ((irrDer_deriv u r hr (n + 2)).const_mul ((n : ℂ) + 2))).fun_add
      (((dd r).fun_mul (irrDer_deriv u r hr (n + 1))).const_mul (2 * (n : ℂ) + 3))).fun_add
      ((irrDer_deriv u r hr n).const_mul (((n : ℂ) + 1) * (dot3 u u : ℝ)))
    have := d.unique ((hasDerivAt_const (0 : ℝ) (0 : ℂ)).congr_of_eventuallyEq z)
    simp only [zero_smul, add_zero] at this
    have hn : ((n : ℂ) + 2) ≠ 0 := by
      have : (((n + 2 : ℕ)) : ℂ) ≠ 0 := Nat.cast_ne_zero.2 (by omega)
      push_cast at this
      exact this
    refine (mul_right_injective₀ hn) ?_
    simp only
    push_cast at *
    rw [mul_zero]
    linear_combination this

/-- The terms are real. -/
theorem irrDer_real (u r : Vec) (n : ℕ) : (((irrDer 0 0 u n r).re : ℝ) : ℂ) = irrDer 0 0 u n r := by
  have e : irrDer 0 0 u n r = ∑ m ∈ Icc (-(n : ℤ)) n, starRingEnd ℂ (solV n m (-u)) * irrV n m r := by
    unfold irrDer; simp
  rw [e, sum_sym_re n (fun m => starRingEnd ℂ (solV n m (-u))) (fun m => irrV n m r) (conj_solV_neg n (-u))
    (fun m => irrV_neg_m n m r), Complex.ofReal_re]

/-- Term `n` of the multipole series of a unit charge at `a`, seen from `r`. -/
noncomputable def lapT (a r : Vec) (n : ℕ) : ℝ := (irrDer 0 0 (-a) n r).re

theorem lapT_eq (a r : Vec) (n : ℕ) :
    ((lapT a r n : ℝ) : ℂ) = ∑ m ∈ Icc (-(n : ℤ)) n, starRingEnd ℂ (solV n m a) * irrV n m r := by
  unfold lapT
  rw [irrDer_real]
  unfold irrDer; simp

theorem lapT_zero (a r : Vec) : lapT a r 0 = (norm3 r)⁻¹ := by
  unfold lapT; rw [irrDer_zero, Complex.ofReal_re]

theorem lapT_one (a r : Vec) (h : r ≠ 0) : norm3 r ^ 2 * lapT a r 1 = dot3 r a * lapT a r 0 := by
  have hp := norm3_pos h
  rw [lapT_zero]
  unfold lapT
  rw [irrDer_one _ _ h, Complex.ofReal_re]
  have : dot3 r (-a) = -dot3 r a := by unfold dot3; simp; ring
  rw [this, inv_pow]
  field_simp

theorem lapT_rec (a r : Vec) (h : r ≠ 0) (n : ℕ) :
    norm3 r ^ 2 * (((n : ℝ) + 2) * lapT a r (n + 2)) =
      (2 * (n : ℝ) + 3) * dot3 r a * lapT a r (n + 1) - ((n : ℝ) + 1) * dot3 a a * lapT a r n := by
  have e := irrDer_rec (-a) n r h
  rw [← irrDer_real, ← irrDer_real (-a) r (n + 1), ← irrDer_real (-a) r n] at e
  have h1 : dot3 r (-a) = -dot3 r a := by unfold dot3; simp; ring
  have h2 : dot3 (-a) (-a) = dot3 a a := by unfold dot3; simp
  rw [h1, h2] at e
  unfold lapT
  have e' : norm3 r ^ 2 * (((n : ℝ) + 2) * (irrDer 0 0 (-a) (n + 2) r).re)
      + (2 * (n : ℝ) + 3) * -dot3 r a * (irrDer 0 0 (-a) (n + 1) r).re
      + ((n : ℝ) + 1) * dot3 a a * (irrDer 0 0 (-a) n r).re = 0 := by exact_mod_cast e
  linear_combination e'

theorem dot3_self (a : Vec) : dot3 a a = norm3 a ^ 2 := by rw [norm3_sq]; unfold dot3; ring

/-- On the charge's own ray all terms are equal. -/
theorem lapT_self (r : Vec) (h : r ≠ 0) (n : ℕ) : lapT r r n = (norm3 r)⁻¹ ∧ lapT r r (n + 1) = (norm3 r)⁻¹ := by
  have hp := norm3_pos h
  have h2 : norm3 r ^ 2 ≠ 0 := by positivity
  induction n with
  | zero =>
    refine ⟨lapT_zero r r, ?_⟩
    have := lapT_one r r h
    rw [dot3_self, lapT_zero] at this
    exact mul_left_cancel₀ h2 this
  | succ n ih =>
    refine ⟨ih.2, ?_⟩
    have := lapT_rec r r h n
    rw [ih.1, ih.2, dot3_self] at this
    have h3 : norm3 r ^ 2 * ((n : ℝ) + 2) ≠ 0 := by positivity
    refine mul_left_cancel₀ h3 ?_
    linear_combination this

/-- Weight of the harmonics in the norm. -/
noncomputable def irrW (l : ℕ) (m : ℤ) : ℝ := (((l : ℤ) - m).toNat.factorial : ℝ) * (((l : ℤ) + m).toNat.factorial : ℝ)

theorem irrFac_irrW (l : ℕ) (m : ℤ) : irrFac l m = ((irrW l m : ℝ) : ℂ) := by
  unfold irrFac irrW; push_cast; rfl

theorem irrW_nonneg (l : ℕ) (m : ℤ) : 0 ≤ irrW l m := by unfold irrW; positivity

/-- The norm of the harmonics of degree `n`. -/
theorem solV_norm (n : ℕ) (r : Vec) :
    ∑ m ∈ Icc (-(n : ℤ)) n, irrW n m * ‖solV n m r‖ ^ 2 = norm3 r ^ (2 * n) := by
  by_cases h : r = 0
  · subst h
    have h0 : norm3 (0 : Vec) = 0 := norm3_eq_zero.2 rfl
    rw [h0]
    by_cases hn : n = 0
    · subst hn; simp [solV_origin, irrW]
    · rw [zero_pow (by omega)]
      refine Finset.sum_eq_zero fun m _ => ?_
      rw [solV_origin, if_neg (by tauto)]; simp
  · have hp := norm3_pos h
    have e := (lapT_self r h n).1
    have e2 := lapT_eq r r n
    have e3 : ∑ m ∈ Icc (-(n : ℤ)) n, starRingEnd ℂ (solV n m r) * irrV n m r =
        (((∑ m ∈ Icc (-(n : ℤ)) n, irrW n m * ‖solV n m r‖ ^ 2) * (norm3 r)⁻¹ ^ (2 * n + 1) : ℝ) : ℂ) := by
      rw [Finset.sum_mul, ofReal_sum]
      refine Finset.sum_congr rfl fun m _ => ?_
      unfold irrV
      rw [irrFac_irrW]
      have : starRingEnd ℂ (solV n m r) * solV n m r = ((‖solV n m r‖ ^ 2 : ℝ) : ℂ) := by
        rw [mul_comm, Complex.mul_conj]; push_cast; rw [Complex.normSq_eq_norm_sq]; push_cast; rfl
      rw [ofReal_mul, ofReal_mul, ← this]
      ring
    rw [e3, e] at e2
    have e4 := Complex.ofReal_injective e2
    have : (norm3 r)⁻¹ ^ (2 * n + 1) * norm3 r ^ (2 * n + 1) = 1 := by rw [← mul_pow]; field_simp; simp
    calc _ = (∑ m ∈ Icc (-(n : ℤ)) n, irrW n m * ‖solV n m r‖ ^ 2) * ((norm3 r)⁻¹ ^ (2 * n + 1) * norm3 r ^ (2 * n + 1)) := by
          rw [this, mul_one]
      _ = (norm3 r)⁻¹ * norm3 r ^ (2 * n + 1) := by rw [← mul_assoc, ← e4]
      _ = norm3 r ^ (2 * n) := by rw [pow_succ]; field_simp

/-- Bound of the terms (`|P_n| ≤ 1`). -/
theorem lapT_le (a r : Vec) (h : r ≠ 0) (n : ℕ) : |lapT a r n| ≤ norm3 a ^ n * (norm3 r)⁻¹ ^ (n + 1) := by
  have hp := norm3_pos h
  have e := lapT_eq a r n
  have h1 : |lapT a r n| ≤ (∑ m ∈ Icc (-(n : ℤ)) n, (√(irrW n m) * ‖solV n m a‖) * (√(irrW n m) * ‖solV n m r‖))
      * (norm3 r)⁻¹ ^ (2 * n + 1) := by
    rw [← Real.norm_eq_abs, ← Complex.norm_real, e, Finset.sum_mul]
    refine (norm_sum_le _ _).trans (Finset.sum_le_sum fun m _ => ?_)
    unfold irrV
    rw [norm_mul, norm_mul, norm_mul, irrFac_irrW, Complex.norm_real, Complex.norm_real, Real.norm_eq_abs,
      Real.norm_eq_abs, abs_of_nonneg (irrW_nonneg n m), abs_of_nonneg (by positivity), Complex.norm_conj]
    have := Real.mul_self_sqrt (irrW_nonneg n m)
    have e5 : (√(irrW n m) * ‖solV n m a‖) * (√(irrW n m) * ‖solV n m r‖) * (norm3 r)⁻¹ ^ (2 * n + 1)
       = (√(irrW n m) * √(irrW n m)) * (‖solV n m a‖ * ‖solV n m r‖ * (norm3 r)⁻¹ ^ (2 * n + 1)) := by ring
    rw [e5, this]
    exact le_of_eq (by ring)
  have h2 : ∑ m ∈ Icc (-(n : ℤ)) n, (√(irrW n m) * ‖solV n m a‖) * (√(irrW n m) * ‖solV n m r‖) ≤ norm3 a ^ n * norm3 r ^ n := by
    apply abs_le_of_sq_le_sq' _ (by have := norm3_nonneg a; positivity) |>.2
    refine (Finset.sum_mul_sq_le_sq_mul_sq _ _ _).trans (le_of_eq ?_)
    have hs : ∀ v : Vec, ∑ m ∈ Icc (-(n : ℤ)) n, (√(irrW n m) * ‖solV n m v‖) ^ 2 = norm3 v ^ (2 * n) := by
      intro v
      rw [← solV_norm n v]
      refine Finset.sum_congr rfl fun m _ => ?_
      rw [mul_pow, Real.sq_sqrt (irrW_nonneg n m)]
    rw [hs, hs]; ring
  refine h1.trans ((mul_le_mul_of_nonneg_right h2 (by positivity)).trans (le_of_eq ?_))
  have : (norm3 r)⁻¹ ^ (2 * n + 1) = (norm3 r)⁻¹ ^ n * (norm3 r)⁻¹ ^ (n + 1) := by rw [← pow_add]; congr 1; ring
  rw [this]
  have h3 : norm3 r ^ n * (norm3 r)⁻¹ ^ n = 1 := by rw [← mul_pow]; field_simp; simp
  linear_combination (norm3 a ^ n * (norm3 r)⁻¹ ^ (n + 1)) * h3

end Hotbit
