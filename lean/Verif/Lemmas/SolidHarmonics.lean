import Mathlib.Analysis.Complex.Basic
import Mathlib.Analysis.Calculus.Deriv.Mul
import Mathlib.Analysis.Calculus.Deriv.Add
import Mathlib.Analysis.Calculus.Deriv.Pow
import Mathlib.Algebra.BigOperators.Intervals
import Mathlib.Tactic.LinearCombination
import Mathlib.Order.Interval.Finset.Basic

/-!
# Solid harmonics as polynomials

`solS p q z l m` is the coefficient of `ζ^m` in `(z - p ζ/2 + q/(2ζ))^l / l!`, defined by recursion on
`l`; with `p = x+iy`, `q = x-iy` it is the regular solid harmonic.  The facts proved here hold for
all complex `p`, `q`, `z`.
-/

namespace Hotbit

open Finset

/-- Coefficients of `(z - p ζ/2 + q/(2ζ))^l / l!`. -/
noncomputable def solS (p q z : ℂ) : ℕ → ℤ → ℂ
  | 0, m => if m = 0 then 1 else 0
  | l + 1, m => (z * solS p q z l m - p / 2 * solS p q z l (m - 1) + q / 2 * solS p q z l (m + 1)) / (l + 1)

theorem solS_succ (p q z : ℂ) (l : ℕ) (m : ℤ) :
    ((l : ℂ) + 1) * solS p q z (l + 1) m =
      z * solS p q z l m - p / 2 * solS p q z l (m - 1) + q / 2 * solS p q z l (m + 1) := by
  have : ((l : ℂ) + 1) ≠ 0 := by exact_mod_cast Nat.succ_ne_zero l
  simp only [solS]
  field_simp

theorem solS_zero_of_lt (p q z : ℂ) (l : ℕ) : ∀ m : ℤ, (l : ℤ) < |m| → solS p q z l m = 0 := by
  induction l with
  | zero => intro m h; simp only [solS]; rw [if_neg]; rintro rfl; simp at h
  | succ l ih =>
    intro m h
    simp only [solS]
    push_cast at h
    have h0 : (l : ℤ) < |m| := by omega
    have h1 : (l : ℤ) < |m - 1| := by
      rcases abs_cases m with ⟨h', _⟩ | ⟨h', _⟩ <;> rcases abs_cases (m - 1) with ⟨h'', _⟩ | ⟨h'', _⟩ <;> omega
    have h2 : (l : ℤ) < |m + 1| := by
      rcases abs_cases m with ⟨h', _⟩ | ⟨h', _⟩ <;> rcases abs_cases (m + 1) with ⟨h'', _⟩ | ⟨h'', _⟩ <;> omega
    rw [ih _ h0, ih _ h1, ih _ h2]; simp

/-- `m S_l^m` from the derivative with respect to `ζ`. -/
theorem solS_mul_m (p q z : ℂ) (l : ℕ) : ∀ m : ℤ,
    (m : ℂ) * solS p q z (l + 1) m = - (p / 2) * solS p q z l (m - 1) - q / 2 * solS p q z l (m + 1) := by
  induction l with
  | zero =>
    intro m
    simp only [solS]
    by_cases h1 : m = 1
    · subst h1; norm_num
    by_cases h2 : m = -1
    · subst h2; norm_num
    have e1 : m - 1 ≠ 0 := by omega
    have e2 : m + 1 ≠ 0 := by omega
    by_cases h3 : m = 0
    · subst h3; simp
    simp [e1, e2, h3]
  | succ l ih =>
    intro m
    have hl : ((l : ℂ) + 1) ≠ 0 := by exact_mod_cast Nat.succ_ne_zero l
    have hl2 : ((l : ℂ) + 2) ≠ 0 := by exact_mod_cast (by omega : l + 2 ≠ 0)
    have s0 := solS_succ p q z (l + 1) m
    push_cast at s0
    have a0 := ih m
    have a1 := ih (m - 1)
    have a2 := ih (m + 1)
    have b1 := solS_succ p q z l (m - 1)
    have b2 := solS_succ p q z l (m + 1)
    rw [sub_add_cancel] at *
    rw [add_sub_cancel_right] at *
    push_cast at *
    have : ((l : ℂ) + 2) * ((m : ℂ) * solS p q z (l + 1 + 1) m) =
        ((l : ℂ) + 2) * (- (p / 2) * solS p q z (l + 1) (m - 1) - q / 2 * solS p q z (l + 1) (m + 1)) := by
      linear_combination (m : ℂ) * s0 + z * a0 - p / 2 * a1 + q / 2 * a2 + p / 2 * b1 + q / 2 * b2
    exact mul_left_cancel₀ hl2 this

theorem solS_add_m (p q z : ℂ) (l : ℕ) (m : ℤ) :
    ((l : ℂ) + 1 + m) * solS p q z (l + 1) m = z * solS p q z l m - p * solS p q z l (m - 1) := by
  linear_combination solS_succ p q z l m + solS_mul_m p q z l m

theorem solS_sub_m (p q z : ℂ) (l : ℕ) (m : ℤ) :
    ((l : ℂ) + 1 - m) * solS p q z (l + 1) m = z * solS p q z l m + q * solS p q z l (m + 1) := by
  linear_combination solS_succ p q z l m - solS_mul_m p q z l m

/-- The three-term recurrence of the associated Legendre functions. -/
theorem solS_three (p q z : ℂ) (l : ℕ) (m : ℤ) :
    ((l : ℂ) + 2 + m) * ((l : ℂ) + 2 - m) * solS p q z (l + 2) m =
      (2 * l + 3) * z * solS p q z (l + 1) m - (z ^ 2 + p * q) * solS p q z l m := by
  have h1 := solS_sub_m p q z (l + 1) m
  have h2 := solS_add_m p q z l (m + 1)
  have h3 := solS_sub_m p q z l m
  rw [add_sub_cancel_right] at h2
  push_cast at *
  linear_combination ((l : ℂ) + 2 + m) * h1 + q * h2 - z * h3

/-- Multiplication by `p`. -/
theorem solS_mul_p (p q z : ℂ) (l : ℕ) (m : ℤ) :
    (2 * (l : ℂ) + 3) * (p * solS p q z (l + 1) (m - 1)) =
      - (((l : ℂ) + 2 + m) * ((l : ℂ) + 1 + m)) * solS p q z (l + 2) m
        + (z ^ 2 + p * q) * solS p q z l m := by
  have h1 := solS_add_m p q z (l + 1) m
  have h2 := solS_three p q z l m
  push_cast at *
  linear_combination (2 * (l : ℂ) + 3) * h1 - h2

/-- Multiplication by `q`. -/
theorem solS_mul_q (p q z : ℂ) (l : ℕ) (m : ℤ) :
    (2 * (l : ℂ) + 3) * (q * solS p q z (l + 1) (m + 1)) =
      (((l : ℂ) + 2 - m) * ((l : ℂ) + 1 - m)) * solS p q z (l + 2) m
        - (z ^ 2 + p * q) * solS p q z l m := by
  have h1 := solS_sub_m p q z (l + 1) m
  have h2 := solS_three p q z l m
  push_cast at *
  linear_combination -(2 * (l : ℂ) + 3) * h1 + h2

/-- Multiplication by `z`. -/
theorem solS_mul_z (p q z : ℂ) (l : ℕ) (m : ℤ) :
    (2 * (l : ℂ) + 3) * (z * solS p q z (l + 1) m) =
      ((l : ℂ) + 2 + m) * ((l : ℂ) + 2 - m) * solS p q z (l + 2) m
        + (z ^ 2 + p * q) * solS p q z l m := by
  linear_combination - solS_three p q z l m

theorem solS_top (p q z : ℂ) (l : ℕ) :
    ((l : ℂ) + 1) * solS p q z (l + 1) (l + 1) = - (p / 2) * solS p q z l l := by
  have h := solS_succ p q z l (l + 1)
  rw [solS_zero_of_lt p q z l (l + 1) (by rw [abs_of_nonneg] <;> omega),
    solS_zero_of_lt p q z l (l + 1 + 1) (by rw [abs_of_nonneg] <;> omega), add_sub_cancel_right] at h
  rw [h]; ring

theorem solS_next (p q z : ℂ) (l : ℕ) : solS p q z (l + 1) l = z * solS p q z l l := by
  have h := solS_sub_m p q z l l
  rw [solS_zero_of_lt p q z l (l + 1) (by rw [abs_of_nonneg] <;> omega)] at h
  have : ((l : ℂ) + 1 - (l : ℤ)) = 1 := by push_cast; ring
  rw [this] at h
  simpa using h

/-- Scaling. -/
theorem solS_smul (t p q z : ℂ) (l : ℕ) : ∀ m : ℤ,
    solS (t * p) (t * q) (t * z) l m = t ^ l * solS p q z l m := by
  induction l with
  | zero => intro m; simp [solS]
  | succ l ih => intro m; simp only [solS, ih]; ring

theorem solS_neg (p q z : ℂ) (l : ℕ) (m : ℤ) :
    solS (-p) (-q) (-z) l m = (-1) ^ l * solS p q z l m := by
  simpa using solS_smul (-1) p q z l m

/-- Complex conjugation for real vectors. -/
theorem solS_conj (p : ℂ) (z : ℝ) (l : ℕ) : ∀ m : ℤ,
    solS p (starRingEnd ℂ p) z l (-m) = (-1) ^ m * starRingEnd ℂ (solS p (starRingEnd ℂ p) z l m) := by
  induction l with
  | zero =>
    intro m
    by_cases h : m = 0
    · subst h; simp [solS]
    · simp [solS, h]
  | succ l ih =>
    intro m
    have e1 : -m - 1 = -(m + 1) := by ring
    have e2 : -m + 1 = -(m - 1) := by ring
    have s1 : ((-1 : ℂ)) ^ (m + 1) = - (-1) ^ m := by
      rw [zpow_add₀ (by norm_num)]; simp
    have s2 : ((-1 : ℂ)) ^ (m - 1) = - (-1) ^ m := by
      rw [zpow_sub₀ (by norm_num)]; simp [div_neg]
    simp only [solS]
    rw [e1, e2, ih m, ih (m + 1), ih (m - 1), s1, s2]
    simp only [map_div₀, map_add, map_sub, map_mul, Complex.conj_conj, Complex.conj_ofReal,
      map_natCast, map_one, map_ofNat]
    ring

/-- Value on the axis. -/
theorem solS_axis (z : ℂ) (l : ℕ) : ∀ m : ℤ,
    solS 0 0 z l m = if m = 0 then z ^ l / (l.factorial : ℂ) else 0 := by
  induction l with
  | zero => intro m; simp [solS]
  | succ l ih =>
    intro m
    have h1 : ((l : ℂ) + 1) ≠ 0 := by exact_mod_cast Nat.succ_ne_zero l
    have h2 : (l.factorial : ℂ) ≠ 0 := by exact_mod_cast Nat.factorial_ne_zero l
    simp only [solS, ih, zero_div, zero_mul, sub_zero, add_zero]
    by_cases h : m = 0
    · rw [if_pos h, if_pos h, Nat.factorial_succ]; push_cast
      field_simp
      ring
    · rw [if_neg h, if_neg h]; simp

theorem solS_origin (l : ℕ) (m : ℤ) : solS 0 0 0 l m = if l = 0 ∧ m = 0 then 1 else 0 := by
  rw [solS_axis]
  by_cases hl : l = 0 <;> by_cases hm : m = 0 <;> simp [hl, hm]

/-! ### Derivative along a line -/

/-- Derivative of the solid harmonics along a line. -/
theorem solS_hasDerivAt (p q z p' q' z' : ℂ) (l : ℕ) : ∀ (m : ℤ) (t : ℂ),
    HasDerivAt (fun t => solS (p + t * p') (q + t * q') (z + t * z') l m)
      (match l with
        | 0 => 0
        | k + 1 => z' * solS (p + t * p') (q + t * q') (z + t * z') k m
          - p' / 2 * solS (p + t * p') (q + t * q') (z + t * z') k (m - 1)
          + q' / 2 * solS (p + t * p') (q + t * q') (z + t * z') k (m + 1)) t := by
  induction l with
  | zero => intro m t; simp only [solS]; exact hasDerivAt_const _ _
  | succ l ih =>
    intro m t
    have hl : ((l : ℂ) + 1) ≠ 0 := by exact_mod_cast Nat.succ_ne_zero l
    have line : ∀ a b : ℂ, HasDerivAt (fun t => a + t * b) b t := fun a b => by
      simpa using ((hasDerivAt_id t).mul_const b).const_add a
    have d1 := (line z z').fun_mul (ih m t)
    have d2 := ((line p p').div_const 2).fun_mul (ih (m - 1) t)
    have d3 := ((line q q').div_const 2).fun_mul (ih (m + 1) t)
    have := (((d1.fun_sub d2).fun_add d3).div_const ((l : ℂ) + 1))
    simp only [solS]
    refine this.congr_deriv ?_
    rw [div_eq_iff hl]
    cases l with
    | zero => simp
    | succ k =>
      have e0 := solS_succ (p + t * p') (q + t * q') (z + t * z') k m
      have e1 := solS_succ (p + t * p') (q + t * q') (z + t * z') k (m - 1)
      have e2 := solS_succ (p + t * p') (q + t * q') (z + t * z') k (m + 1)
      rw [sub_add_cancel] at *
      rw [add_sub_cancel_right] at *
      simp only
      push_cast
      linear_combination - z' * e0 + p' / 2 * e1 - q' / 2 * e2

/-! ### Addition theorem -/

/-- Sum over `|μ| ≤ l` of `S_l^μ f(m-μ)`. -/
noncomputable def solConv (p q z : ℂ) (l : ℕ) (f : ℤ → ℂ) (m : ℤ) : ℂ :=
  ∑ μ ∈ Icc (-(l : ℤ)) l, solS p q z l μ * f (m - μ)

theorem solConv_of_le (p q z : ℂ) (l : ℕ) (f : ℤ → ℂ) (m a b : ℤ) (ha : a ≤ -(l : ℤ)) (hb : (l : ℤ) ≤ b) :
    ∑ μ ∈ Icc a b, solS p q z l μ * f (m - μ) = solConv p q z l f m := by
  symm
  refine Finset.sum_subset (Icc_subset_Icc ha hb) fun μ _ hμ => ?_
  rw [solS_zero_of_lt, zero_mul]
  rw [mem_Icc] at hμ
  rcases abs_cases μ with ⟨h', _⟩ | ⟨h', _⟩ <;> omega

theorem sum_Icc_shift (a b c : ℤ) (g : ℤ → ℂ) :
    ∑ μ ∈ Icc a b, g (μ + c) = ∑ μ ∈ Icc (a + c) (b + c), g μ := by
  refine Finset.sum_bij (fun μ _ => μ + c) ?_ ?_ ?_ ?_
  · intro μ h; rw [mem_Icc] at *; omega
  · intro a _ b _ h; exact add_right_cancel h
  · intro μ h; exact ⟨μ - c, by rw [mem_Icc] at *; omega, by ring⟩
  · intro _ _; rfl

theorem solConv_succ (p q z : ℂ) (l : ℕ) (f : ℤ → ℂ) (m : ℤ) :
    ((l : ℂ) + 1) * solConv p q z (l + 1) f m =
      z * solConv p q z l f m - p / 2 * solConv p q z l f (m - 1) + q / 2 * solConv p q z l f (m + 1) := by
  have e0 := solConv_of_le p q z l f m (-((l : ℤ) + 1)) (l + 1) (by omega) (by omega)
  have e1 : ∑ μ ∈ Icc (-((l : ℤ) + 1)) (l + 1), solS p q z l (μ - 1) * f (m - μ) =
      solConv p q z l f (m - 1) := by
    have := sum_Icc_shift (-((l : ℤ) + 1)) (l + 1) (-1) fun μ => solS p q z l μ * f (m - 1 - μ)
    rw [solConv_of_le p q z l f (m - 1) _ _ (by omega) (by omega)] at this
    rw [← this]
    refine Finset.sum_congr rfl fun μ _ => ?_
    rw [← sub_eq_add_neg]; congr 2; ring
  have e2 : ∑ μ ∈ Icc (-((l : ℤ) + 1)) (l + 1), solS p q z l (μ + 1) * f (m - μ) =
      solConv p q z l f (m + 1) := by
    have := sum_Icc_shift (-((l : ℤ) + 1)) (l + 1) 1 fun μ => solS p q z l μ * f (m + 1 - μ)
    rw [solConv_of_le p q z l f (m + 1) _ _ (by omega) (by omega)] at this
    rw [← this]
    refine Finset.sum_congr rfl fun μ _ => ?_
    congr 2; ring
  rw [← e0, ← e1, ← e2]
  simp only [solConv, Finset.mul_sum]
  rw [← Finset.sum_sub_distrib, ← Finset.sum_add_distrib]
  push_cast
  refine Finset.sum_congr rfl fun μ _ => ?_
  linear_combination f (m - μ) * solS_succ p q z l μ

theorem solConv_zero (p q z : ℂ) (f : ℤ → ℂ) (m : ℤ) : solConv p q z 0 f m = f m := by
  simp [solConv, solS]

theorem solConv_comb (p q z : ℂ) (l : ℕ) (f g : ℤ → ℂ) (c d : ℂ) (m : ℤ) :
    solConv p q z l (fun k => c * f k + d * g k) m = c * solConv p q z l f m + d * solConv p q z l g m := by
  simp only [solConv, Finset.mul_sum, ← Finset.sum_add_distrib]
  exact Finset.sum_congr rfl fun μ _ => by ring

theorem solConv_shift (p q z : ℂ) (l : ℕ) (f : ℤ → ℂ) (c : ℤ) (m : ℤ) :
    solConv p q z l (fun k => f (k + c)) m = solConv p q z l f (m + c) := by
  unfold solConv
  exact Finset.sum_congr rfl fun μ _ => by simp only [sub_add_eq_add_sub]

theorem solConv_solS_succ (p q z p' q' z' : ℂ) (l k : ℕ) (m : ℤ) :
    ((k : ℂ) + 1) * solConv p q z l (solS p' q' z' (k + 1)) m =
      z' * solConv p q z l (solS p' q' z' k) m - p' / 2 * solConv p q z l (solS p' q' z' k) (m - 1)
        + q' / 2 * solConv p q z l (solS p' q' z' k) (m + 1) := by
  rw [sub_eq_add_neg m 1, ← solConv_shift, ← solConv_shift]
  simp only [solConv, Finset.mul_sum]
  rw [← Finset.sum_sub_distrib, ← Finset.sum_add_distrib]
  refine Finset.sum_congr rfl fun μ _ => ?_
  rw [← sub_eq_add_neg]
  linear_combination solS p q z l μ * solS_succ p' q' z' k (m - μ)

/-- Addition theorem of the regular solid harmonics. -/
theorem solS_add (p q z p' q' z' : ℂ) (l : ℕ) : ∀ m : ℤ,
    solS (p + p') (q + q') (z + z') l m =
      ∑ k ∈ range (l + 1), solConv p q z k (solS p' q' z' (l - k)) m := by
  induction l with
  | zero => intro m; simp [solConv_zero, solS]
  | succ l ih =>
    intro m
    have hl : ((l : ℂ) + 1) ≠ 0 := by exact_mod_cast Nat.succ_ne_zero l
    apply mul_left_cancel₀ hl
    rw [solS_succ, ih m, ih (m - 1), ih (m + 1)]
    have key : ∀ k ∈ range (l + 2), ((l : ℂ) + 1) * solConv p q z k (solS p' q' z' (l + 1 - k)) m =
        (k : ℂ) * solConv p q z k (solS p' q' z' (l + 1 - k)) m +
          ((l + 1 - k : ℕ) : ℂ) * solConv p q z k (solS p' q' z' (l + 1 - k)) m := by
      intro k hk
      rw [Finset.mem_range] at hk
      rw [Nat.cast_sub (by omega)]; push_cast; ring
    rw [show l + 1 + 1 = l + 2 from rfl, Finset.mul_sum (range (l + 2)), Finset.sum_congr rfl key,
      Finset.sum_add_distrib]
    have s1 : ∑ k ∈ range (l + 2), (k : ℂ) * solConv p q z k (solS p' q' z' (l + 1 - k)) m =
        ∑ k ∈ range (l + 1), (z * solConv p q z k (solS p' q' z' (l - k)) m
          - p / 2 * solConv p q z k (solS p' q' z' (l - k)) (m - 1)
          + q / 2 * solConv p q z k (solS p' q' z' (l - k)) (m + 1)) := by
      rw [Finset.sum_range_succ']
      simp only [Nat.cast_zero, zero_mul, add_zero]
      refine Finset.sum_congr rfl fun k _ => ?_
      rw [← solConv_succ, Nat.succ_sub_succ_eq_sub]; push_cast; ring
    have s2 : ∑ k ∈ range (l + 2), ((l + 1 - k : ℕ) : ℂ) * solConv p q z k (solS p' q' z' (l + 1 - k)) m =
        ∑ k ∈ range (l + 1), (z' * solConv p q z k (solS p' q' z' (l - k)) m
          - p' / 2 * solConv p q z k (solS p' q' z' (l - k)) (m - 1)
          + q' / 2 * solConv p q z k (solS p' q' z' (l - k)) (m + 1)) := by
      rw [Finset.sum_range_succ]
      simp only [Nat.sub_self, Nat.cast_zero, zero_mul, add_zero]
      refine Finset.sum_congr rfl fun k hk => ?_
      rw [Finset.mem_range] at hk
      have : l + 1 - k = (l - k) + 1 := by omega
      rw [this, ← solConv_solS_succ]; push_cast; ring
    rw [s1, s2]
    simp only [Finset.sum_add_distrib, Finset.sum_sub_distrib, ← Finset.mul_sum]
    ring

end Hotbit
