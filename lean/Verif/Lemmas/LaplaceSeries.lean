import Verif.Lemmas.Laplace
import Mathlib.Analysis.SpecificLimits.Normed

/-!
# Sum and error of the multipole series
-/

namespace Hotbit

open Finset

set_option linter.unusedSimpArgs false

theorem norm3_line_hasDerivAt (r a : Vec) (s : ℝ) (h : r - s • a ≠ 0) :
    HasDerivAt (fun t : ℝ => norm3 (r - t • a)) ((s * dot3 a a - dot3 r a) * (norm3 (r - s • a))⁻¹) s := by
  have d := norm3_hasDerivAt (r - s • a) (-a) h
  have e : (fun t : ℝ => norm3 (r - t • a)) = fun t => (fun x : ℝ => norm3 (r - s • a + x • -a)) (t - s) := by
    funext t
    show norm3 (r - t • a) = norm3 (r - s • a + (t - s) • -a)
    congr 1
    rw [sub_smul]
    module
  rw [e]
  have d2 := HasDerivAt.scomp_of_eq s d ((hasDerivAt_id s).sub_const s) (by simp)
  refine d2.congr_deriv ?_
  simp only [one_smul, dotProduct, Fin.sum_univ_three, Pi.smul_apply, Pi.sub_apply, Pi.neg_apply, smul_eq_mul]
  unfold dot3
  ring

theorem norm3_line_sq (r a : Vec) (s : ℝ) :
    norm3 (r - s • a) ^ 2 = norm3 r ^ 2 - 2 * dot3 r a * s + dot3 a a * s ^ 2 := by
  rw [norm3_sq, norm3_sq]
  unfold dot3
  simp only [Pi.sub_apply, Pi.smul_apply, smul_eq_mul]
  ring

theorem summable_nat_geometric (C x : ℝ) (x0 : 0 ≤ x) (x1 : x < 1) :
    Summable fun n : ℕ => C * ((n : ℝ) * x ^ n) := by
  have h : Summable fun n : ℕ => (n : ℝ) ^ 1 * x ^ n :=
    summable_pow_mul_geometric_of_norm_lt_one 1 (by rwa [Real.norm_eq_abs, abs_of_nonneg x0])
  simp only [pow_one] at h
  exact h.mul_left C

section
variable (a r : Vec) (h : r ≠ 0) (ρ : ℝ) (hρ : 0 < ρ) (hx : norm3 a * ρ < norm3 r)
include h hρ hx

theorem lap_line_ne (s : ℝ) (hs : |s| < ρ) : r - s • a ≠ 0 := by
  intro h0
  have hp := norm3_pos h
  have e : norm3 r ^ 2 = (s * norm3 a) ^ 2 := by
    rw [sub_eq_zero.1 h0, norm3_sq, mul_pow, norm3_sq]
    simp only [Pi.smul_apply, smul_eq_mul]; ring
  have e2 : norm3 r = |s| * norm3 a := by
    rw [← abs_of_pos hp, ← abs_of_nonneg (norm3_nonneg a), ← abs_mul]
    exact (sq_eq_sq_iff_abs_eq_abs _ _).1 e
  have := mul_le_mul_of_nonneg_right hs.le (norm3_nonneg a)
  nlinarith

theorem lap_ratio : 0 ≤ norm3 a * ρ * (norm3 r)⁻¹ ∧ norm3 a * ρ * (norm3 r)⁻¹ < 1 := by
  have hp := norm3_pos h
  have ha := norm3_nonneg a
  refine ⟨by positivity, ?_⟩
  rw [← div_eq_mul_inv, div_lt_one hp]
  exact hx

theorem lap_term_bound (s : ℝ) (hs : |s| ≤ ρ) (n : ℕ) :
    ‖lapT a r n * s ^ n‖ ≤ (norm3 r)⁻¹ * (norm3 a * ρ * (norm3 r)⁻¹) ^ n := by
  have hp := norm3_pos h
  have ha := norm3_nonneg a
  rw [Real.norm_eq_abs, abs_mul, abs_pow]
  refine (mul_le_mul (lapT_le a r h n) (pow_le_pow_left₀ (abs_nonneg s) hs n) (by positivity) (by positivity)).trans
    (le_of_eq ?_)
  rw [mul_pow, mul_pow, pow_succ]; ring

theorem lap_der_bound (s : ℝ) (hs : |s| ≤ ρ) (n : ℕ) :
    ‖lapT a r n * ((n : ℝ) * s ^ (n - 1))‖ ≤ (ρ⁻¹ * (norm3 r)⁻¹) * ((n : ℝ) * (norm3 a * ρ * (norm3 r)⁻¹) ^ n) := by
  have hp := norm3_pos h
  have ha := norm3_nonneg a
  rcases n with - | n
  · simp
  rw [Real.norm_eq_abs, abs_mul, abs_mul, abs_pow, abs_of_nonneg (by positivity : (0 : ℝ) ≤ ((n + 1 : ℕ) : ℝ))]
  simp only [Nat.add_sub_cancel]
  have h1 : ((n + 1 : ℕ) : ℝ) * |s| ^ n ≤ ((n + 1 : ℕ) : ℝ) * ρ ^ n :=
    mul_le_mul_of_nonneg_left (pow_le_pow_left₀ (abs_nonneg s) hs n) (by positivity)
  refine (mul_le_mul (lapT_le a r h (n + 1)) h1 (by positivity) (by positivity)).trans (le_of_eq ?_)
  have : ρ⁻¹ * ρ ^ (n + 1) = ρ ^ n := by rw [pow_succ]; field_simp
  rw [← this, mul_pow, mul_pow, pow_succ _ (n + 1)]
  ring

theorem lap_summable (s : ℝ) (hs : |s| ≤ ρ) : Summable fun n => lapT a r n * s ^ n := by
  obtain ⟨x0, x1⟩ := lap_ratio a r h ρ hρ hx
  exact Summable.of_norm_bounded ((summable_geometric_of_lt_one x0 x1).mul_left _) (lap_term_bound a r h ρ hρ hx s hs)

theorem lap_der_summable (s : ℝ) (hs : |s| ≤ ρ) : Summable fun n : ℕ => lapT a r n * ((n : ℝ) * s ^ (n - 1)) := by
  obtain ⟨x0, x1⟩ := lap_ratio a r h ρ hρ hx
  exact Summable.of_norm_bounded (summable_nat_geometric _ _ x0 x1) (lap_der_bound a r h ρ hρ hx s hs)

theorem lap_hasDerivAt (s : ℝ) (hs : |s| < ρ) :
    HasDerivAt (fun z => ∑' n, lapT a r n * z ^ n) (∑' n : ℕ, lapT a r n * ((n : ℝ) * s ^ (n - 1))) s := by
  obtain ⟨x0, x1⟩ := lap_ratio a r h ρ hρ hx
  have hsum := summable_nat_geometric (ρ⁻¹ * (norm3 r)⁻¹) _ x0 x1
  have h1 : ∀ (n : ℕ) (y : ℝ), y ∈ Set.Ioo (-ρ) ρ →
      HasDerivAt ((fun (n : ℕ) (z : ℝ) => lapT a r n * z ^ n) n)
        ((fun (n : ℕ) (z : ℝ) => lapT a r n * ((n : ℝ) * z ^ (n - 1))) n y) y := fun n y _ =>
    (hasDerivAt_pow n y).const_mul _
  have h2 : ∀ (n : ℕ) (y : ℝ), y ∈ Set.Ioo (-ρ) ρ →
      ‖(fun (n : ℕ) (z : ℝ) => lapT a r n * ((n : ℝ) * z ^ (n - 1))) n y‖ ≤
        (fun n : ℕ => ρ⁻¹ * (norm3 r)⁻¹ * ((n : ℝ) * (norm3 a * ρ * (norm3 r)⁻¹) ^ n)) n := fun n y hy =>
    lap_der_bound a r h ρ hρ hx y (abs_lt.2 hy).le n
  have h3 := lap_summable a r h ρ hρ hx 0 (by rw [abs_zero]; exact hρ.le)
  have h0 : (0 : ℝ) ∈ Set.Ioo (-ρ) ρ := ⟨by linarith, hρ⟩
  exact hasDerivAt_tsum_of_isPreconnected hsum isOpen_Ioo isPreconnected_Ioo h1 h2 h0 h3 (abs_lt.1 hs)

/-- The differential equation of the generating function. -/
theorem lap_ode (s : ℝ) (hs : |s| ≤ ρ) :
    norm3 (r - s • a) ^ 2 * ∑' n : ℕ, lapT a r n * ((n : ℝ) * s ^ (n - 1)) =
      (dot3 r a - s * dot3 a a) * ∑' n, lapT a r n * s ^ n := by
  have hG := (lap_summable a r h ρ hρ hx s hs).hasSum
  have hD := (lap_der_summable a r h ρ hρ hx s hs).hasSum
  set G := ∑' n, lapT a r n * s ^ n
  set D := ∑' n : ℕ, lapT a r n * ((n : ℝ) * s ^ (n - 1))
  rw [norm3_line_sq]
  -- `r² (D - T₁)`
  have h1 : HasSum (fun n : ℕ => lapT a r (n + 2) * (((n : ℝ) + 2) * s ^ (n + 1))) (D - lapT a r 1) := by
    have := (hasSum_nat_add_iff' 2).2 hD
    simp only [Finset.sum_range_succ, Finset.sum_range_zero, Nat.cast_zero, zero_mul, mul_zero, zero_add,
      Nat.cast_one, one_mul, Nat.sub_self, pow_zero, mul_one] at this
    refine this.congr_fun ?_
    intro n
    push_cast
    rfl
  have hsD : HasSum (fun n : ℕ => (n : ℝ) * (lapT a r n * s ^ n)) (s * D) := by
    refine (hD.mul_left s).congr_fun ?_
    intro n
    rcases n with - | n
    · simp
    · simp only [Nat.add_sub_cancel]; ring
  have h2 : HasSum (fun n : ℕ => (2 * (n : ℝ) + 3) * (lapT a r (n + 1) * s ^ (n + 1))) (2 * (s * D) + G - lapT a r 0) := by
    have := (hasSum_nat_add_iff' 1).2 ((hsD.mul_left 2).add hG)
    simp only [Finset.sum_range_succ, Finset.sum_range_zero, Nat.cast_zero, zero_mul, mul_zero, zero_add,
      pow_zero, mul_one] at this
    refine this.congr_fun ?_
    intro n
    push_cast
    ring
  have h3 : HasSum (fun n : ℕ => ((n : ℝ) + 1) * (lapT a r n * s ^ (n + 1))) (s * (s * D) + s * G) := by
    refine ((hsD.mul_left s).add (hG.mul_left s)).congr_fun ?_
    intro n
    ring
  have h4 := ((h1.mul_left (norm3 r ^ 2)).sub (h2.mul_left (dot3 r a))).add (h3.mul_left (dot3 a a))
  have h5 : (fun n : ℕ => norm3 r ^ 2 * (lapT a r (n + 2) * (((n : ℝ) + 2) * s ^ (n + 1)))
      - dot3 r a * ((2 * (n : ℝ) + 3) * (lapT a r (n + 1) * s ^ (n + 1)))
      + dot3 a a * (((n : ℝ) + 1) * (lapT a r n * s ^ (n + 1)))) = fun _ => 0 := by
    funext n
    have := lapT_rec a r h n
    linear_combination (s ^ (n + 1)) * this
  rw [h5] at h4
  have h6 := h4.unique hasSum_zero
  have h7 := lapT_one a r h
  linear_combination h6 + h7

end

/-- **Laplace expansion**: the series sums to the potential of the charge. -/
theorem lap_hasSum (a r : Vec) (h : norm3 a < norm3 r) : HasSum (lapT a r) (norm3 (r - a))⁻¹ := by
  have ha := norm3_nonneg a
  have hp : 0 < norm3 r := lt_of_le_of_lt ha h
  have hr : r ≠ 0 := by
    intro h0; rw [h0, norm3_eq_zero.2 rfl] at hp; exact lt_irrefl _ hp
  obtain ⟨ρ, h1, hx⟩ : ∃ ρ : ℝ, 1 < ρ ∧ norm3 a * ρ < norm3 r := by
    refine ⟨2 * norm3 r / (norm3 a + norm3 r), ?_, ?_⟩
    · rw [lt_div_iff₀ (by linarith)]; linarith
    · rw [mul_div_assoc', div_lt_iff₀ (by linarith)]; nlinarith
  have hρ : 0 < ρ := by linarith
  have hne : ∀ s : ℝ, |s| < ρ → r - s • a ≠ 0 := lap_line_ne a r hr ρ hρ hx
  set G : ℝ → ℝ := fun z => ∑' n, lapT a r n * z ^ n with hGdef
  have dH : ∀ s : ℝ, |s| < ρ → HasDerivAt (fun z => G z * norm3 (r - z • a)) 0 s := by
    intro s hs
    have d := (lap_hasDerivAt a r hr ρ hρ hx s hs).fun_mul (norm3_line_hasDerivAt r a s (hne s hs))
    refine d.congr_deriv ?_
    have hn := norm3_pos (hne s hs)
    have o := lap_ode a r hr ρ hρ hx s hs.le
    refine mul_left_cancel₀ hn.ne' ?_
    rw [mul_zero]
    have : norm3 (r - s • a) * (norm3 (r - s • a))⁻¹ = 1 := mul_inv_cancel₀ hn.ne'
    linear_combination o + ((s * dot3 a a - dot3 r a) * ∑' n, lapT a r n * s ^ n) * this
  have hc := constant_of_has_deriv_right_zero (f := fun z => G z * norm3 (r - z • a)) (a := 0) (b := 1)
    (fun x hx' => (dH x (by rw [abs_of_nonneg hx'.1]; linarith [hx'.2])).continuousAt.continuousWithinAt)
    (fun x hx' => (dH x (by rw [abs_of_nonneg hx'.1]; linarith [hx'.2])).hasDerivWithinAt) 1 ⟨by norm_num, le_refl _⟩
  have hG0 : G 0 = (norm3 r)⁻¹ := by
    rw [hGdef, ← lapT_zero a r]
    show ∑' n, lapT a r n * (0 : ℝ) ^ n = _
    rw [tsum_eq_single 0]
    · simp
    · intro n hn; rw [zero_pow hn, mul_zero]
  have hG1 : G 1 * norm3 (r - a) = 1 := by
    have : G 1 * norm3 (r - (1 : ℝ) • a) = G 0 * norm3 (r - (0 : ℝ) • a) := hc
    rw [one_smul, zero_smul, sub_zero, hG0, inv_mul_cancel₀ hp.ne'] at this
    exact this
  have hn : norm3 (r - a) ≠ 0 := by
    intro h0; rw [h0, mul_zero] at hG1; exact zero_ne_one hG1
  have hG : G 1 = (norm3 (r - a))⁻¹ := by field_simp; exact hG1
  rw [← hG]
  have := (lap_summable a r hr ρ hρ hx 1 (by rw [abs_one]; exact h1.le)).hasSum
  simp only [one_pow, mul_one] at this
  rw [hGdef]
  simp only [one_pow, mul_one]
  exact this

/-- Error of the series broken off after degree `p`. -/
theorem lap_error (a r : Vec) (h : norm3 a < norm3 r) (p : ℕ) :
    |(norm3 (r - a))⁻¹ - ∑ n ∈ range (p + 1), lapT a r n| ≤
      (norm3 a / norm3 r) ^ (p + 1) / (norm3 r - norm3 a) := by
  have ha := norm3_nonneg a
  have hp : 0 < norm3 r := lt_of_le_of_lt ha h
  have hr : r ≠ 0 := by
    intro h0; rw [h0, norm3_eq_zero.2 rfl] at hp; exact lt_irrefl _ hp
  have x0 : 0 ≤ norm3 a / norm3 r := by positivity
  have x1 : norm3 a / norm3 r < 1 := (div_lt_one hp).2 h
  have hs := (hasSum_nat_add_iff' (p + 1)).2 (lap_hasSum a r h)
  have hg := ((hasSum_geometric_of_lt_one x0 x1).mul_left ((norm3 r)⁻¹ * (norm3 a / norm3 r) ^ (p + 1)))
  have hb : ∀ n, ‖lapT a r (n + (p + 1))‖ ≤ (norm3 r)⁻¹ * (norm3 a / norm3 r) ^ (p + 1) * (norm3 a / norm3 r) ^ n := by
    intro n
    refine (lapT_le a r hr _).trans (le_of_eq ?_)
    rw [mul_assoc, ← pow_add, div_pow, div_eq_mul_inv, ← inv_pow, pow_succ, add_comm n (p + 1)]
    ring
  have := tsum_of_norm_bounded hg hb
  rw [hs.tsum_eq, Real.norm_eq_abs] at this
  refine this.trans (le_of_eq ?_)
  have h3 : norm3 r - norm3 a ≠ 0 := by linarith
  have h4 : 1 - norm3 a / norm3 r = (norm3 r - norm3 a) / norm3 r := by field_simp
  rw [h4]
  field_simp

end Hotbit
