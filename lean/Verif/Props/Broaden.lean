import Verif.Lemmas.Analysis
import Verif.Lemmas.KPoints
import Mathlib.Analysis.SpecialFunctions.Gaussian.GaussianIntegral
import Mathlib.Analysis.SpecialFunctions.ImproperIntegrals
import Mathlib.MeasureTheory.Integral.Bochner.Basic
import Mathlib.MeasureTheory.Group.Integral
import Mathlib.MeasureTheory.Measure.Lebesgue.Integral

/-!
# C84: broadening conserves the weight of the peaks
-/

namespace Hotbit

open MeasureTheory

/-- The two broadening functions. -/
def BroadFn.Known (fn : BroadFn) : Prop := fn = .gaussian ∨ fn = .lorentzian

theorem gaussian_int (w c : ℝ) (hw : 0 < w) :
    Integrable (fun x => peak w c x .gaussian) ∧ ∫ x, peak w c x .gaussian = 1 := by
  have e : (fun x => peak w c x .gaussian)
      = fun x => (fun y => Real.exp (-(1 / (2 * w ^ 2)) * y ^ 2) / (√(2 * Real.pi) * w)) (x - c) := by
    funext x
    simp only [peak]
    congr 2
    field_simp
  have hb : 0 < 1 / (2 * w ^ 2) := by positivity
  have hi : Integrable fun y => Real.exp (-(1 / (2 * w ^ 2)) * y ^ 2) / (√(2 * Real.pi) * w) :=
    (integrable_exp_neg_mul_sq hb).div_const _
  rw [e]
  refine ⟨hi.comp_sub_right c, ?_⟩
  rw [integral_sub_right_eq_self (fun y => Real.exp (-(1 / (2 * w ^ 2)) * y ^ 2) / (√(2 * Real.pi) * w)) c,
    integral_div, integral_gaussian]
  have : Real.pi / (1 / (2 * w ^ 2)) = (2 * Real.pi) * w ^ 2 := by field_simp
  rw [this, Real.sqrt_mul (by positivity), Real.sqrt_sq hw.le]
  have : 0 < √(2 * Real.pi) * w := by positivity
  exact div_self this.ne'

theorem lorentzian_int (w c : ℝ) (hw : 0 < w) :
    Integrable (fun x => peak w c x .lorentzian) ∧ ∫ x, peak w c x .lorentzian = 1 := by
  have e : (fun x => peak w c x .lorentzian)
      = fun x => (fun y => (fun z => (1 / (w * Real.pi)) * (1 + z ^ 2)⁻¹) (y / w)) (x - c) := by
    funext x
    simp only [peak]
    have : (0:ℝ) < (x - c) ^ 2 + w ^ 2 := by positivity
    have := Real.pi_pos
    have h2 : (0:ℝ) < w ^ 2 + (x - c) ^ 2 := by positivity
    field_simp
    ring
  have hi : Integrable fun z : ℝ => (1 / (w * Real.pi)) * (1 + z ^ 2)⁻¹ :=
    integrable_inv_one_add_sq.const_mul _
  have hi2 : Integrable fun y : ℝ => (fun z : ℝ => (1 / (w * Real.pi)) * (1 + z ^ 2)⁻¹) (y / w) :=
    hi.comp_div hw.ne'
  rw [e]
  refine ⟨hi2.comp_sub_right c, ?_⟩
  rw [integral_sub_right_eq_self (fun y : ℝ => (fun z : ℝ => (1 / (w * Real.pi)) * (1 + z ^ 2)⁻¹) (y / w)) c,
    Measure.integral_comp_div (fun z : ℝ => (1 / (w * Real.pi)) * (1 + z ^ 2)⁻¹) w,
    integral_const_mul, integral_univ_inv_one_add_sq, abs_of_pos hw]
  have := Real.pi_pos
  simp only [smul_eq_mul]
  field_simp

theorem peak_int (fn : BroadFn) (hf : fn.Known) (w c : ℝ) (hw : 0 < w) :
    Integrable (fun x => peak w c x fn) ∧ ∫ x, peak w c x fn = 1 := by
  rcases hf with rfl | rfl
  · exact gaussian_int w c hw
  · exact lorentzian_int w c hw

theorem peak_pos (fn : BroadFn) (hf : fn.Known) (w c x : ℝ) (hw : 0 < w) : 0 < peak w c x fn := by
  have := Real.pi_pos
  rcases hf with rfl | rfl
  · simp only [peak]; positivity
  · simp only [peak]; positivity

/-- C84: over the whole axis the broadened distribution integrates to the sum of the heights, for either
broadening function and every positive width. -/
theorem c84_weight (fn : BroadFn) (hf : fn.Known) (width : ℝ) (hw : 0 < width) (xy : List (ℝ × ℝ)) :
    Integrable (broadAt fn width xy) ∧ ∫ x, broadAt fn width xy x = (xy.map Prod.snd).sum := by
  induction xy with
  | nil =>
    have : broadAt fn width [] = fun _ => 0 := by funext x; simp [broadAt]
    rw [this]; simp
  | cons p xy ih =>
    have e : broadAt fn width (p :: xy) = fun x => p.2 * peak width p.1 x fn + broadAt fn width xy x := by
      funext x; simp [broadAt]
    have hp := peak_int fn hf width p.1 hw
    rw [e]
    refine ⟨(hp.1.const_mul _).add ih.1, ?_⟩
    rw [integral_add (hp.1.const_mul _) ih.1, integral_const_mul, hp.2, ih.2]
    simp

/-- C84: what is returned. The grid is the given one or `N` points from the lower to the upper limit, and at every
grid point stands the sum of the peaks, each of the same shape, centred at its own position; missing heights are
ones. -/
theorem c84_values (fn : BroadFn) (hf : fn.Known) (x ys : List ℝ) (hy : ys.length = x.length) (width : ℝ)
    (N : ℕ) (a b : ℝ) (ext : Bool) (xgrid : Option (List ℝ)) :
    broaden x (some ys) width fn ext N (some a) (some b) xgrid
      = .ok (xgrid.getD (linspace a b N), (xgrid.getD (linspace a b N)).map fun e =>
          ∑ i : Fin x.length, ys[i.val]'(by omega) * peak width x[i] e fn) ∧
    broaden x none width fn ext N (some a) (some b) xgrid
      = broaden x (some (List.replicate x.length 1)) width fn ext N (some a) (some b) xgrid := by
  constructor
  · unfold broaden lowEnd highEnd
    simp only [bind, Except.bind, Option.getD_some]
    have e : ∀ z, broadAt fn width (x.zip ys) z
        = ∑ i : Fin x.length, ys[i.val]'(by omega) * peak width x[i] z fn := by
      intro z
      unfold broadAt
      rw [← Fin.sum_univ_getElem]
      have hl : ((x.zip ys).map fun p => p.2 * peak width p.1 z fn).length = x.length := by
        simp [hy]
      rw [← Fin.sum_congr' _ hl.symm]
      apply Finset.sum_congr rfl
      intro i _
      simp
    have e' : broadAt fn width (x.zip ys) = fun z => ∑ i : Fin x.length, ys[i.val]'(by omega) * peak width x[i] z fn :=
      funext e
    rw [← e']
    rcases hf with rfl | rfl <;> rfl
  · rfl

/-- C84: default limits. Without limits the grid covers the peaks, by four widths more on both sides if asked
for. -/
theorem c84_limits (fn : BroadFn) (x ys : List ℝ) (width : ℝ) (N : ℕ) (ext : Bool) (hx : x ≠ []) :
    ∃ lo hi, lo ∈ x ∧ hi ∈ x ∧ (∀ z ∈ x, lo ≤ z ∧ z ≤ hi) ∧
      broaden x (some ys) width fn ext N none none none = broaden x (some ys) width fn ext N
        (some (lo - if ext then 4 * width else 0)) (some (hi + if ext then 4 * width else 0)) none := by
  obtain ⟨lo, hlo⟩ : ∃ lo, x.min? = some lo := by
    cases h : x.min? with
    | none => rw [List.min?_eq_none_iff] at h; exact absurd h hx
    | some m => exact ⟨m, rfl⟩
  obtain ⟨hi, hhi⟩ : ∃ lo, x.max? = some lo := by
    cases h : x.max? with
    | none => rw [List.max?_eq_none_iff] at h; exact absurd h hx
    | some m => exact ⟨m, rfl⟩
  have h1 := List.min?_eq_some_iff.1 hlo
  have h2 := List.max?_eq_some_iff.1 hhi
  refine ⟨lo, hi, h1.1, h2.1, fun z hz => ⟨h1.2 z hz, h2.2 z hz⟩, ?_⟩
  unfold broaden lowEnd highEnd
  simp only [hlo, hhi, bind, Except.bind]

/-- C84: nonnegative heights give a nonnegative distribution. -/
theorem c84_nonneg (fn : BroadFn) (hf : fn.Known) (width : ℝ) (hw : 0 < width) (xy : List (ℝ × ℝ))
    (h : ∀ p ∈ xy, 0 ≤ p.2) (z : ℝ) : 0 ≤ broadAt fn width xy z := by
  unfold broadAt
  apply List.sum_nonneg
  intro y hy
  obtain ⟨p, hp, rfl⟩ := List.mem_map.1 hy
  exact mul_nonneg (h p hp) (peak_pos fn hf width p.1 z hw).le

/-- C84: an unknown broadening function raises `UnboundLocalError` as soon as there is a peak; no peaks and no
limits raise `ValueError`. -/
theorem c84_errors (x ys : List ℝ) (hx : x ≠ []) (hy : ys ≠ []) (width : ℝ) (N : ℕ) (a b : ℝ) (ext : Bool)
    (fn : BroadFn) (y : Option (List ℝ)) (b' : Option ℝ) (g : Option (List ℝ)) :
    broaden x (some ys) width .other ext N (some a) (some b) g = .error .unboundLocalError ∧
    broaden [] y width fn ext N none b' g = .error .valueError := by
  constructor
  · unfold broaden lowEnd highEnd
    simp only [bind, Except.bind, Option.getD_some]
    cases x with
    | nil => exact absurd rfl hx
    | cons p x =>
      cases ys with
      | nil => exact absurd rfl hy
      | cons q ys => rfl
  · rfl

/-- C84: the maximum of a peak is at its position, a peak is symmetric, and a Lorentzian reaches half its maximum
at distance `width`. -/
theorem c84_shape (fn : BroadFn) (hf : fn.Known) (w c : ℝ) (hw : 0 < w) :
    (∀ x, peak w c x fn ≤ peak w c c fn) ∧ (∀ d, peak w c (c + d) fn = peak w c (c - d) fn) ∧
    peak w c (c + w) .lorentzian = peak w c c .lorentzian / 2 := by
  have hpi := Real.pi_pos
  refine ⟨?_, ?_, ?_⟩
  · intro x
    rcases hf with rfl | rfl
    · simp only [peak]
      apply div_le_div_of_nonneg_right _ (by positivity)
      apply Real.exp_le_exp.2
      rw [sub_self]
      have : 0 ≤ (x - c) ^ 2 / (2 * w ^ 2) := by positivity
      simp only [ne_eq, OfNat.ofNat_ne_zero, not_false_eq_true, zero_pow, neg_zero, zero_div]
      rw [neg_div]; linarith
    · simp only [peak]
      apply div_le_div_of_nonneg_left (by positivity) (by positivity)
      rw [sub_self]
      nlinarith [sq_nonneg (x - c)]
  · intro d
    rcases hf with rfl | rfl
    · simp [peak]
    · simp [peak]
  · simp only [peak]
    field_simp
    ring

/-- Two Gaussian peaks of width 0.05 and heights 1, 3. -/
example : ∫ x, broadAt .gaussian 0.05 [(0, 1), (2, 3)] x = 4 := by
  rw [(c84_weight .gaussian (Or.inl rfl) 0.05 (by norm_num) _).2]
  norm_num

end Hotbit
