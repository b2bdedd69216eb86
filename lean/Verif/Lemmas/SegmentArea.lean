import Mathlib.Tactic
import Mathlib.Analysis.SpecialFunctions.Integrals.Basic
import Mathlib.Analysis.SpecialFunctions.Trigonometric.ArctanDeriv
import Verif.Spec.SlakoTable

/-!
# Areas of ring segments below a line
-/

namespace Hotbit

open Real MeasureTheory Set

/-- A function given by three formulas on adjacent intervals. -/
theorem integral_three {F f g k : ℝ → ℝ} {s a b t : ℝ} (h1 : s ≤ a) (h2 : a ≤ b) (h3 : b ≤ t)
    (hf : EqOn F f (Ioo s a)) (hg : EqOn F g (Ioo a b)) (hk : EqOn F k (Ioo b t))
    (if' : IntervalIntegrable f volume s a) (ig : IntervalIntegrable g volume a b)
    (ik : IntervalIntegrable k volume b t) :
    IntervalIntegrable F volume s t ∧
      ∫ x in s..t, F x = (∫ x in s..a, f x) + (∫ x in a..b, g x) + ∫ x in b..t, k x := by
  have j1 : IntervalIntegrable F volume s a :=
    if'.congr_uIoo (by rw [uIoo_of_le h1]; exact fun x hx => (hf hx).symm)
  have j2 : IntervalIntegrable F volume a b :=
    ig.congr_uIoo (by rw [uIoo_of_le h2]; exact fun x hx => (hg hx).symm)
  have j3 : IntervalIntegrable F volume b t :=
    ik.congr_uIoo (by rw [uIoo_of_le h3]; exact fun x hx => (hk hx).symm)
  refine ⟨(j1.trans j2).trans j3, ?_⟩
  rw [← intervalIntegral.integral_add_adjacent_intervals (j1.trans j2) j3,
    ← intervalIntegral.integral_add_adjacent_intervals j1 j2,
    intervalIntegral.integral_congr_Ioo_of_le h1 hf, intervalIntegral.integral_congr_Ioo_of_le h2 hg,
    intervalIntegral.integral_congr_Ioo_of_le h3 hk]

/-- The radial part of the area. -/
noncomputable def radialArea (h ra rb θ : ℝ) : ℝ :=
  ∫ r in ra..rb, haveI := Classical.dec (r * cos θ ≤ h); if r * cos θ ≤ h then r else 0

theorem segmentArea_eq (h ra rb ta tb : ℝ) : segmentArea h ra rb ta tb = ∫ θ in ta..tb, radialArea h ra rb θ := rfl

theorem radial_all (h ra rb θ : ℝ) (h0 : 0 ≤ h) (hra : 0 ≤ ra) (hab : ra ≤ rb) :
    IntervalIntegrable (fun r => haveI := Classical.dec (r * cos θ ≤ h); if r * cos θ ≤ h then r else 0) volume ra rb ∧
    (rb * cos θ ≤ h → radialArea h ra rb θ = (rb ^ 2 - ra ^ 2) / 2) ∧
    (ra * cos θ ≤ h → h < rb * cos θ → radialArea h ra rb θ = (h ^ 2 / cos θ ^ 2 - ra ^ 2) / 2) ∧
    (h < ra * cos θ → radialArea h ra rb θ = 0) := by
  have iid : ∀ a b : ℝ, IntervalIntegrable (fun r : ℝ => r) volume a b := fun a b => continuous_id.intervalIntegrable _ _
  have iz : ∀ a b : ℝ, IntervalIntegrable (fun _ : ℝ => (0 : ℝ)) volume a b := fun a b => by simp
  rcases le_or_gt (rb * cos θ) h with c1 | c1
  · have hF : EqOn (fun r => haveI := Classical.dec (r * cos θ ≤ h); if r * cos θ ≤ h then r else 0) (fun r => r)
        (Ioo ra rb) := by
      intro r hr
      have : r * cos θ ≤ h := by
        rcases le_or_gt (cos θ) 0 with c | c
        · have : r * cos θ ≤ 0 := mul_nonpos_of_nonneg_of_nonpos (by linarith [hr.1]) c
          linarith
        · have := mul_le_mul_of_nonneg_right hr.2.le c.le
          linarith
      simp only
      rw [if_pos this]
    have e := integral_three (s := ra) (a := ra) (b := ra) (t := rb) (f := fun r => r) (g := fun r => r) le_rfl le_rfl hab
      (by simp) (by simp) hF (iid _ _) (iid _ _) (iid _ _)
    refine ⟨e.1, fun _ => ?_, fun _ h2 => absurd c1 (not_le.2 h2), fun h1 => ?_⟩
    · unfold radialArea
      rw [e.2]
      simp [integral_id]
    · exfalso
      rcases le_or_gt (cos θ) 0 with c | c
      · have := mul_nonpos_of_nonneg_of_nonpos hra c
        linarith
      · have := mul_le_mul_of_nonneg_right hab c.le
        linarith
  · have hc : 0 < cos θ := by
      by_contra hneg
      have := mul_nonpos_of_nonneg_of_nonpos (hra.trans hab) (not_lt.1 hneg)
      linarith
    rcases le_or_gt (ra * cos θ) h with c2 | c2
    · have m1 : ra ≤ h / cos θ := (le_div_iff₀ hc).2 c2
      have m2 : h / cos θ ≤ rb := (div_le_iff₀ hc).2 c1.le
      have e := integral_three (F := fun r => haveI := Classical.dec (r * cos θ ≤ h); if r * cos θ ≤ h then r else 0)
        (s := ra) (a := ra) (b := h / cos θ) (t := rb) (f := fun r => r) (g := fun r => r) (k := fun _ => 0)
        le_rfl m1 m2 (by simp)
        (by
          intro r hr
          simp only
          rw [if_pos ((le_div_iff₀ hc).1 hr.2.le)])
        (by
          intro r hr
          simp only
          rw [if_neg (not_le.2 ((div_lt_iff₀ hc).1 hr.1))]) (iid _ _) (iid _ _) (iz _ _)
      refine ⟨e.1, fun h1 => absurd h1 (not_le.2 c1), fun _ _ => ?_, fun h1 => absurd c2 (not_le.2 h1)⟩
      unfold radialArea
      rw [e.2]
      simp [integral_id]
      ring
    · have e := integral_three (F := fun r => haveI := Classical.dec (r * cos θ ≤ h); if r * cos θ ≤ h then r else 0)
        (s := ra) (a := ra) (b := ra) (t := rb) (f := fun r => 0) (g := fun r => 0) (k := fun _ => 0)
        le_rfl le_rfl hab (by simp) (by simp)
        (by
          intro r hr
          simp only
          rw [if_neg]
          have := mul_lt_mul_of_pos_right hr.1 hc
          linarith) (iz _ _) (iz _ _) (iz _ _)
      refine ⟨e.1, fun h1 => absurd h1 (not_le.2 c1), fun h1 => absurd h1 (not_le.2 c2), fun _ => ?_⟩
      unfold radialArea
      rw [e.2]
      simp

/-- The area when the line `z = h` meets the inner circle at angle `a` and the outer one at `b`. -/
theorem segment_area {h ra rb ta a b tb : ℝ} (h0 : 0 ≤ h) (hra : 0 ≤ ra) (hab : ra ≤ rb) (h1 : ta ≤ a) (h2 : a ≤ b)
    (h3 : b ≤ tb) (hc : ∀ θ ∈ Icc a b, a < b → 0 < cos θ)
    (o : ∀ θ ∈ Ioo ta a, h < ra * cos θ) (m : ∀ θ ∈ Ioo a b, ra * cos θ ≤ h ∧ h < rb * cos θ)
    (i : ∀ θ ∈ Ioo b tb, rb * cos θ ≤ h) :
    IntervalIntegrable (radialArea h ra rb) volume ta tb ∧
    segmentArea h ra rb ta tb =
      h ^ 2 / 2 * (tan b - tan a) - ra ^ 2 / 2 * (b - a) + (rb ^ 2 - ra ^ 2) / 2 * (tb - b) := by
  have hder : ∀ x ∈ uIcc a b, a < b →
      HasDerivAt (fun θ => (h ^ 2 * tan θ - ra ^ 2 * θ) / 2) ((h ^ 2 / cos x ^ 2 - ra ^ 2) / 2) x := by
    intro x hx hlt
    rw [uIcc_of_le h2] at hx
    have := ((((hasDerivAt_tan (hc x hx hlt).ne').const_mul (h ^ 2)).sub ((hasDerivAt_id x).const_mul (ra ^ 2))).div_const 2)
    refine this.congr_deriv ?_
    simp
    ring
  have hcont : IntervalIntegrable (fun x => (h ^ 2 / cos x ^ 2 - ra ^ 2) / 2) volume a b := by
    rcases eq_or_lt_of_le h2 with e | hlt
    · rw [e]
    · refine ContinuousOn.intervalIntegrable ?_
      rw [uIcc_of_le h2]
      refine ContinuousOn.div_const (ContinuousOn.sub (ContinuousOn.div continuousOn_const (by fun_prop) ?_)
        continuousOn_const) _
      intro x hx
      exact pow_ne_zero _ (hc x hx hlt).ne'
  have e := integral_three (F := radialArea h ra rb) (f := fun _ => 0) (g := fun x => (h ^ 2 / cos x ^ 2 - ra ^ 2) / 2)
    (k := fun _ => (rb ^ 2 - ra ^ 2) / 2) h1 h2 h3
    (fun θ hθ => (radial_all h ra rb θ h0 hra hab).2.2.2 (o θ hθ))
    (fun θ hθ => (radial_all h ra rb θ h0 hra hab).2.2.1 (m θ hθ).1 (m θ hθ).2)
    (fun θ hθ => (radial_all h ra rb θ h0 hra hab).2.1 (i θ hθ)) (by simp) hcont (by simp)
  refine ⟨e.1, ?_⟩
  rw [segmentArea_eq, e.2]
  have hmid : ∫ x in a..b, (h ^ 2 / cos x ^ 2 - ra ^ 2) / 2 = h ^ 2 / 2 * (tan b - tan a) - ra ^ 2 / 2 * (b - a) := by
    rcases eq_or_lt_of_le h2 with e | hlt
    · rw [e]; simp
    · rw [intervalIntegral.integral_eq_sub_of_hasDerivAt (fun x hx => hder x hx hlt) hcont]
      ring
  rw [hmid]
  simp
  ring

end Hotbit
