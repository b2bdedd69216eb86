import Verif.Model.AtomSolver
import Verif.Spec.AtomSolver
import Mathlib.Analysis.SpecialFunctions.Pow.Deriv
import Mathlib.Analysis.SpecialFunctions.Log.Deriv
import Mathlib.Tactic

/-!
# C93: the exchange-correlation potential is the derivative of the exchange-correlation energy
-/

namespace Hotbit

open Real

/-- The correlation energy as a function of the root of `rₛ`. -/
noncomputable def corrRoot (s : ℝ) : ℝ :=
  -2 * pwC0 * (1 + pwA1 * s ^ 2) * log (1 + 1 / (2 * pwC0 * (pwB1 * s + pwB2 * s ^ 2 + pwB3 * s ^ 3 + pwB4 * s ^ 4)))

theorem pwC0_pos : 0 < pwC0 := by unfold pwC0; norm_num
theorem pwA1_pos : 0 < pwA1 := by unfold pwA1; norm_num
theorem pwB1_pos : 0 < pwB1 := by
  unfold pwB1
  have := pwC0_pos
  positivity
theorem pwB2_pos : 0 < pwB2 := by
  unfold pwB2
  have := pwC0_pos
  have := pwB1_pos
  positivity
theorem pwB3_pos : 0 < pwB3 := by unfold pwB3; norm_num
theorem pwB4_pos : 0 < pwB4 := by unfold pwB4; norm_num

theorem pwAux_pos {s : ℝ} (hs : 0 < s) :
    0 < 2 * pwC0 * (pwB1 * s + pwB2 * s ^ 2 + pwB3 * s ^ 3 + pwB4 * s ^ 4) := by
  have := pwC0_pos
  have := pwB1_pos
  have := pwB2_pos
  have := pwB3_pos
  have := pwB4_pos
  positivity

theorem sq_rpow_three_half {s : ℝ} (hs : 0 < s) : (s * s) ^ (3 / 2 : ℝ) = s ^ 3 := by
  rw [← pow_two, ← rpow_natCast s 2, ← rpow_mul hs.le, ← rpow_natCast s 3]
  norm_num

/-- The root of `rₛ`. -/
noncomputable def rootRs (n : ℝ) : ℝ := (3 / (4 * π * n)) ^ (1 / 6 : ℝ)

theorem rootRs_pos {n : ℝ} (hn : 0 < n) : 0 < rootRs n := by
  unfold rootRs
  have := pi_pos
  positivity

theorem rootRs_pow {n : ℝ} (hn : 0 < n) : rootRs n ^ 6 = 3 / (4 * π * n) := by
  unfold rootRs
  have := pi_pos
  rw [← rpow_natCast, ← rpow_mul (by positivity)]
  norm_num

theorem rootRs_deriv {n : ℝ} (hn : 0 < n) : HasDerivAt rootRs (-rootRs n / (6 * n)) n := by
  have hp := pi_pos
  have h1 : HasDerivAt (fun m : ℝ => 3 / (4 * π * m)) (-(3 / (4 * π * n)) / n) n := by
    have h := ((hasDerivAt_id n).const_mul (4 * π)).inv (by simp; positivity)
    have h2 := h.const_mul 3
    refine (h2.congr_deriv ?_).congr_of_eventuallyEq (Filter.Eventually.of_forall fun m => ?_)
    · simp only [id]; field_simp
    · simp [div_eq_mul_inv]
  have h2 := h1.rpow_const (p := (1 / 6 : ℝ)) (Or.inl (by positivity))
  refine h2.congr_deriv ?_
  unfold rootRs
  rw [rpow_sub_one (by positivity)]
  field_simp

theorem corrRoot_deriv {s : ℝ} (hs : 0 < s) :
    HasDerivAt corrRoot (-2 * pwC0 * (2 * pwA1 * s) *
        log (1 + 1 / (2 * pwC0 * (pwB1 * s + pwB2 * s ^ 2 + pwB3 * s ^ 3 + pwB4 * s ^ 4))) +
      -2 * pwC0 * (1 + pwA1 * s ^ 2) *
        (-(2 * pwC0 * (pwB1 + pwB2 * (2 * s) + pwB3 * (3 * s ^ 2) + pwB4 * (4 * s ^ 3))) /
          (2 * pwC0 * (pwB1 * s + pwB2 * s ^ 2 + pwB3 * s ^ 3 + pwB4 * s ^ 4)) ^ 2 /
          (1 + 1 / (2 * pwC0 * (pwB1 * s + pwB2 * s ^ 2 + pwB3 * s ^ 3 + pwB4 * s ^ 4))))) s := by
  have ha := pwAux_pos hs
  have d1 : HasDerivAt (fun s : ℝ => s) 1 s := hasDerivAt_id s
  have d2 : HasDerivAt (fun s : ℝ => s ^ 2) (2 * s) s := by simpa using hasDerivAt_pow 2 s
  have d3 : HasDerivAt (fun s : ℝ => s ^ 3) (3 * s ^ 2) s := by simpa using hasDerivAt_pow 3 s
  have d4 : HasDerivAt (fun s : ℝ => s ^ 4) (4 * s ^ 3) s := by simpa using hasDerivAt_pow 4 s
  have da : HasDerivAt (fun s : ℝ => 2 * pwC0 * (pwB1 * s + pwB2 * s ^ 2 + pwB3 * s ^ 3 + pwB4 * s ^ 4))
      (2 * pwC0 * (pwB1 + pwB2 * (2 * s) + pwB3 * (3 * s ^ 2) + pwB4 * (4 * s ^ 3))) s := by
    have := ((((d1.const_mul pwB1).add (d2.const_mul pwB2)).add (d3.const_mul pwB3)).add
      (d4.const_mul pwB4)).const_mul (2 * pwC0)
    simpa using this
  have di := (da.inv ha.ne').const_add 1
  have dl := di.log (by
    have : 0 < (2 * pwC0 * (pwB1 * s + pwB2 * s ^ 2 + pwB3 * s ^ 3 + pwB4 * s ^ 4))⁻¹ := inv_pos.2 ha
    simp only [Pi.inv_apply]
    linarith)
  have dp := ((d2.const_mul pwA1).const_add 1).const_mul (-2 * pwC0)
  have := dp.mul dl
  refine (this.congr_deriv ?_).congr_of_eventuallyEq (Filter.Eventually.of_forall fun m => ?_)
  · simp only [one_div, Pi.inv_apply]
    ring
  · simp [corrRoot]

theorem pwEcorr_zero {n : ℝ} (hn : 0 < n) : pwEcorr n 0 = some (corrRoot (rootRs n)) := by
  have hs := rootRs_pos hn
  have h3 := sq_rpow_three_half hs
  unfold pwEcorr corrRoot
  simp only
  rw [show (3 / (4 * π * n)) ^ (1 / 6 : ℝ) = rootRs n from rfl, h3]
  congr 1
  ring_nf

theorem pwEcorr_one {n : ℝ} (hn : 0 < n) : ∃ v, pwEcorr n 1 = some v ∧
    HasDerivAt (fun m => corrRoot (rootRs m)) v n := by
  have hs := rootRs_pos hn
  have h3 := sq_rpow_three_half hs
  have h6 := rootRs_pow hn
  have ha := pwAux_pos hs
  have hp := pi_pos
  refine ⟨_, rfl, ?_⟩
  refine ((corrRoot_deriv hs).comp n (rootRs_deriv hn)).congr_deriv ?_
  rw [show (3 / (4 * π * n)) ^ (1 / 6 : ℝ) = rootRs n from rfl, h3]
  have hsq : (2 * √π * n * (rootRs n * rootRs n)) * (2 * √π * n * (rootRs n * rootRs n))
      = 4 * π * n ^ 2 * rootRs n ^ 4 := by
    have := mul_self_sqrt hp.le
    linear_combination (4 * n ^ 2 * rootRs n ^ 4) * this
  rw [hsq]
  have hm : -1 / (4 * π * n ^ 2 * rootRs n ^ 4) = -(rootRs n ^ 2) / (3 * n) := by
    rw [eq_div_iff (by positivity)] at h6
    rw [div_eq_div_iff (by positivity) (by positivity)]
    linear_combination n * h6
  rw [hm]
  generalize rootRs n = s at *
  have haux : 2 * pwC0 * (pwB1 * s + pwB2 * (s * s) + pwB3 * s ^ 3 + pwB4 * (s * s) ^ 2)
      = 2 * pwC0 * (pwB1 * s + pwB2 * s ^ 2 + pwB3 * s ^ 3 + pwB4 * s ^ 4) := by ring
  rw [haux]
  generalize 2 * pwC0 * (pwB1 * s + pwB2 * s ^ 2 + pwB3 * s ^ 3 + pwB4 * s ^ 4) = a at *
  have h1 : 1 + 1 / a ≠ 0 := by positivity
  generalize log (1 + 1 / a) = L at *
  field_simp
  ring

theorem pwEx_deriv {n : ℝ} (hn : 0 < n) : ∃ v, pwEx n 1 = some v ∧ HasDerivAt ldaExchange v n := by
  have hp := pi_pos
  refine ⟨_, rfl, ?_⟩
  have h1 : HasDerivAt (fun m : ℝ => 3 * m / π) (3 / π) n := by
    simpa using ((hasDerivAt_id n).const_mul 3).div_const π
  have h2 := (h1.rpow_const (p := (1 / 3 : ℝ)) (Or.inl (by positivity))).const_mul (-3 / 4)
  refine h2.congr_deriv ?_
  rw [show (1 / 3 - 1 : ℝ) = -2 / 3 by norm_num]
  field_simp

theorem small_pos : 0 < pwSmall := by unfold pwSmall; positivity

/-- The energies for densities that are not clipped. -/
theorem exc_formula {n : ℝ} (hn : pwSmall ≤ n) : pwExc n 0 = .ok (ldaExchange n + corrRoot (rootRs n)) := by
  have h0 : 0 < n := small_pos.trans_le hn
  unfold pwExc
  rw [if_neg (not_lt.2 hn), pwEcorr_zero h0]
  rfl

theorem corrRoot_eq {n : ℝ} (hn : 0 < n) :
    corrRoot (rootRs n) = pwFormula pwC0 pwA1 pwB1 pwB2 pwB3 pwB4 (wignerSeitz n) := by
  have hs := rootRs_pos hn
  have hp := pi_pos
  have hw : wignerSeitz n = rootRs n ^ 2 := by
    unfold wignerSeitz rootRs
    rw [← rpow_natCast, ← rpow_mul (by positivity)]
    norm_num
  unfold corrRoot pwFormula
  rw [hw, ← sq_rpow_three_half hs, ← pow_two, ← rpow_natCast (rootRs n) 2, ← rpow_mul hs.le,
    ← rpow_mul hs.le, ← rpow_mul hs.le]
  norm_num

/-- **C93.** For every density above the clipping limit the energy per electron is the exchange energy of the electron gas
plus the Perdew-Wang formula. -/
theorem c93_energy {n : ℝ} (hn : 1 / 10 ^ 90 ≤ n) :
    pwExc n 0 = .ok (ldaExchange n +
      pwFormula pwC0 pwA1 pwB1 pwB2 pwB3 pwB4 (wignerSeitz n)) := by
  rw [exc_formula (by unfold pwSmall; exact hn), corrRoot_eq (lt_of_lt_of_le (by positivity) hn)]

/-- **C93.** The energy per electron is negative. -/
theorem c93_negative {n : ℝ} (hn : 1 / 10 ^ 90 ≤ n) : ∃ e, pwExc n 0 = .ok e ∧ e < 0 := by
  have h0 : 0 < n := lt_of_lt_of_le (by positivity) hn
  refine ⟨_, exc_formula (by unfold pwSmall; exact hn), ?_⟩
  have hp := pi_pos
  have h1 : ldaExchange n < 0 := by
    unfold ldaExchange
    have : 0 < (3 * n / π) ^ (1 / 3 : ℝ) := by positivity
    linarith
  have h2 : corrRoot (rootRs n) < 0 := by
    have hs := rootRs_pos h0
    have ha := pwAux_pos hs
    unfold corrRoot
    have := log_pos (lt_add_of_pos_right 1 (one_div_pos.2 ha))
    have := pwC0_pos
    have := pwA1_pos
    have : 0 < 2 * pwC0 * (1 + pwA1 * rootRs n ^ 2) := by positivity
    nlinarith
  linarith

/-- **C93.** The potential is the derivative of energy density with respect to the density: for every density above the
clipping limit and for every density below it. -/
theorem c93_potential {n : ℝ} (hn : n ≠ 1 / 10 ^ 90) (e : ℝ → ℝ) (he : ∀ m, pwExc m 0 = .ok (e m)) :
    ∃ v, pwVxc n = .ok v ∧ HasDerivAt (fun m => m * e m) v n := by
  rcases lt_or_gt_of_ne hn with h | h
  · refine ⟨0, ?_, ?_⟩
    · unfold pwVxc pwExc
      rw [if_pos (by unfold pwSmall; exact h), if_pos (by unfold pwSmall; exact h)]
      simp [Bind.bind, Except.bind, pure, Except.pure]
    · refine (hasDerivAt_const n (0 : ℝ)).congr_of_eventuallyEq ?_
      filter_upwards [Iio_mem_nhds h] with m hm
      have := he m
      unfold pwExc at this
      rw [if_pos (by unfold pwSmall; exact hm)] at this
      injection this with this
      simp [← this]
  · have h0 : 0 < n := lt_trans (by positivity) h
    obtain ⟨a, ha, da⟩ := pwEx_deriv h0
    obtain ⟨b, hb, db⟩ := pwEcorr_one h0
    have hv : pwExc n 1 = .ok (a + b) := by
      unfold pwExc
      rw [if_neg (by unfold pwSmall; exact not_lt.2 h.le), ha, hb]
    refine ⟨e n + n * (a + b), ?_, ?_⟩
    · unfold pwVxc
      rw [he n, hv]
      rfl
    · have hd := (hasDerivAt_id n).mul (da.add db)
      have hen : e n = ldaExchange n + corrRoot (rootRs n) := by
        have := he n
        rw [exc_formula (by unfold pwSmall; exact h.le)] at this
        injection this with this
        exact this.symm
      refine (hd.congr_deriv ?_).congr_of_eventuallyEq ?_
      · rw [hen]; simp
      · filter_upwards [Ioi_mem_nhds h] with m hm
        have := he m
        rw [exc_formula (by unfold pwSmall; exact le_of_lt hm)] at this
        injection this with this
        simp [← this]

/-- The function of the hypothesis exists. -/
example : ∃ e : ℝ → ℝ, ∀ m, pwExc m 0 = .ok (e m) := by
  have : ∀ m, ∃ x, pwExc m 0 = .ok x := by
    intro m
    by_cases h : m < pwSmall
    · exact ⟨0, by unfold pwExc; rw [if_pos h]⟩
    · exact ⟨_, exc_formula (not_lt.1 h)⟩
  choose e he using this
  exact ⟨e, he⟩

example : (1 : ℝ) ≠ 1 / 10 ^ 90 ∧ (1 / 10 ^ 90 : ℝ) ≤ 1 := by norm_num

/-- At the clipping limit itself the energy density has a jump, so it has no derivative there. -/
theorem c93_clip_fails (e : ℝ → ℝ) (he : ∀ m, pwExc m 0 = .ok (e m)) (v : ℝ) :
    ¬ HasDerivAt (fun m => m * e m) v (1 / 10 ^ 90) := by
  intro h
  have hc := h.continuousAt
  have hlim : Filter.Tendsto (fun m => m * e m) (nhdsWithin (1 / 10 ^ 90) (Set.Iio (1 / 10 ^ 90)))
      (nhds ((1 / 10 ^ 90) * e (1 / 10 ^ 90))) := hc.continuousWithinAt
  have hz : Filter.Tendsto (fun m => m * e m) (nhdsWithin (1 / 10 ^ 90) (Set.Iio (1 / 10 ^ 90))) (nhds 0) := by
    refine tendsto_const_nhds.congr' ?_
    filter_upwards [self_mem_nhdsWithin] with m hm
    have := he m
    unfold pwExc at this
    rw [if_pos (by unfold pwSmall; exact hm)] at this
    injection this with this
    simp [← this]
  have heq := tendsto_nhds_unique hlim hz
  obtain ⟨x, hx, hneg⟩ := c93_negative (le_refl (1 / 10 ^ 90 : ℝ))
  rw [he] at hx
  injection hx with hx
  rw [hx] at heq
  have : (1 / 10 ^ 90 : ℝ) > 0 := by positivity
  nlinarith

end Hotbit
