import Verif.Spec.LibXc
import Mathlib.Analysis.Calculus.ParametricIntervalIntegral
import Mathlib.Analysis.Calculus.Deriv.Prod
import Mathlib.Analysis.Calculus.Deriv.Pow
import Mathlib.Analysis.Calculus.ContDiff.Deriv
import Mathlib.Analysis.Calculus.ContDiff.RCLike
import Mathlib.MeasureTheory.Integral.IntervalIntegral.FundThmCalculus
import Mathlib.Tactic

/-! # First variation of the energy of a density -/

open Set Filter Topology MeasureTheory Interval

namespace Hotbit

/-- The changed density with its squared derivative. -/
noncomputable def xcPoint (n h : ℝ → ℝ) (q : ℝ × ℝ) : ℝ × ℝ :=
  (n q.2 + q.1 * h q.2, (deriv n q.2 + q.1 * deriv h q.2) ^ 2)

theorem xcPoint_continuous {n h : ℝ → ℝ} (hn : ContDiff ℝ 1 n) (hh : ContDiff ℝ 1 h) :
    Continuous (xcPoint n h) := by
  have h1 := hn.continuous
  have h2 := hh.continuous
  have h3 := hn.continuous_deriv le_rfl
  have h4 := hh.continuous_deriv le_rfl
  unfold xcPoint
  fun_prop

/-- Derivative of an energy of shell integrals with respect to a change of the density. -/
theorem xc_variation {f : ℝ × ℝ → ℝ} {U : Set (ℝ × ℝ)} (hU : IsOpen U) (hf : ContDiffOn ℝ 1 f U) {w n h : ℝ → ℝ}
    (hw : Continuous w) (hn : ContDiff ℝ 1 n) (hh : ContDiff ℝ 1 h) {a b : ℝ} (hab : a ≤ b)
    (hin : ∀ r ∈ Icc a b, (n r, deriv n r ^ 2) ∈ U) :
    HasDerivAt (fun t : ℝ => ∫ r in a..b, w r * f (xcPoint n h (t, r)))
      (∫ r in a..b, w r * fderiv ℝ f (n r, deriv n r ^ 2) (h r, 2 * deriv n r * deriv h r)) 0 := by
  have hP := xcPoint_continuous hn hh
  have h1 := hn.continuous
  have h2 := hh.continuous
  have h3 := hn.continuous_deriv le_rfl
  have h4 := hh.continuous_deriv le_rfl
  have hV : IsOpen (xcPoint n h ⁻¹' U) := hU.preimage hP
  have hsub : ({(0 : ℝ)} : Set ℝ) ×ˢ Icc a b ⊆ xcPoint n h ⁻¹' U := by
    rintro ⟨t, r⟩ ⟨ht, hr⟩
    rw [Set.mem_singleton_iff] at ht
    simp only at ht hr
    subst ht
    simpa [xcPoint] using hin r hr
  obtain ⟨u, v, hu, -, h0u, hbv, huv⟩ := generalized_tube_lemma isCompact_singleton isCompact_Icc hV hsub
  obtain ⟨ε, hε, hball⟩ := Metric.isOpen_iff.mp hu 0 (h0u rfl)
  have hcb : Metric.closedBall (0 : ℝ) (ε / 2) ⊆ u :=
    (Metric.closedBall_subset_ball (by linarith)).trans hball
  have hmem : ∀ t ∈ Metric.closedBall (0 : ℝ) (ε / 2), ∀ r ∈ Icc a b, xcPoint n h (t, r) ∈ U :=
    fun t ht r hr => huv (Set.mk_mem_prod (hcb ht) (hbv hr))
  have hfd : ContinuousOn (fderiv ℝ f) U := hf.continuousOn_fderiv_of_isOpen hU le_rfl
  let G : ℝ × ℝ → ℝ := fun q => w q.2 * fderiv ℝ f (xcPoint n h q)
    (h q.2, 2 * (deriv n q.2 + q.1 * deriv h q.2) * deriv h q.2)
  have hG : ContinuousOn G (Metric.closedBall (0 : ℝ) (ε / 2) ×ˢ Icc a b) := by
    have e1 : ContinuousOn (fun q : ℝ × ℝ => fderiv ℝ f (xcPoint n h q))
        (Metric.closedBall (0 : ℝ) (ε / 2) ×ˢ Icc a b) :=
      hfd.comp hP.continuousOn fun q hq => hmem q.1 hq.1 q.2 hq.2
    have e2 : Continuous fun q : ℝ × ℝ =>
        (h q.2, 2 * (deriv n q.2 + q.1 * deriv h q.2) * deriv h q.2) := by fun_prop
    exact ((hw.comp continuous_snd).continuousOn).mul (e1.clm_apply e2.continuousOn)
  obtain ⟨M, hM⟩ := ((isCompact_closedBall (0 : ℝ) (ε / 2)).prod isCompact_Icc).exists_bound_of_continuousOn hG
  have hF : ∀ t ∈ Metric.closedBall (0 : ℝ) (ε / 2),
      ContinuousOn (fun r => w r * f (xcPoint n h (t, r))) (Icc a b) := by
    intro t ht
    refine hw.continuousOn.mul (hf.continuousOn.comp ?_ fun r hr => hmem t ht r hr)
    exact (hP.comp (by fun_prop : Continuous fun r : ℝ => (t, r))).continuousOn
  have hG0 : ContinuousOn (fun r => G (0, r)) (Icc a b) := by
    refine hG.comp (by fun_prop : Continuous fun r : ℝ => ((0 : ℝ), r)).continuousOn fun r hr => ?_
    exact Set.mk_mem_prod (Metric.mem_closedBall_self (by linarith)) hr
  have hII : Ι a b ⊆ Icc a b := by rw [uIoc_of_le hab]; exact Ioc_subset_Icc_self
  have key := intervalIntegral.hasDerivAt_integral_of_dominated_loc_of_deriv_le (μ := volume) (a := a) (b := b)
    (F := fun t r => w r * f (xcPoint n h (t, r))) (F' := fun t r => G (t, r)) (x₀ := (0 : ℝ))
    (s := Metric.ball 0 (ε / 2)) (bound := fun _ => M) (Metric.ball_mem_nhds _ (by linarith))
    (by
      filter_upwards [Metric.ball_mem_nhds (0 : ℝ) (show 0 < ε / 2 by linarith)] with t ht
      exact ((hF t (Metric.ball_subset_closedBall ht)).mono hII).aestronglyMeasurable measurableSet_uIoc)
    ((hF 0 (Metric.mem_closedBall_self (by linarith))).intervalIntegrable_of_Icc hab)
    ((hG0.mono hII).aestronglyMeasurable measurableSet_uIoc)
    (Eventually.of_forall fun r hr t ht => hM (t, r)
      (Set.mk_mem_prod (Metric.ball_subset_closedBall ht) (hII hr)))
    (by simp)
    (Eventually.of_forall fun r hr t ht => by
      have hm := hmem t (Metric.ball_subset_closedBall ht) r (hII hr)
      have hd : HasFDerivAt f (fderiv ℝ f (xcPoint n h (t, r))) (xcPoint n h (t, r)) :=
        (((hf.contDiffAt (hU.mem_nhds hm)).differentiableAt (by norm_num))).hasFDerivAt
      have hc : HasDerivAt (fun t : ℝ => xcPoint n h (t, r))
          (h r, 2 * (deriv n r + t * deriv h r) * deriv h r) t := by
        unfold xcPoint
        refine HasDerivAt.prodMk ?_ ?_
        · simpa using ((hasDerivAt_id t).mul_const (h r)).const_add (n r)
        · have := (((hasDerivAt_id t).mul_const (deriv h r)).const_add (deriv n r)).pow 2
          refine (this.congr_deriv (by simp)).congr_of_eventuallyEq (Eventually.of_forall fun x => ?_)
          simp
      exact (hd.comp_hasDerivAt t hc).const_mul (w r))
  have e := key.2
  simpa [G, xcPoint] using e

/-- The part of the variation with the derivative of the change, integrated by parts. -/
theorem xc_byParts {g h : ℝ → ℝ} {W : Set ℝ} (hW : IsOpen W) (hg : ContDiffOn ℝ 1 g W) (hh : ContDiff ℝ 1 h)
    {a b c : ℝ} (ha : 0 < a) (hab : a ≤ b) (hin : Icc a b ⊆ W) (h0 : h a = 0) (h1 : h b = 0) {f : ℝ → ℝ}
    (hf : ContinuousOn f (Icc a b)) :
    ∫ r in a..b, c * r ^ 2 * (f r * h r + g r * deriv h r) =
      ∫ r in a..b, c * r ^ 2 * ((f r - (2 * g r / r + deriv g r)) * h r) := by
  have hgd : ∀ r ∈ Icc a b, HasDerivAt g (deriv g r) r := fun r hr =>
    ((hg.contDiffAt (hW.mem_nhds (hin hr))).differentiableAt (by norm_num)).hasDerivAt
  have hhd : ∀ r, HasDerivAt h (deriv h r) r := fun r => (hh.differentiable (by norm_num) r).hasDerivAt
  have c1 : ContinuousOn g (Icc a b) := hg.continuousOn.mono hin
  have c2 : ContinuousOn (deriv g) (Icc a b) := (hg.continuousOn_deriv_of_isOpen hW le_rfl).mono hin
  have c3 := hh.continuous
  have c4 := hh.continuous_deriv le_rfl
  have hne : ∀ r ∈ Icc a b, r ≠ 0 := fun r hr => by linarith [hr.1] |> fun (h : 0 < r) => h.ne'
  have hdd : ∀ r ∈ uIcc a b, HasDerivAt (fun r => c * r ^ 2 * (g r * h r))
      (c * r ^ 2 * (f r * h r + g r * deriv h r) -
        c * r ^ 2 * ((f r - (2 * g r / r + deriv g r)) * h r)) r := by
    intro r hr
    rw [uIcc_of_le hab] at hr
    have hr0 := hne r hr
    have := ((hasDerivAt_pow 2 r).const_mul c).mul ((hgd r hr).mul (hhd r))
    refine this.congr_deriv ?_
    simp only [Nat.cast_ofNat, Nat.add_one_sub_one, pow_one, Pi.mul_apply]
    field_simp
    ring
  have i1 : ContinuousOn (fun r => c * r ^ 2 * (f r * h r + g r * deriv h r)) (Icc a b) := by
    fun_prop
  have i2 : ContinuousOn (fun r => c * r ^ 2 * ((f r - (2 * g r / r + deriv g r)) * h r)) (Icc a b) := by
    have : ContinuousOn (fun r => 2 * g r / r) (Icc a b) :=
      (continuousOn_const.mul c1).div continuousOn_id hne
    fun_prop
  have j1 := i1.intervalIntegrable_of_Icc hab (μ := volume)
  have j2 := i2.intervalIntegrable_of_Icc hab (μ := volume)
  have := intervalIntegral.integral_eq_sub_of_hasDerivAt hdd (j1.sub j2)
  rw [intervalIntegral.integral_sub j1 j2, h0, h1] at this
  linarith

end Hotbit
