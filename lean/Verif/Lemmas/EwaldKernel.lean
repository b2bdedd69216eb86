import Verif.Lemmas.Coulomb
import Mathlib.Analysis.Calculus.SmoothSeries
import Mathlib.Analysis.Normed.Group.Tannery
import Mathlib.Analysis.SpecialFunctions.Sqrt
import Mathlib.Analysis.SpecialFunctions.Exp
import Mathlib.Tactic

/-! Helper lemmas for the Ewald sum: bounds of `erfc`, and the two lattice sums as functions of the
splitting parameter, over abstract squared distances. -/

namespace Hotbit

open Real Filter Topology

theorem erfc_le_gauss (x : ℝ) (hx : 0 ≤ x) : erfc x ≤ exp (-x ^ 2) := by
  set h : ℝ → ℝ := fun x => exp (-x ^ 2) - erfc x with hh
  have hp : 0 < √π := Real.sqrt_pos.2 Real.pi_pos
  have hd : ∀ y, HasDerivAt h (exp (-y ^ 2) * (2 / √π - 2 * y)) y := by
    intro y
    have h1 : HasDerivAt (fun y : ℝ => exp (-y ^ 2)) (exp (-y ^ 2) * (-(2 * y))) y := by
      have h2 := ((hasDerivAt_pow 2 y).neg).exp
      simpa using h2
    exact (h1.sub (erfc_hasDerivAt y)).congr_deriv (by ring)
  have hc : Continuous h := continuous_iff_continuousAt.2 fun y => (hd y).continuousAt
  have h0 : h 0 = 0 := by simp [hh, erfc_zero]
  have hlim : Tendsto h atTop (𝓝 0) := by
    have h1 : Tendsto (fun x : ℝ => exp (-x ^ 2)) atTop (𝓝 0) := by
      refine tendsto_exp_atBot.comp ?_
      exact tendsto_neg_atTop_atBot.comp (tendsto_pow_atTop two_ne_zero)
    simpa using h1.sub erfc_tendsto
  suffices 0 ≤ h x by simp only [hh] at this; linarith
  rcases le_total x (1 / √π) with hle | hge
  · have hm : MonotoneOn h (Set.Icc 0 (1 / √π)) := by
      refine monotoneOn_of_deriv_nonneg (convex_Icc _ _) hc.continuousOn
        (fun y _ => (hd y).differentiableAt.differentiableWithinAt) fun y hy => ?_
      rw [interior_Icc] at hy
      rw [(hd y).deriv]
      refine mul_nonneg (exp_pos _).le ?_
      have : 2 / √π = 2 * (1 / √π) := by ring
      rw [this]; linarith [hy.2]
    have := hm ⟨le_rfl, by positivity⟩ ⟨hx, hle⟩ hx
    rwa [h0] at this
  · have hm : AntitoneOn h (Set.Ici (1 / √π)) := by
      refine antitoneOn_of_deriv_nonpos (convex_Ici _) hc.continuousOn
        (fun y _ => (hd y).differentiableAt.differentiableWithinAt) fun y hy => ?_
      rw [interior_Ici] at hy
      rw [(hd y).deriv]
      refine mul_nonpos_of_nonneg_of_nonpos (exp_pos _).le ?_
      have : 2 / √π = 2 * (1 / √π) := by ring
      rw [this]; linarith [show 1 / √π < y from hy]
    refine le_of_tendsto hlim ?_
    filter_upwards [eventually_ge_atTop x] with y hy
    exact hm hge (Set.mem_Ici.2 (hge.trans hy)) hy

/-- The interaction with one image at distance `√s`, the atom itself included. -/
noncomputable def realTerm (α s : ℝ) : ℝ :=
  if s = 0 then -(2 * √(α / π)) else erfc (√α * √s) / √s

theorem realTerm_hasDerivAt (s : ℝ) (hs : 0 ≤ s) (α : ℝ) (hα : 0 < α) :
    HasDerivAt (fun a => realTerm a s) (-(exp (-α * s) / √(π * α))) α := by
  have hπ := Real.pi_pos
  have hsq : √π * √π = π := Real.mul_self_sqrt hπ.le
  have hp : 0 < √π := Real.sqrt_pos.2 hπ
  have ha : 0 < √α := Real.sqrt_pos.2 hα
  have haa : √α * √α = α := Real.mul_self_sqrt hα.le
  rw [Real.sqrt_mul hπ.le]
  by_cases h0 : s = 0
  · subst h0
    simp only [realTerm, if_true]
    have h1 : (fun a : ℝ => -(2 * √(a / π))) = fun a : ℝ => (-(2 / √π)) * √a := by
      funext a
      rw [Real.sqrt_div' _ hπ.le]; ring
    rw [h1]
    refine ((Real.hasDerivAt_sqrt hα.ne').const_mul (-(2 / √π))).congr_deriv ?_
    simp
    field_simp
  · have hs' : 0 < √s := Real.sqrt_pos.2 (lt_of_le_of_ne hs (Ne.symm h0))
    simp only [realTerm, if_neg h0]
    have h1 : HasDerivAt (fun a : ℝ => √a * √s) (1 / (2 * √α) * √s) α :=
      (Real.hasDerivAt_sqrt hα.ne').mul_const _
    have h2 : HasDerivAt (fun a : ℝ => erfc (√a * √s))
        (-(2 / √π * exp (-(√α * √s) ^ 2)) * (1 / (2 * √α) * √s)) α :=
      HasDerivAt.comp (h₂ := erfc) (h := fun a => √a * √s) α (erfc_hasDerivAt _) h1
    refine (h2.div_const (√s)).congr_deriv ?_
    have : (√α * √s) ^ 2 = α * s := by
      rw [mul_pow, Real.sq_sqrt hα.le, Real.sq_sqrt hs]
    rw [this, ← neg_mul]
    field_simp

/-- The reciprocal term of a wave with squared length `g` and phase factor `c`. -/
noncomputable def recTerm (α g c : ℝ) : ℝ := if g = 0 then 0 else exp (-g / (4 * α)) / g * c

theorem recTerm_hasDerivAt (g c α : ℝ) (hα : 0 < α) :
    HasDerivAt (fun a => recTerm a g c)
      (if g = 0 then 0 else exp (-g / (4 * α)) / (4 * α ^ 2) * c) α := by
  by_cases h0 : g = 0
  · simp only [recTerm, h0, if_true]; exact hasDerivAt_const _ _
  · simp only [recTerm, if_neg h0]
    have h1 : HasDerivAt (fun a : ℝ => -g / (4 * a)) (g / (4 * α ^ 2)) α := by
      have h2 := ((hasDerivAt_id α).const_mul 4).inv (by simpa using hα.ne')
      have h3 := h2.const_mul (-g)
      simp only [id] at h3
      simp only [div_eq_mul_inv] at h3 ⊢
      refine h3.congr_deriv ?_
      field_simp
    refine ((h1.exp.div_const g).mul_const c).congr_deriv ?_
    field_simp

/-- Squared distances of a discrete arrangement. -/
structure Discrete {ι : Type} (s : ι → ℝ) : Prop where
  nonneg : ∀ n, 0 ≤ s n
  gauss : ∀ b, 0 < b → Summable fun n => exp (-b * s n)

theorem Discrete.gap {ι : Type} {s : ι → ℝ} (h : Discrete s) :
    ∃ γ, 0 < γ ∧ ∀ n, s n = 0 ∨ γ ≤ s n := by
  have h1 := (h.gauss 1 one_pos).tendsto_cofinite_zero
  have h2 : ∀ᶠ n in cofinite, exp (-1 * s n) < exp (-1) :=
    h1.eventually (gt_mem_nhds (exp_pos _))
  rw [eventually_cofinite] at h2
  have hf : Set.Finite {n | s n < 1} := by
    refine h2.subset fun n hn => ?_
    simp only [Set.mem_setOf_eq, not_lt] at hn ⊢
    exact exp_le_exp.2 (by linarith)
  have hg : (s '' {n | s n < 1 ∧ s n ≠ 0}).Finite :=
    (hf.subset fun n hn => hn.1).image s
  rcases (s '' {n | s n < 1 ∧ s n ≠ 0}).eq_empty_or_nonempty with he | hne
  · refine ⟨1, one_pos, fun n => ?_⟩
    by_contra hcon
    push Not at hcon
    have : s n ∈ s '' {n | s n < 1 ∧ s n ≠ 0} := ⟨n, ⟨hcon.2, hcon.1⟩, rfl⟩
    rw [he] at this; exact this
  · obtain ⟨m, hm, hmin⟩ := Set.exists_min_image _ id hg hne
    obtain ⟨k, hk, rfl⟩ := hm
    refine ⟨s k, lt_of_le_of_ne (h.nonneg k) (Ne.symm hk.2), fun n => ?_⟩
    by_cases hn : s n = 0
    · exact Or.inl hn
    · right
      by_cases hn1 : s n < 1
      · exact hmin (s n) ⟨n, ⟨hn1, hn⟩, rfl⟩
      · linarith [hk.1]

theorem Discrete.real_bound {ι : Type} {s : ι → ℝ} (h : Discrete s) :
    ∃ C, ∀ α, 0 < α → ∀ n, |realTerm α (s n)| ≤ (2 * √(α / π) + C) * exp (-α * s n) := by
  obtain ⟨γ, hγ, hs⟩ := h.gap
  refine ⟨1 / √γ, fun α hα n => ?_⟩
  have h1 : 0 ≤ 2 * √(α / π) := by positivity
  have h2 : 0 ≤ 1 / √γ := by positivity
  unfold realTerm
  split_ifs with h0
  · rw [h0, mul_zero, exp_zero, abs_neg, abs_of_nonneg h1]; linarith
  · have hge : γ ≤ s n := (hs n).resolve_left h0
    have hpos : 0 < √(s n) := Real.sqrt_pos.2 (by linarith)
    rw [abs_of_nonneg (div_nonneg (erfc_pos _).le hpos.le)]
    have he := erfc_le_gauss (√α * √(s n)) (by positivity)
    have : (√α * √(s n)) ^ 2 = α * s n := by
      rw [mul_pow, Real.sq_sqrt hα.le, Real.sq_sqrt (h.nonneg n)]
    rw [this, ← neg_mul] at he
    calc erfc (√α * √(s n)) / √(s n) ≤ exp (-α * s n) / √(s n) := by gcongr
      _ ≤ exp (-α * s n) / √γ := by gcongr
      _ = (1 / √γ) * exp (-α * s n) := by ring
      _ ≤ _ := by gcongr; linarith

theorem Discrete.real_summable {ι : Type} {s : ι → ℝ} (h : Discrete s) (α : ℝ) (hα : 0 < α) :
    Summable fun n => realTerm α (s n) := by
  obtain ⟨C, hC⟩ := h.real_bound
  refine Summable.of_norm_bounded ((h.gauss α hα).mul_left (2 * √(α / π) + C)) fun n => ?_
  rw [Real.norm_eq_abs]
  exact hC α hα n

theorem Discrete.real_deriv {ι : Type} {s : ι → ℝ} (h : Discrete s) (α : ℝ) (hα : 0 < α) :
    HasDerivAt (fun a => ∑' n, realTerm a (s n)) (-(∑' n, exp (-α * s n)) / √(π * α)) α := by
  have hπ := Real.pi_pos
  have key := hasDerivAt_tsum_of_isPreconnected (𝕜 := ℝ) (F := ℝ) (t := Set.Ioo (α / 2) (2 * α))
    (g := fun n a => realTerm a (s n)) (g' := fun n a => -(exp (-a * s n) / √(π * a)))
    (u := fun n => exp (-(α / 2) * s n) * (1 / √(π * (α / 2)))) (y₀ := α) (y := α)
    ((h.gauss (α / 2) (by linarith)).mul_right _) isOpen_Ioo isPreconnected_Ioo
    (fun n y hy => realTerm_hasDerivAt (s n) (h.nonneg n) y (by linarith [hy.1]))
    (fun n y hy => by
      have hy0 : 0 < y := by linarith [hy.1]
      rw [norm_neg, Real.norm_eq_abs, abs_of_nonneg (by positivity), div_eq_mul_one_div]
      have h1 : exp (-y * s n) ≤ exp (-(α / 2) * s n) :=
        exp_le_exp.2 (by nlinarith [h.nonneg n, hy.1])
      have h2 : √(π * (α / 2)) ≤ √(π * y) := Real.sqrt_le_sqrt (by nlinarith [hy.1])
      have h3 : 0 < √(π * (α / 2)) := Real.sqrt_pos.2 (by positivity)
      gcongr)
    ⟨by linarith, by linarith⟩ (h.real_summable α hα) ⟨by linarith, by linarith⟩
  refine key.congr_deriv ?_
  rw [tsum_neg, tsum_div_const, neg_div]

theorem Discrete.rec_bound {ι : Type} {g c : ι → ℝ} (h : Discrete g) (hc : ∀ n, |c n| ≤ 1) :
    ∃ C, 0 < C ∧ ∀ α, 0 < α → ∀ n, |recTerm α (g n) (c n)| ≤ C * exp (-(1 / (4 * α)) * g n) := by
  obtain ⟨γ, hγ, hs⟩ := h.gap
  refine ⟨1 / γ, by positivity, fun α hα n => ?_⟩
  unfold recTerm
  split_ifs with h0
  · rw [abs_zero]; positivity
  · have hge : γ ≤ g n := (hs n).resolve_left h0
    have hg0 : 0 < g n := by linarith
    rw [abs_mul, abs_of_nonneg (by positivity : 0 ≤ exp (-g n / (4 * α)) / g n)]
    have he : -(1 / (4 * α)) * g n = -g n / (4 * α) := by ring
    rw [he]
    calc exp (-g n / (4 * α)) / g n * |c n| ≤ exp (-g n / (4 * α)) / γ * 1 := by
          gcongr; exact hc n
      _ = _ := by ring

theorem Discrete.rec_summable {ι : Type} {g c : ι → ℝ} (h : Discrete g) (hc : ∀ n, |c n| ≤ 1)
    (α : ℝ) (hα : 0 < α) : Summable fun n => recTerm α (g n) (c n) := by
  obtain ⟨C, _, hC⟩ := h.rec_bound hc
  refine Summable.of_norm_bounded ((h.gauss (1 / (4 * α)) (by positivity)).mul_left C) fun n => ?_
  rw [Real.norm_eq_abs]
  exact hC α hα n

theorem Discrete.rec_deriv {ι : Type} {g c : ι → ℝ} (h : Discrete g) (hc : ∀ n, |c n| ≤ 1)
    (α : ℝ) (hα : 0 < α) :
    HasDerivAt (fun a => ∑' n, recTerm a (g n) (c n))
      (∑' n, if g n = 0 then 0 else exp (-g n / (4 * α)) / (4 * α ^ 2) * c n) α := by
  have key := hasDerivAt_tsum_of_isPreconnected (𝕜 := ℝ) (F := ℝ) (t := Set.Ioo (α / 2) (2 * α))
    (g := fun n a => recTerm a (g n) (c n))
    (g' := fun n a => if g n = 0 then 0 else exp (-g n / (4 * a)) / (4 * a ^ 2) * c n)
    (u := fun n => exp (-(1 / (8 * α)) * g n) * (1 / (4 * (α / 2) ^ 2))) (y₀ := α) (y := α)
    ((h.gauss (1 / (8 * α)) (by positivity)).mul_right _) isOpen_Ioo isPreconnected_Ioo
    (fun n y hy => recTerm_hasDerivAt (g n) (c n) y (by linarith [hy.1]))
    (fun n y hy => by
      have hy0 : 0 < y := by linarith [hy.1]
      split_ifs with h0
      · rw [norm_zero]; positivity
      · rw [norm_mul, Real.norm_eq_abs, Real.norm_eq_abs, abs_of_nonneg (by positivity)]
        have h1 : exp (-g n / (4 * y)) ≤ exp (-(1 / (8 * α)) * g n) := by
          refine exp_le_exp.2 ?_
          have h2 : 1 / (8 * α) ≤ 1 / (4 * y) := one_div_le_one_div_of_le (by positivity)
            (by linarith [hy.2])
          have h3 := mul_le_mul_of_nonneg_right h2 (h.nonneg n)
          have h4 : -g n / (4 * y) = -(1 / (4 * y) * g n) := by ring
          rw [h4]; linarith
        have h5 : (4 * (α / 2) ^ 2) ≤ 4 * y ^ 2 := by nlinarith [hy.1]
        calc exp (-g n / (4 * y)) / (4 * y ^ 2) * |c n|
            ≤ exp (-(1 / (8 * α)) * g n) / (4 * (α / 2) ^ 2) * 1 := by
              gcongr; exact hc n
          _ = _ := by ring)
    ⟨by linarith, by linarith⟩ (h.rec_summable hc α hα) ⟨by linarith, by linarith⟩
  exact key

/-- The reciprocal sum vanishes with the splitting parameter. -/
theorem Discrete.rec_tendsto {ι : Type} {g c : ι → ℝ} (h : Discrete g) (hc : ∀ n, |c n| ≤ 1) :
    Tendsto (fun a => ∑' n, recTerm a (g n) (c n)) (𝓝[>] 0) (𝓝 0) := by
  obtain ⟨C, hC0, hC⟩ := h.rec_bound hc
  have key := tendsto_tsum_of_dominated_convergence (𝓕 := 𝓝[>] (0 : ℝ))
    (f := fun a n => recTerm a (g n) (c n)) (g := fun _ => 0)
    (bound := fun n => C * exp (-(1 / 4) * g n)) ((h.gauss (1 / 4) (by norm_num)).mul_left C)
    (fun n => by
      by_cases h0 : g n = 0
      · simp [recTerm, h0]
      · have hg : 0 < g n := lt_of_le_of_ne (h.nonneg n) (Ne.symm h0)
        simp only [recTerm, if_neg h0]
        have h1 : Tendsto (fun a : ℝ => exp (-g n / (4 * a))) (𝓝[>] 0) (𝓝 0) := by
          refine tendsto_exp_atBot.comp ?_
          have h2 : Tendsto (fun a : ℝ => (g n / 4) * a⁻¹) (𝓝[>] 0) atTop :=
            Tendsto.const_mul_atTop (by positivity) tendsto_inv_nhdsGT_zero
          refine (tendsto_neg_atTop_atBot.comp h2).congr' ?_
          filter_upwards [self_mem_nhdsWithin] with a ha
          have : (a : ℝ) ≠ 0 := (show (0:ℝ) < a from ha).ne'
          simp only [Function.comp]
          field_simp
        simpa using (h1.div_const (g n)).mul_const (c n))
    (by
      filter_upwards [Ioc_mem_nhdsGT (one_pos : (0 : ℝ) < 1)] with a ha n
      rw [Real.norm_eq_abs]
      refine (hC a ha.1 n).trans ?_
      refine mul_le_mul_of_nonneg_left (exp_le_exp.2 ?_) hC0.le
      have : 1 / 4 ≤ 1 / (4 * a) := one_div_le_one_div_of_le (by linarith [ha.1]) (by linarith [ha.2])
      nlinarith [h.nonneg n])
  simpa using key

end Hotbit
