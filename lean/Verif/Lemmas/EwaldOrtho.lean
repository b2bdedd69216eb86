import Verif.Lemmas.EwaldLattice

/-! Helper lemmas for the Ewald sum: Poisson summation makes the complete sum of an orthorhombic cell
independent of the splitting, up to a constant that cancels for neutral charges. -/

namespace Hotbit

open Real Filter Topology Matrix

theorem poisson1 (α L x : ℝ) (hα : 0 < α) (hL : 0 < L) :
    ((∑' n : ℤ, exp (-α * (x - n * L) ^ 2) : ℝ) : ℂ) = ((√(π / α) / L : ℝ) : ℂ) *
      ∑' n : ℤ, Complex.exp (((-(2 * π * n / L) ^ 2 / (4 * α) : ℝ) : ℂ) +
        Complex.I * ((2 * π * n / L * x : ℝ) : ℂ)) := by
  have hπ := Real.pi_pos
  set a : ℝ := π / (α * L ^ 2) with ha
  have ha0 : 0 < a := by positivity
  have h := Complex.tsum_exp_neg_quadratic (a := (a : ℂ)) (by simpa using ha0)
    (Complex.I * ((x / L : ℝ) : ℂ))
  have hl : ∀ n : ℤ, Complex.exp (-π * a * n ^ 2 + 2 * π * (Complex.I * ((x / L : ℝ) : ℂ)) * n) =
      Complex.exp (((-(2 * π * n / L) ^ 2 / (4 * α) : ℝ) : ℂ) +
        Complex.I * ((2 * π * n / L * x : ℝ) : ℂ)) := by
    intro n
    congr 1
    have h1 : (-π * a * n ^ 2 : ℝ) = -(2 * π * n / L) ^ 2 / (4 * α) := by
      rw [ha]; field_simp; ring
    have h2 : (2 * π * (x / L) * n : ℝ) = 2 * π * n / L * x := by ring
    rw [← h1, ← h2]
    push_cast
    ring
  have hr : ∀ n : ℤ, Complex.exp (-π / a * (n + Complex.I * (Complex.I * ((x / L : ℝ) : ℂ))) ^ 2) =
      ((exp (-α * (x - n * L) ^ 2) : ℝ) : ℂ) := by
    intro n
    rw [Complex.ofReal_exp]
    congr 1
    have h1 : (-α * (x - n * L) ^ 2 : ℝ) = -π / a * (n - x / L) ^ 2 := by
      rw [ha]; field_simp; ring
    rw [h1, ← mul_assoc, Complex.I_mul_I]
    push_cast
    ring
  simp only [hl, hr] at h
  rw [h, ← Complex.ofReal_tsum]
  have h3 : (a : ℂ) ^ (1 / 2 : ℂ) = ((√a : ℝ) : ℂ) := by
    rw [Real.sqrt_eq_rpow, Complex.ofReal_cpow ha0.le]
    norm_num
  rw [h3, ← Complex.ofReal_one, ← Complex.ofReal_div, ← mul_assoc, ← Complex.ofReal_mul]
  have h4 : √(π / α) / L * (1 / √a) = 1 := by
    have : √a = √(π / α) / L := by
      rw [ha, ← div_div, Real.sqrt_div' _ (by positivity), Real.sqrt_sq hL.le]
    rw [this]
    have : 0 < √(π / α) := Real.sqrt_pos.2 (by positivity)
    field_simp
  rw [h4]; simp

theorem rec1_summable (α L x : ℝ) (hα : 0 < α) (hL : 0 < L) :
    Summable fun n : ℤ => ‖Complex.exp (((-(2 * π * n / L) ^ 2 / (4 * α) : ℝ) : ℂ) +
        Complex.I * ((2 * π * n / L * x : ℝ) : ℂ))‖ := by
  have hπ := Real.pi_pos
  have h := gauss_int ((2 * π / L) ^ 2 / (4 * α)) (by positivity)
  refine h.congr fun n => ?_
  rw [Complex.norm_exp]
  congr 1
  simp only [Complex.add_re, Complex.ofReal_re, Complex.mul_re, Complex.I_re, Complex.I_im,
    Complex.ofReal_im]
  ring

theorem latVec_diag (L : Vec) (n : Ix) (j : Fin 3) : latVec (Matrix.diagonal L) n j = zvec n j * L j := by
  fin_cases j <;> simp [latVec, zvec, Matrix.diagonal]

theorem inv_diag (L : Vec) (hL : ∀ k, 0 < L k) :
    (Matrix.diagonal L)⁻¹ = Matrix.diagonal fun k => 1 / L k := by
  refine Matrix.inv_eq_right_inv ?_
  rw [Matrix.diagonal_mul_diagonal, ← Matrix.diagonal_one]
  congr 1
  funext k
  have := (hL k).ne'
  field_simp

theorem recVec_diag (L : Vec) (hL : ∀ k, 0 < L k) (n : Ix) (j : Fin 3) :
    recVec (Matrix.diagonal L) n j = 2 * π * zvec n j / L j := by
  rw [recVec, inv_diag L hL, latVec_diag]; ring

theorem det_diag (L : Vec) : (Matrix.diagonal L : Mat).det = L 0 * L 1 * L 2 := by
  rw [Matrix.det_diagonal, Fin.prod_univ_three]

/-- Poisson summation in three dimensions. -/
theorem poisson3 (α : ℝ) (hα : 0 < α) (L : Vec) (hL : ∀ k, 0 < L k) (x : Vec) :
    ∑' n, exp (-α * sqNorm (x - latVec (Matrix.diagonal L) n)) =
      √(π / α) ^ 3 / (L 0 * L 1 * L 2) * ∑' n, exp (-sqNorm (recVec (Matrix.diagonal L) n) / (4 * α)) *
        cos (recVec (Matrix.diagonal L) n ⬝ᵥ x) := by
  set C : ℝ → ℝ → ℤ → ℂ := fun l y n => Complex.exp (((-(2 * π * n / l) ^ 2 / (4 * α) : ℝ) : ℂ) +
        Complex.I * ((2 * π * n / l * y : ℝ) : ℂ)) with hC
  set E : ℝ → ℝ → ℤ → ℝ := fun l y n => exp (-α * (y - n * l) ^ 2) with hE
  have hEs : ∀ l y, 0 < l → Summable (E l y) := by
    intro l y hl
    refine (gauss_int_shift (α * l ^ 2) (y / l) (by positivity)).congr fun n => ?_
    simp only [hE]
    congr 1
    field_simp
  have hEn : ∀ l y, 0 < l → Summable fun n => ‖E l y n‖ := fun l y hl => (hEs l y hl).norm
  have hCn : ∀ l y, 0 < l → Summable fun n => ‖C l y n‖ := fun l y hl => rec1_summable α l y hα hl
  have hleft : ∑' n, exp (-α * sqNorm (x - latVec (Matrix.diagonal L) n)) =
      (∑' n, E (L 0) (x 0) n) * ((∑' n, E (L 1) (x 1) n) * ∑' n, E (L 2) (x 2) n) := by
    rw [tsum_mul_tsum_of_summable_norm (hEn _ _ (hL 1)) (hEn _ _ (hL 2)),
      tsum_mul_tsum_of_summable_norm (hEn _ _ (hL 0))
        (summable_mul_of_summable_norm (hEn _ _ (hL 1)) (hEn _ _ (hL 2))).norm]
    refine tsum_congr fun n => ?_
    simp only [hE]
    rw [← exp_add, ← exp_add]
    congr 1
    simp only [sqNorm, Fin.sum_univ_three, Pi.sub_apply, latVec_diag, zvec]
    simp
    ring
  have hCs := summable_mul_of_summable_norm (hCn _ (x 1) (hL 1)) (hCn _ (x 2) (hL 2))
  have hC3 := summable_mul_of_summable_norm (hCn _ (x 0) (hL 0)) hCs.norm
  have hright : (∑' n, C (L 0) (x 0) n) * ((∑' n, C (L 1) (x 1) n) * ∑' n, C (L 2) (x 2) n) =
      ∑' n : Ix, C (L 0) (x 0) n.1 * (C (L 1) (x 1) n.2.1 * C (L 2) (x 2) n.2.2) := by
    rw [tsum_mul_tsum_of_summable_norm (hCn _ _ (hL 1)) (hCn _ _ (hL 2)),
      tsum_mul_tsum_of_summable_norm (hCn _ _ (hL 0)) hCs.norm]
  have hre : ∀ n : Ix, (C (L 0) (x 0) n.1 * (C (L 1) (x 1) n.2.1 * C (L 2) (x 2) n.2.2)).re =
      exp (-sqNorm (recVec (Matrix.diagonal L) n) / (4 * α)) *
        cos (recVec (Matrix.diagonal L) n ⬝ᵥ x) := by
    intro n
    have h1 : C (L 0) (x 0) n.1 * (C (L 1) (x 1) n.2.1 * C (L 2) (x 2) n.2.2) =
        Complex.exp (((-sqNorm (recVec (Matrix.diagonal L) n) / (4 * α) : ℝ) : ℂ) +
          ((recVec (Matrix.diagonal L) n ⬝ᵥ x : ℝ) : ℂ) * Complex.I) := by
      simp only [hC]
      rw [← Complex.exp_add, ← Complex.exp_add]
      congr 1
      have e1 : -sqNorm (recVec (Matrix.diagonal L) n) / (4 * α) =
          -(2 * π * n.1 / L 0) ^ 2 / (4 * α) + (-(2 * π * n.2.1 / L 1) ^ 2 / (4 * α) +
            -(2 * π * n.2.2 / L 2) ^ 2 / (4 * α)) := by
        simp only [sqNorm, Fin.sum_univ_three, recVec_diag L hL, zvec]
        simp
        ring
      have e2 : recVec (Matrix.diagonal L) n ⬝ᵥ x = 2 * π * n.1 / L 0 * x 0 +
          (2 * π * n.2.1 / L 1 * x 1 + 2 * π * n.2.2 / L 2 * x 2) := by
        simp only [dotProduct, Fin.sum_univ_three, recVec_diag L hL, zvec]
        simp
        ring
      rw [e1, e2]
      simp only [Complex.ofReal_add]
      ring
    rw [h1, Complex.exp_re]
    simp only [Complex.add_re, Complex.add_im, Complex.ofReal_re, Complex.ofReal_im, Complex.mul_re,
      Complex.mul_im, Complex.I_re, Complex.I_im, mul_zero, mul_one, sub_zero, add_zero, zero_add]
  have h : ((∑' n, exp (-α * sqNorm (x - latVec (Matrix.diagonal L) n)) : ℝ) : ℂ) =
      ((√(π / α) ^ 3 / (L 0 * L 1 * L 2) : ℝ) : ℂ) *
        ∑' n : Ix, C (L 0) (x 0) n.1 * (C (L 1) (x 1) n.2.1 * C (L 2) (x 2) n.2.2) := by
    rw [hleft, ← hright, Complex.ofReal_mul, Complex.ofReal_mul, poisson1 α (L 0) (x 0) hα (hL 0),
      poisson1 α (L 1) (x 1) hα (hL 1), poisson1 α (L 2) (x 2) hα (hL 2)]
    have e : √(π / α) ^ 3 / (L 0 * L 1 * L 2) =
        √(π / α) / L 0 * (√(π / α) / L 1 * (√(π / α) / L 2)) := by
      rw [div_mul_div_comm, div_mul_div_comm, ← mul_assoc (L 0)]; ring
    rw [e, Complex.ofReal_mul, Complex.ofReal_mul]
    simp only [hC]
    ring
  have h2 := congrArg Complex.re h
  rw [Complex.ofReal_re, Complex.re_ofReal_mul, Complex.re_tsum hC3] at h2
  rw [h2]
  congr 1
  exact tsum_congr hre

theorem recVec_eq_zero (cell : Mat) (hM : cell.det ≠ 0) (n : Ix) :
    sqNorm (recVec cell n) = 0 ↔ n = (0, 0, 0) := by
  rw [sqNorm_recVec, ← latVec_eq_zero cell⁻¹ (det_inv_ne _ hM), ← sqNorm_eq_zero]
  have := Real.pi_pos
  simp [this.ne']

open Classical in
/-- The complete sum depends on the splitting through a constant only. -/
theorem kernel_const (L : Vec) (hL : ∀ k, 0 < L k) (x : Vec) : ∃ κ, ∀ α, 0 < α →
    ewKernel α (Matrix.diagonal L) x = κ + π / (L 0 * L 1 * L 2 * α) := by
  have hπ := Real.pi_pos
  have hV : 0 < L 0 * L 1 * L 2 := by have := hL 0; have := hL 1; have := hL 2; positivity
  set cell : Mat := Matrix.diagonal L with hcell
  have hdet : cell.det = L 0 * L 1 * L 2 := det_diag L
  have hM : cell.det ≠ 0 := by rw [hdet]; exact hV.ne'
  set V := L 0 * L 1 * L 2 with hVd
  have hd : ∀ α, 0 < α → HasDerivAt (fun a => ewKernel a cell x - π / (V * a)) 0 α := by
    intro α hα
    have h1 := (discrete_lat cell hM x).real_deriv α hα
    have h2 := (discrete_rec cell hM).rec_deriv (c := fun n => cos (recVec cell n ⬝ᵥ x))
      (fun n => abs_cos_le_one _) α hα
    have h3 : HasDerivAt (fun a : ℝ => π / (V * a)) (-(π / (V * α ^ 2))) α := by
      have h4 := ((hasDerivAt_id α).const_mul V).inv (by simpa using ⟨hV.ne', hα.ne'⟩)
      have h5 := h4.const_mul π
      simp only [id] at h5
      simp only [div_eq_mul_inv]
      refine h5.congr_deriv ?_
      field_simp
    have hs : Summable fun n => exp (-sqNorm (recVec cell n) / (4 * α)) * cos (recVec cell n ⬝ᵥ x) := by
      refine Summable.of_norm_bounded ((discrete_rec cell hM).gauss (1 / (4 * α)) (by positivity))
        fun n => ?_
      rw [norm_mul, Real.norm_eq_abs, Real.norm_eq_abs, abs_of_pos (exp_pos _)]
      have e : -(1 / (4 * α)) * sqNorm (recVec cell n) = -sqNorm (recVec cell n) / (4 * α) := by ring
      rw [e]
      exact mul_le_of_le_one_right (exp_pos _).le (abs_cos_le_one _)
    have h6 : (∑' n, if sqNorm (recVec cell n) = 0 then 0 else
        exp (-sqNorm (recVec cell n) / (4 * α)) / (4 * α ^ 2) * cos (recVec cell n ⬝ᵥ x)) =
        1 / (4 * α ^ 2) * (∑' n, exp (-sqNorm (recVec cell n) / (4 * α)) * cos (recVec cell n ⬝ᵥ x) - 1) := by
      have e1 : (1 : ℝ) = ∑' n : Ix, if n = (0, 0, 0) then 1 else 0 := by rw [tsum_ite_eq]
      have hs2 : Summable fun n : Ix => if n = (0, 0, 0) then (1 : ℝ) else 0 :=
        (hasSum_ite_eq _ _).summable
      conv_rhs => rw [e1]
      rw [← e1, e1, ← hs.tsum_sub hs2, ← e1, ← tsum_mul_left]
      refine tsum_congr fun n => ?_
      by_cases hn : n = (0, 0, 0)
      · rw [if_pos ((recVec_eq_zero cell hM n).2 hn), if_pos hn, hn, recVec_zero]
        simp [sqNorm]
      · rw [if_neg (fun h => hn ((recVec_eq_zero cell hM n).1 h)), if_neg hn]
        ring
    refine ((h1.add (h2.const_mul (4 * π / |cell.det|))).sub h3).congr_deriv ?_
    rw [h6, poisson3 α hα L hL x, ← hcell, ← hVd, hdet, abs_of_pos hV]
    have e2 : √(π / α) ^ 3 / √(π * α) = π / α ^ 2 := by
      rw [Real.sqrt_div' _ hα.le, Real.sqrt_mul hπ.le]
      have e3 : √π ^ 2 = π := Real.sq_sqrt hπ.le
      have e4 : √α ^ 2 = α := Real.sq_sqrt hα.le
      have e5 : 0 < √π := Real.sqrt_pos.2 hπ
      have e6 : 0 < √α := Real.sqrt_pos.2 hα
      have e7 : α ^ 2 = √α ^ 4 := by
        calc α ^ 2 = (√α ^ 2) ^ 2 := by rw [e4]
          _ = _ := by ring
      rw [e7]
      conv_rhs => rw [← e3]
      field_simp
    set S := ∑' n, exp (-sqNorm (recVec cell n) / (4 * α)) * cos (recVec cell n ⬝ᵥ x)
    have e8 : -(√(π / α) ^ 3 / V * S) / √(π * α) = -(√(π / α) ^ 3 / √(π * α)) / V * S := by ring
    rw [e8, e2]
    field_simp
    ring
  have hconst : ∀ α, 0 < α → ewKernel α cell x - π / (V * α) = ewKernel 1 cell x - π / (V * 1) := by
    intro α hα
    exact isOpen_Ioi.is_const_of_deriv_eq_zero (f := fun a => ewKernel a cell x - π / (V * a))
      (isPreconnected_Ioi (a := (0 : ℝ)))
      (fun a ha => (hd a ha).differentiableAt.differentiableWithinAt)
      (fun a ha => (hd a ha).deriv) hα (Set.mem_Ioi.2 one_pos)
  exact ⟨ewKernel 1 cell x - π / (V * 1), fun α hα => by rw [← hconst α hα]; ring⟩

end Hotbit
