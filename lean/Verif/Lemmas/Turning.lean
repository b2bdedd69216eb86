import Verif.Lemmas.TurnedBlocks
import Mathlib.Analysis.Normed.Algebra.MatrixExponential
import Mathlib.Analysis.SpecialFunctions.Exponential
import Mathlib.Analysis.Calculus.Deriv.Pi
import Mathlib.Topology.Algebra.Module.FiniteDimension

/-!
# Slow turning: derivatives of rotations and of the turned orbitals
-/

namespace Hotbit

open Matrix

/-! ### Rotations -/

/-- The rotation with angular velocity `W` (a skew matrix) after the time `t`. -/
noncomputable def turnBy (W : Mat) (t : ℝ) : Mat := NormedSpace.exp (t • W)

variable {W Q : Mat}

theorem turnBy_zero (W : Mat) : turnBy W 0 = 1 := by
  unfold turnBy
  rw [zero_smul, NormedSpace.exp_zero]

theorem turnBy_orth (hW : Wᵀ = -W) (t : ℝ) : (turnBy W t)ᵀ * turnBy W t = 1 := by
  unfold turnBy
  rw [← Matrix.exp_transpose, Matrix.transpose_smul, hW, smul_neg, Matrix.exp_neg]
  exact Matrix.nonsing_inv_mul _ ((Matrix.isUnit_iff_isUnit_det _).1 (Matrix.isUnit_exp _))

theorem turnBy_comm (h : W * Q = Q * W) (t : ℝ) : turnBy W t * Q = Q * turnBy W t := by
  unfold turnBy
  letI : NormedRing Mat := Matrix.linftyOpNormedRing
  letI : NormedAlgebra ℝ Mat := Matrix.linftyOpNormedAlgebra
  have h1 : Commute W Q := h
  exact (h1.smul_left t).exp_left

theorem turnBy_deriv (W : Mat) (i j : Fin 3) : HasDerivAt (fun t => turnBy W t i j) (W i j) 0 := by
  letI : NormedRing Mat := Matrix.linftyOpNormedRing
  letI : NormedAlgebra ℝ Mat := Matrix.linftyOpNormedAlgebra
  have h := hasDerivAt_exp_smul_const (𝕂 := ℝ) W (0 : ℝ)
  rw [zero_smul, NormedSpace.exp_zero, one_mul] at h
  have h1 := ((Matrix.entryLinearMap ℝ ℝ i j : Mat →ₗ[ℝ] ℝ).toContinuousLinearMap.hasFDerivAt).comp_hasDerivAt
    (0 : ℝ) h
  exact h1

theorem turnBy_mulVec (W : Mat) (x : Vec) (c : Fin 3) :
    HasDerivAt (fun t => (turnBy W t *ᵥ x) c) ((W *ᵥ x) c) 0 := by
  unfold Matrix.mulVec dotProduct
  exact HasDerivAt.fun_sum fun j _ => (turnBy_deriv W c j).mul_const (x j)

/-! ### Orbitals -/

theorem orbRep_differentiable (W : Mat) (a b : Fin 9) :
    DifferentiableAt ℝ (fun t => orbRep (turnBy W t) a b) 0 := by
  have h : ∀ i j, DifferentiableAt ℝ (fun t => turnBy W t i j) 0 := fun i j =>
    (turnBy_deriv W i j).differentiableAt
  rcases orb_cases a with rfl | ⟨x, rfl⟩ | ⟨x, rfl⟩ <;> rcases orb_cases b with rfl | ⟨y, rfl⟩ | ⟨y, rfl⟩ <;>
    simp only [orbRep_00, orbRep_0p, orbRep_0d, orbRep_p0, orbRep_d0, orbRep_pd, orbRep_dp, orbRep_pp,
      orbRep_dd, differentiableAt_const]
  · exact h x y
  · simp only [dRep, Matrix.trace, Matrix.diag, Matrix.mul_apply, Matrix.transpose_apply]
    refine DifferentiableAt.const_mul (DifferentiableAt.fun_sum fun i _ => DifferentiableAt.fun_sum fun j _ =>
      DifferentiableAt.mul_const (DifferentiableAt.fun_sum fun l _ => DifferentiableAt.fun_mul
        (DifferentiableAt.fun_sum fun m _ => DifferentiableAt.mul_const (h _ _) _) (h _ _)) _) _

/-- The generator of the turning of the orbitals. -/
noncomputable def orbGen (W : Mat) : Matrix (Fin 9) (Fin 9) ℝ :=
  fun a b => deriv (fun t => orbRep (turnBy W t) a b) 0

theorem orbGen_deriv (W : Mat) (a b : Fin 9) :
    HasDerivAt (fun t => orbRep (turnBy W t) a b) (orbGen W a b) 0 :=
  (orbRep_differentiable W a b).hasDerivAt

theorem orbGen_off (W : Mat) {a b : Fin 9} (h : orbL a ≠ orbL b) : orbGen W a b = 0 := by
  unfold orbGen
  simp only [orbRep_off _ _ _ h, deriv_const]

theorem orbGen_skew (hW : Wᵀ = -W) : (orbGen W)ᵀ = -orbGen W := by
  ext a b
  have h1 : HasDerivAt (fun t => ∑ c, orbRep (turnBy W t) a c * orbRep (turnBy W t) b c)
      (∑ c, (orbGen W a c * orbRep (turnBy W 0) b c + orbRep (turnBy W 0) a c * orbGen W b c)) 0 :=
    HasDerivAt.fun_sum fun c _ => (orbGen_deriv W a c).fun_mul (orbGen_deriv W b c)
  have h2 : (fun t => ∑ c, orbRep (turnBy W t) a c * orbRep (turnBy W t) b c) = fun _ => (1 : Matrix (Fin 9) (Fin 9) ℝ) a b := by
    funext t
    have := congrFun (congrFun (orbRep_orth _ (turnBy_orth hW t)) a) b
    rw [Matrix.mul_apply] at this
    simpa using this
  rw [h2] at h1
  have h3 := h1.unique (hasDerivAt_const _ _)
  rw [turnBy_zero, orbRep_one] at h3
  simp [Matrix.one_apply, Finset.sum_add_distrib] at h3
  rw [Matrix.transpose_apply, Matrix.neg_apply]
  linarith

theorem orbGen_comm (hW : Wᵀ = -W) (hQ : Qᵀ * Q = 1) (h : W * Q = Q * W) :
    orbGen W * orbRep Q = orbRep Q * orbGen W := by
  have e : ∀ t, orbRep (turnBy W t) * orbRep Q = orbRep Q * orbRep (turnBy W t) := by
    intro t
    rw [← orbRep_mul _ _ (turnBy_orth hW t), turnBy_comm h, orbRep_mul _ _ hQ]
  ext a b
  rw [Matrix.mul_apply, Matrix.mul_apply]
  have h1 : HasDerivAt (fun t => ∑ c, orbRep (turnBy W t) a c * orbRep Q c b)
      (∑ c, orbGen W a c * orbRep Q c b) 0 :=
    HasDerivAt.fun_sum fun c _ => (orbGen_deriv W a c).mul_const _
  have h2 : HasDerivAt (fun t => ∑ c, orbRep Q a c * orbRep (turnBy W t) c b)
      (∑ c, orbRep Q a c * orbGen W c b) 0 :=
    HasDerivAt.fun_sum fun c _ => (orbGen_deriv W c b).const_mul _
  have h3 : (fun t => ∑ c, orbRep (turnBy W t) a c * orbRep Q c b)
      = fun t => ∑ c, orbRep Q a c * orbRep (turnBy W t) c b := by
    funext t
    have := congrFun (congrFun (e t) a) b
    rwa [Matrix.mul_apply, Matrix.mul_apply] at this
  rw [h3] at h1
  exact h1.unique h2

/-! ### Elements of the blocks -/

theorem skCoefD_turn (hW : Wᵀ = -W) (k : Fin 3) (a b : Fin 9) (r : Vec) :
    skCoefD k a b r (W *ᵥ r) = (∑ x, orbGen W a x * skCoef k x b r) + ∑ y, orbGen W b y * skCoef k a y r := by
  have h1 := skCoef_hasDerivAt (fun t => turnBy W t *ᵥ r) (W *ᵥ r) 0 (fun c => turnBy_mulVec W r c) k a b
  have h2 : HasDerivAt (fun t => ∑ x, ∑ y, orbRep (turnBy W t) a x * orbRep (turnBy W t) b y * skCoef k x y r)
      (∑ x, ∑ y, (orbGen W a x * orbRep (turnBy W 0) b y + orbRep (turnBy W 0) a x * orbGen W b y)
        * skCoef k x y r) 0 :=
    HasDerivAt.fun_sum fun x _ => HasDerivAt.fun_sum fun y _ =>
      ((orbGen_deriv W a x).fun_mul (orbGen_deriv W b y)).mul_const _
  simp only [skCoef_rot _ (turnBy_orth hW _)] at h1
  have h3 := h1.unique h2
  rw [turnBy_zero, orbRep_one, Matrix.one_mulVec] at h3
  rw [h3]
  simp only [add_mul, Finset.sum_add_distrib]
  congr 1
  · refine Finset.sum_congr rfl fun x _ => ?_
    simp [Matrix.one_apply]
  · simp [Matrix.one_apply]

theorem orbGen_shell (W : Mat) {no : ℕ} (hv : ValidNo no) {p a : Fin 9} (hp : p.val < no) (ha : ¬ a.val < no) :
    orbGen W p a = 0 := by
  unfold orbGen
  simp only [orbRep_shell hv hp ha, deriv_const]

theorem orbGen_shell' (W : Mat) {no : ℕ} (hv : ValidNo no) {p a : Fin 9} (hp : ¬ p.val < no) (ha : a.val < no) :
    orbGen W p a = 0 := by
  unfold orbGen
  simp only [orbRep_shell' hv hp ha, deriv_const]

theorem elemAt_eq (J : SkJunk) {noi noj : ℕ} (hi : ValidNo noi) (hj : ValidNo noj)
    (H : ℝ → Fin 14 → ℝ) {x : Vec} (hx : x ≠ 0) {p q : Fin 9} (hp : p.val < noi) (hq : q.val < noj) :
    elemAt J noi noj H x p q = ∑ k : Fin 3, if k.val < skCnt p q then
      H (norm3 x) (skIntegralIndex (orbL p) (orbL q) k) * skCoef k p q ((norm3 x)⁻¹ • x) else 0 := by
  unfold elemAt
  rw [skElem_spec J _ (unit_dir hx) hi hj _ hp hq]
  unfold skSpec intOf
  refine Finset.sum_congr rfl fun k _ => ?_
  by_cases hk : k.val < skCnt p q
  · rw [if_pos hk, if_pos (by rw [skCnt_eq] at hk; omega)]
  · rw [if_neg hk, if_neg (by rw [skCnt_eq] at hk; omega)]

theorem skew_dot (hW : Wᵀ = -W) (x : Vec) : x ⬝ᵥ (W *ᵥ x) = 0 := by
  have h : x ⬝ᵥ (W *ᵥ x) = -(x ⬝ᵥ (W *ᵥ x)) := by
    conv_lhs => rw [Matrix.dotProduct_mulVec, ← Matrix.mulVec_transpose, hW, Matrix.neg_mulVec, neg_dotProduct,
      dotProduct_comm]
  linarith

/-- When the bond turns, the elements change as the orbitals turn. -/
theorem delemAt_gen (J : SkJunk) {noi noj : ℕ} (hi : ValidNo noi) (hj : ValidNo noj) (hW : Wᵀ = -W)
    (H dH : ℝ → Fin 14 → ℝ) {x : Vec} (hx : x ≠ 0) {p q : Fin 9} (hp : p.val < noi) (hq : q.val < noj) :
    ∑ c, (W *ᵥ x) c * delemAt J noi noj H dH x p q c
      = (∑ a, orbGen W p a * elemAt J noi noj H x a q) + ∑ b, orbGen W q b * elemAt J noi noj H x p b := by
  have hn := (norm3_pos hx).ne'
  have hdot := skew_dot hW x
  have hdir : ∀ a, ∑ c, (W *ᵥ x) c * skDcos ((norm3 x)⁻¹ • x) (norm3 x) a c = (W *ᵥ ((norm3 x)⁻¹ • x)) a := by
    intro a
    rw [Matrix.mulVec_smul, Pi.smul_apply, smul_eq_mul]
    have hd : x 0 * (W *ᵥ x) 0 + x 1 * (W *ᵥ x) 1 + x 2 * (W *ᵥ x) 2 = 0 := by
      rw [← hdot, dotProduct, Fin.sum_univ_three]
    generalize W *ᵥ x = w at hd
    unfold skDcos
    simp only [Fin.sum_univ_three, Pi.smul_apply, smul_eq_mul]
    fin_cases a <;> simp <;> field_simp
    · linear_combination (-x 0) * hd
    · linear_combination (-x 1) * hd
    · linear_combination (-x 2) * hd
  have hval : ∑ c, (W *ᵥ x) c * delemAt J noi noj H dH x p q c
      = ∑ k : Fin 3, if k.val < skCnt p q then
          H (norm3 x) (skIntegralIndex (orbL p) (orbL q) k)
              * skCoefD k p q ((norm3 x)⁻¹ • x) (W *ᵥ ((norm3 x)⁻¹ • x)) else 0 := by
    unfold delemAt skDElem
    simp only [Finset.mul_sum]
    rw [Finset.sum_comm]
    refine Finset.sum_congr rfl fun k _ => ?_
    by_cases hk : k.val < skCnt p q
    · simp only [if_pos hk]
      rw [skMat_clean J _ (unit_dir hx) hi hj hp hq hk, skInd_clean J.ind hi hj hp hq hk]
      have e := skCoefD_sum k p q ((norm3 x)⁻¹ • x) (W *ᵥ x)
        (fun c a => skDcos ((norm3 x)⁻¹ • x) (norm3 x) a c)
      rw [show (fun a => ∑ c, (W *ᵥ x) c * skDcos ((norm3 x)⁻¹ • x) (norm3 x) a c)
        = W *ᵥ ((norm3 x)⁻¹ • x) from funext hdir] at e
      rw [e]
      have hd : x 0 * (W *ᵥ x) 0 + x 1 * (W *ᵥ x) 1 + x 2 * (W *ᵥ x) 2 = 0 := by
        rw [← hdot, dotProduct, Fin.sum_univ_three]
      simp only [skDer_clean J _ (unit_dir hx) _ hi hj hp hq hk, Fin.sum_univ_three, Pi.smul_apply, smul_eq_mul]
      linear_combination (dH (norm3 x) (skIntegralIndex (orbL p) (orbL q) k) *
        skCoef k p q ((norm3 x)⁻¹ • x) * (norm3 x)⁻¹) * hd
    · simp only [if_neg hk, mul_zero, Finset.sum_const_zero]
  rw [hval]
  have h1 : ∀ a, orbGen W p a * elemAt J noi noj H x a q = ∑ k : Fin 3, if k.val < skCnt p q then
      H (norm3 x) (skIntegralIndex (orbL p) (orbL q) k) * (orbGen W p a * skCoef k a q ((norm3 x)⁻¹ • x)) else 0 := by
    intro a
    by_cases ha : orbL p = orbL a
    · by_cases ha' : a.val < noi
      · rw [elemAt_eq J hi hj H hx ha' hq, Finset.mul_sum]
        refine Finset.sum_congr rfl fun k _ => ?_
        rw [skCnt_eq, skCnt_eq, ← ha]
        split <;> ring
      · rw [orbGen_shell W hi hp ha']
        simp
    · rw [orbGen_off W ha]
      simp
  have h2 : ∀ b, orbGen W q b * elemAt J noi noj H x p b = ∑ k : Fin 3, if k.val < skCnt p q then
      H (norm3 x) (skIntegralIndex (orbL p) (orbL q) k) * (orbGen W q b * skCoef k p b ((norm3 x)⁻¹ • x)) else 0 := by
    intro b
    by_cases hb : orbL q = orbL b
    · by_cases hb' : b.val < noj
      · rw [elemAt_eq J hi hj H hx hp hb', Finset.mul_sum]
        refine Finset.sum_congr rfl fun k _ => ?_
        rw [skCnt_eq, skCnt_eq, ← hb]
        split <;> ring
      · rw [orbGen_shell W hj hq hb']
        simp
    · rw [orbGen_off W hb]
      simp
  simp only [h1, h2]
  rw [Finset.sum_comm, Finset.sum_comm (s := Finset.univ (α := Fin 9)) (t := Finset.univ (α := Fin 3)),
    ← Finset.sum_add_distrib]
  refine Finset.sum_congr rfl fun k _ => ?_
  by_cases hk : k.val < skCnt p q
  · simp only [if_pos hk, skCoefD_turn hW, ← Finset.mul_sum]
    ring
  · simp [if_neg hk]

end Hotbit
