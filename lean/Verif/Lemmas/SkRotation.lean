import Verif.Spec.SlaterKoster
import Mathlib.Algebra.BigOperators.Field
import Mathlib.Analysis.Calculus.Deriv.Mul
import Mathlib.Analysis.Calculus.Deriv.Pow
import Mathlib.Analysis.Calculus.Deriv.Add

/-!
# Orbitals under rotations
-/

set_option linter.unusedSimpArgs false
set_option linter.unusedTactic false
set_option linter.unreachableTactic false

namespace Hotbit

open Matrix

/-- A symmetric traceless matrix is a combination of the five `quadOrb`s. -/
theorem quad_expand (M : Mat) (hs : M.transpose = M) (ht : M.trace = 0) :
    M = ∑ b : Fin 5, (2 / 3 * (M * quadOrb b).trace) • quadOrb b := by
  have h01 : M 1 0 = M 0 1 := congrFun (congrFun hs 0) 1
  have h02 : M 2 0 = M 0 2 := congrFun (congrFun hs 0) 2
  have h12 : M 2 1 = M 1 2 := congrFun (congrFun hs 1) 2
  have h3 : Real.sqrt 3 * Real.sqrt 3 = 3 := by norm_num
  have ht' : M 0 0 + M 1 1 + M 2 2 = 0 := by rw [← ht, Matrix.trace, Fin.sum_univ_three]; rfl
  ext i j
  fin_cases i <;> fin_cases j <;>
    simp [Fin.sum_univ_five, quadOrb, Matrix.trace, Matrix.mul_apply, Fin.sum_univ_three, h01, h02, h12] <;>
    generalize Real.sqrt 3 = s at * <;> grind

theorem quadOrb_symm (a : Fin 5) : (quadOrb a).transpose = quadOrb a := by
  ext i j
  fin_cases a <;> fin_cases i <;> fin_cases j <;> simp [quadOrb]

theorem quadOrb_trace (a : Fin 5) : (quadOrb a).trace = 0 := by
  fin_cases a <;> simp [quadOrb, Matrix.trace, Fin.sum_univ_three] <;> norm_num

theorem quadOrb_orth (a b : Fin 5) :
    (quadOrb a * quadOrb b).trace = if a = b then 3 / 2 else 0 := by
  have h3 : Real.sqrt 3 * Real.sqrt 3 = 3 := by norm_num
  fin_cases a <;> fin_cases b <;>
    simp [quadOrb, Matrix.trace, Matrix.mul_apply, Fin.sum_univ_three] <;>
    generalize Real.sqrt 3 = s at * <;> grind

/-- d-block of `orbRep`. -/
noncomputable def dRep (R : Mat) (a b : Fin 5) : ℝ :=
  2 / 3 * (R.transpose * quadOrb a * R * quadOrb b).trace

theorem quad_conj (R : Mat) (hR : R.transpose * R = 1) (a : Fin 5) :
    R.transpose * quadOrb a * R = ∑ b : Fin 5, dRep R a b • quadOrb b := by
  apply quad_expand
  · simp [Matrix.transpose_mul, quadOrb_symm, Matrix.mul_assoc]
  · rw [Matrix.trace_mul_comm, ← Matrix.mul_assoc]
    have : R * R.transpose = 1 := mul_eq_one_comm.mp hR
    rw [this, Matrix.one_mul, quadOrb_trace]

theorem dRep_orth (R : Mat) (hR : R.transpose * R = 1) (a c : Fin 5) :
    ∑ b, dRep R a b * dRep R c b = if a = c then 1 else 0 := by
  have hR' : R * R.transpose = 1 := mul_eq_one_comm.mp hR
  have h : ((R.transpose * quadOrb a * R) * (R.transpose * quadOrb c * R)).trace
      = (quadOrb a * quadOrb c).trace := by
    have : (R.transpose * quadOrb a * R) * (R.transpose * quadOrb c * R)
        = R.transpose * (quadOrb a * quadOrb c * R) := by
      calc _ = R.transpose * quadOrb a * (R * R.transpose) * quadOrb c * R := by
            simp only [Matrix.mul_assoc]
        _ = _ := by rw [hR']; simp only [Matrix.mul_assoc, Matrix.mul_one, Matrix.one_mul]
    rw [this, Matrix.trace_mul_comm, Matrix.mul_assoc, hR', Matrix.mul_one]
  have h2 : ((R.transpose * quadOrb a * R) * (R.transpose * quadOrb c * R)).trace
      = ∑ b, dRep R c b * (3 / 2 * dRep R a b) := by
    rw [quad_conj R hR c, Finset.mul_sum, Matrix.trace_sum]
    refine Finset.sum_congr rfl fun b _ => ?_
    rw [Matrix.mul_smul, Matrix.trace_smul, smul_eq_mul, dRep, dRep]
    ring
  rw [h2, quadOrb_orth] at h
  have : ∑ b, dRep R c b * (3 / 2 * dRep R a b) = 3 / 2 * ∑ b, dRep R a b * dRep R c b := by
    rw [Finset.mul_sum]; exact Finset.sum_congr rfl fun b _ => by ring
  rw [this] at h
  split at h <;> rename_i h'
  · rw [if_pos h']; linarith
  · rw [if_neg h']; linarith

/-- Index of the i-th p orbital. -/
def pOrb (i : Fin 3) : Fin 9 := ⟨i.val + 1, by omega⟩
/-- Index of the i-th d orbital. -/
def dOrb (i : Fin 5) : Fin 9 := ⟨i.val + 4, by omega⟩

theorem sum_fin9 (f : Fin 9 → ℝ) :
    ∑ b, f b = f 0 + (∑ i, f (pOrb i)) + ∑ i, f (dOrb i) := by
  simp only [Fin.sum_univ_three, Fin.sum_univ_five, Fin.sum_univ_succ, Fin.sum_univ_zero]
  simp only [Fin.succ, Fin.val_zero, Fin.val_one, pOrb, dOrb]
  norm_num
  ring_nf

theorem orb_cases (a : Fin 9) : a = 0 ∨ (∃ i, a = pOrb i) ∨ ∃ i, a = dOrb i := by
  rcases a with ⟨n, hn⟩
  rcases Nat.lt_or_ge n 1 with h | h
  · left; ext; simp; omega
  rcases Nat.lt_or_ge n 4 with h' | h'
  · right; left; exact ⟨⟨n - 1, by omega⟩, by ext; simp [pOrb]; omega⟩
  · right; right; exact ⟨⟨n - 4, by omega⟩, by ext; simp [dOrb]; omega⟩

@[simp] theorem orbL_zero : orbL 0 = 0 := rfl
@[simp] theorem orbL_p (i : Fin 3) : orbL (pOrb i) = 1 := by
  unfold orbL pOrb; simp; try omega
@[simp] theorem orbL_d (i : Fin 5) : orbL (dOrb i) = 2 := by
  unfold orbL dOrb; simp

@[simp] theorem orbRep_00 (R : Mat) : orbRep R 0 0 = 1 := by simp [orbRep]
@[simp] theorem orbRep_pp (R : Mat) (i j : Fin 3) : orbRep R (pOrb i) (pOrb j) = R i j := by
  have := i.2; have := j.2
  unfold orbRep
  rw [if_neg (by simp [pOrb]), dif_pos (by simp only [pOrb]; omega)]
  rfl
@[simp] theorem orbRep_dd (R : Mat) (i j : Fin 5) : orbRep R (dOrb i) (dOrb j) = dRep R i j := by
  have := i.2; have := j.2
  unfold orbRep
  rw [if_neg (by simp [dOrb]), dif_neg (by simp only [dOrb]; omega),
    dif_pos (by simp only [dOrb]; omega)]
  rfl
theorem orbRep_off (R : Mat) (a b : Fin 9) (h : orbL a ≠ orbL b) : orbRep R a b = 0 := by
  unfold orbRep
  unfold orbL at h
  rw [if_neg, dif_neg, dif_neg]
  · rintro ⟨h1, h2⟩; apply h
    rw [if_neg (by omega), if_neg (by omega), if_neg (by omega), if_neg (by omega)]
  · rintro ⟨h1, h2, h3, h4⟩; apply h
    rw [if_neg (by omega), if_pos (by omega), if_neg (by omega), if_pos (by omega)]
  · rintro ⟨h1, h2⟩; apply h
    rw [if_pos h1, if_pos h2]
@[simp] theorem orbRep_0p (R : Mat) (j : Fin 3) : orbRep R 0 (pOrb j) = 0 := orbRep_off _ _ _ (by simp)
@[simp] theorem orbRep_0d (R : Mat) (j : Fin 5) : orbRep R 0 (dOrb j) = 0 := orbRep_off _ _ _ (by simp)
@[simp] theorem orbRep_p0 (R : Mat) (j : Fin 3) : orbRep R (pOrb j) 0 = 0 := orbRep_off _ _ _ (by simp)
@[simp] theorem orbRep_d0 (R : Mat) (j : Fin 5) : orbRep R (dOrb j) 0 = 0 := orbRep_off _ _ _ (by simp)
@[simp] theorem orbRep_pd (R : Mat) (i : Fin 3) (j : Fin 5) : orbRep R (pOrb i) (dOrb j) = 0 :=
  orbRep_off _ _ _ (by simp)
@[simp] theorem orbRep_dp (R : Mat) (i : Fin 5) (j : Fin 3) : orbRep R (dOrb i) (pOrb j) = 0 :=
  orbRep_off _ _ _ (by simp)

theorem cubic_d (i : Fin 5) (r : Vec) : cubic (dOrb i) r = r ⬝ᵥ (quadOrb i *ᵥ r) := by
  fin_cases i <;>
    simp [dOrb, cubic, quadOrb, Matrix.mulVec, dotProduct, Fin.sum_univ_three] <;> ring

theorem gradCubic_d (i : Fin 5) (r : Vec) : gradCubic (dOrb i) r = (2 : ℝ) • (quadOrb i *ᵥ r) := by
  ext c
  fin_cases i <;> fin_cases c <;>
    simp [dOrb, gradCubic, quadOrb, Matrix.mulVec, dotProduct, Fin.sum_univ_three] <;> ring

@[simp] theorem cubic_0 (r : Vec) : cubic 0 r = 1 := by simp [cubic]
@[simp] theorem cubic_p (i : Fin 3) (r : Vec) : cubic (pOrb i) r = r i := by
  fin_cases i <;> simp [pOrb, cubic]
@[simp] theorem gradCubic_0 (r : Vec) : gradCubic 0 r = 0 := by
  ext c; fin_cases c <;> simp [gradCubic]
@[simp] theorem gradCubic_p (i : Fin 3) (r : Vec) (c : Fin 3) :
    gradCubic (pOrb i) r c = if i = c then 1 else 0 := by
  fin_cases i <;> fin_cases c <;> simp [pOrb, gradCubic]

/-- The orbitals at a rotated point are combinations of the orbitals at the point. -/
theorem cubic_rot (R : Mat) (hR : R.transpose * R = 1) (a : Fin 9) (r : Vec) :
    cubic a (R *ᵥ r) = ∑ b, orbRep R a b * cubic b r := by
  rw [sum_fin9]
  rcases orb_cases a with rfl | ⟨i, rfl⟩ | ⟨i, rfl⟩
  · simp
  · simp [Matrix.mulVec, dotProduct]
  · simp only [orbRep_d0, orbRep_dp, orbRep_dd, zero_mul, Finset.sum_const_zero, zero_add]
    rw [cubic_d]
    have h : (R *ᵥ r) ⬝ᵥ (quadOrb i *ᵥ (R *ᵥ r)) = r ⬝ᵥ ((R.transpose * quadOrb i * R) *ᵥ r) := by
      rw [← Matrix.mulVec_mulVec, ← Matrix.mulVec_mulVec, Matrix.dotProduct_mulVec r,
        Matrix.vecMul_transpose]
    rw [h, quad_conj R hR, Matrix.sum_mulVec, dotProduct_sum]
    refine Finset.sum_congr rfl fun b _ => ?_
    rw [Matrix.smul_mulVec, dotProduct_smul, cubic_d, smul_eq_mul]

theorem gradCubic_rot (R : Mat) (hR : R.transpose * R = 1) (a : Fin 9) (r : Vec) (c : Fin 3) :
    gradCubic a (R *ᵥ r) c = ∑ b, orbRep R a b * ∑ d, R c d * gradCubic b r d := by
  have hR' : R * R.transpose = 1 := mul_eq_one_comm.mp hR
  rw [sum_fin9]
  rcases orb_cases a with rfl | ⟨i, rfl⟩ | ⟨i, rfl⟩
  · simp
  · simp
    have := congrFun (congrFun hR' i) c
    simp only [Matrix.mul_apply, Matrix.transpose_apply, Matrix.one_apply] at this
    rw [this]
  · simp only [orbRep_d0, orbRep_dp, orbRep_dd, zero_mul, Finset.sum_const_zero, zero_add]
    have h : quadOrb i *ᵥ (R *ᵥ r) = R *ᵥ ((R.transpose * quadOrb i * R) *ᵥ r) := by
      rw [Matrix.mulVec_mulVec, Matrix.mulVec_mulVec, ← Matrix.mul_assoc, ← Matrix.mul_assoc, hR',
        Matrix.one_mul]
    rw [gradCubic_d, h, quad_conj R hR, Matrix.sum_mulVec, Matrix.mulVec_sum]
    simp only [Pi.smul_apply, Finset.sum_apply, smul_eq_mul, Finset.mul_sum]
    refine Finset.sum_congr rfl fun b _ => ?_
    rw [gradCubic_d, Matrix.smul_mulVec, Matrix.mulVec_smul]
    simp only [Pi.smul_apply, smul_eq_mul, Matrix.mulVec, dotProduct, Finset.mul_sum]
    refine Finset.sum_congr rfl fun d _ => ?_
    refine Finset.sum_congr rfl fun e _ => ?_
    ring

theorem ne_of_orbL {a b : Fin 9} (h : orbL a ≠ orbL b) : a ≠ b := fun e => h (by rw [e])
theorem pOrb_inj {i j : Fin 3} (h : pOrb i = pOrb j) : i = j := by
  have := congrArg Fin.val h
  simp only [pOrb] at this
  ext; omega
theorem dOrb_inj {i j : Fin 5} (h : dOrb i = dOrb j) : i = j := by
  have := congrArg Fin.val h
  simp only [dOrb] at this
  ext; omega

theorem orbRep_orth (R : Mat) (hR : R.transpose * R = 1) :
    orbRep R * (orbRep R).transpose = 1 := by
  have hR' : R * R.transpose = 1 := mul_eq_one_comm.mp hR
  ext a b
  rw [Matrix.mul_apply, sum_fin9]
  simp only [Matrix.transpose_apply]
  rcases orb_cases a with rfl | ⟨i, rfl⟩ | ⟨i, rfl⟩ <;>
    rcases orb_cases b with rfl | ⟨j, rfl⟩ | ⟨j, rfl⟩
  all_goals simp only [orbRep_00, orbRep_0p, orbRep_0d, orbRep_p0, orbRep_d0, orbRep_pd, orbRep_dp,
    orbRep_pp, orbRep_dd, mul_zero, zero_mul, Finset.sum_const_zero, add_zero, zero_add, mul_one]
  · simp
  · rw [Matrix.one_apply_ne (ne_of_orbL (by simp))]
  · rw [Matrix.one_apply_ne (ne_of_orbL (by simp))]
  · rw [Matrix.one_apply_ne (ne_of_orbL (by simp))]
  · have := congrFun (congrFun hR' i) j
    simp only [Matrix.mul_apply, Matrix.transpose_apply, Matrix.one_apply] at this
    rw [this, Matrix.one_apply]
    by_cases hij : i = j
    · rw [if_pos hij, if_pos (by rw [hij])]
    · rw [if_neg hij, if_neg]; intro h; exact hij (pOrb_inj h)
  · rw [Matrix.one_apply_ne (ne_of_orbL (by simp))]
  · rw [Matrix.one_apply_ne (ne_of_orbL (by simp))]
  · rw [Matrix.one_apply_ne (ne_of_orbL (by simp))]
  · rw [dRep_orth R hR, Matrix.one_apply]
    by_cases hij : i = j
    · rw [if_pos hij, if_pos (by rw [hij])]
    · rw [if_neg hij, if_neg]; intro h; exact hij (dOrb_inj h)

theorem sphGrad_rot (R : Mat) (hR : R.transpose * R = 1) (a : Fin 9) (r : Vec) (c : Fin 3) :
    sphGrad a (R *ᵥ r) c = ∑ b, orbRep R a b * ∑ d, R c d * sphGrad b r d := by
  unfold sphGrad
  rw [gradCubic_rot R hR, cubic_rot R hR]
  simp only [mul_sub, Finset.sum_sub_distrib]
  congr 1
  rw [Finset.mul_sum, Finset.sum_mul]
  refine Finset.sum_congr rfl fun b _ => ?_
  by_cases h : orbL a = orbL b
  · rw [h]
    simp only [Matrix.mulVec, dotProduct, Finset.mul_sum]
    refine Finset.sum_congr rfl fun d _ => ?_
    ring
  · rw [orbRep_off R a b h]; simp

theorem dot_rot (R : Mat) (hR : R.transpose * R = 1) (u w : Vec) :
    ∑ c, (∑ d, R c d * u d) * (∑ d, R c d * w d) = ∑ d, u d * w d := by
  have h : (R *ᵥ u) ⬝ᵥ (R *ᵥ w) = u ⬝ᵥ w := by
    rw [Matrix.dotProduct_mulVec, Matrix.vecMul_mulVec, ← Matrix.dotProduct_mulVec, hR,
      Matrix.one_mulVec]
  exact h

theorem sphDot_rot (R : Mat) (hR : R.transpose * R = 1) (a b : Fin 9) (r : Vec) :
    ∑ c, sphGrad a (R *ᵥ r) c * sphGrad b (R *ᵥ r) c
      = ∑ x, ∑ y, orbRep R a x * orbRep R b y * ∑ c, sphGrad x r c * sphGrad y r c := by
  have h : ∀ x y, orbRep R a x * orbRep R b y * ∑ c, sphGrad x r c * sphGrad y r c
      = ∑ c, (orbRep R a x * ∑ d, R c d * sphGrad x r d)
        * (orbRep R b y * ∑ d, R c d * sphGrad y r d) := by
    intro x y
    rw [← dot_rot R hR (sphGrad x r) (sphGrad y r), Finset.mul_sum]
    exact Finset.sum_congr rfl fun c _ => by ring
  simp only [h]
  simp only [sphGrad_rot R hR, Finset.sum_mul_sum]
  rw [Finset.sum_comm]
  refine Finset.sum_congr rfl fun x _ => ?_
  rw [Finset.sum_comm]

/-- Each angular coefficient is covariant. -/
theorem skCoef_rot (R : Mat) (hR : R.transpose * R = 1) (k : Fin 3) (a b : Fin 9) (r : Vec) :
    skCoef k a b (R *ᵥ r) = ∑ x, ∑ y, orbRep R a x * orbRep R b y * skCoef k x y r := by
  have hs : cubic a (R *ᵥ r) * cubic b (R *ᵥ r)
      = ∑ x, ∑ y, orbRep R a x * orbRep R b y * (cubic x r * cubic y r) := by
    rw [cubic_rot R hR, cubic_rot R hR, Finset.sum_mul_sum]
    exact Finset.sum_congr rfl fun x _ => Finset.sum_congr rfl fun y _ => by ring
  have hp : (∑ c, sphGrad a (R *ᵥ r) c * sphGrad b (R *ᵥ r) c) / (piNorm (orbL a) * piNorm (orbL b))
      = ∑ x, ∑ y, orbRep R a x * orbRep R b y *
        ((∑ c, sphGrad x r c * sphGrad y r c) / (piNorm (orbL x) * piNorm (orbL y))) := by
    rw [sphDot_rot R hR, Finset.sum_div]
    refine Finset.sum_congr rfl fun x _ => ?_
    rw [Finset.sum_div]
    refine Finset.sum_congr rfl fun y _ => ?_
    by_cases hx : orbL a = orbL x
    · by_cases hy : orbL b = orbL y
      · rw [hx, hy, mul_div_assoc]
      · rw [orbRep_off R b y hy]; simp
    · rw [orbRep_off R a x hx]; simp
  have hd : (if a = b then (1 : ℝ) else 0)
      = ∑ x, ∑ y, orbRep R a x * orbRep R b y * (if x = y then (1 : ℝ) else 0) := by
    have := congrFun (congrFun (orbRep_orth R hR) a) b
    rw [Matrix.mul_apply, Matrix.one_apply] at this
    rw [← this]
    refine Finset.sum_congr rfl fun x _ => ?_
    simp
  fin_cases k
  · simpa [skCoef] using hs
  · simpa [skCoef] using hp
  · show (if a = b then (1 : ℝ) else 0) - cubic a (R *ᵥ r) * cubic b (R *ᵥ r)
        - (∑ c, sphGrad a (R *ᵥ r) c * sphGrad b (R *ᵥ r) c) / (piNorm (orbL a) * piNorm (orbL b))
      = ∑ x, ∑ y, orbRep R a x * orbRep R b y * ((if x = y then (1 : ℝ) else 0)
        - cubic x r * cubic y r
        - (∑ c, sphGrad x r c * sphGrad y r c) / (piNorm (orbL x) * piNorm (orbL y)))
    rw [hs, hp, hd]
    simp only [mul_sub, Finset.sum_sub_distrib]

/-- The two-centre block is covariant. -/
theorem skSpec_rot (V : ℕ → ℕ → Fin 3 → ℝ) (R : Mat) (hR : R.transpose * R = 1) (r : Vec)
    (a b : Fin 9) :
    skSpec V (R *ᵥ r) a b = ∑ x, ∑ y, orbRep R a x * orbRep R b y * skSpec V r x y := by
  have h : ∀ x y, orbRep R a x * orbRep R b y * skSpec V r x y
      = ∑ k : Fin 3, if k.val ≤ min (orbL a) (orbL b) then
          V (orbL a) (orbL b) k * (orbRep R a x * orbRep R b y * skCoef k x y r) else 0 := by
    intro x y
    by_cases hx : orbL a = orbL x
    · by_cases hy : orbL b = orbL y
      · rw [hx, hy, skSpec, Finset.mul_sum]
        refine Finset.sum_congr rfl fun k _ => ?_
        split
        · ring
        · ring
      · rw [orbRep_off R b y hy]; simp
    · rw [orbRep_off R a x hx]; simp
  simp only [h]
  have h2 : ∀ x, (∑ y, ∑ k : Fin 3, if k.val ≤ min (orbL a) (orbL b) then
          V (orbL a) (orbL b) k * (orbRep R a x * orbRep R b y * skCoef k x y r) else 0)
      = ∑ k : Fin 3, ∑ y, if k.val ≤ min (orbL a) (orbL b) then
          V (orbL a) (orbL b) k * (orbRep R a x * orbRep R b y * skCoef k x y r) else 0 :=
    fun x => Finset.sum_comm
  simp only [h2]
  rw [Finset.sum_comm]
  unfold skSpec
  refine Finset.sum_congr rfl fun k _ => ?_
  by_cases hk : k.val ≤ min (orbL a) (orbL b)
  · simp only [if_pos hk]
    rw [skCoef_rot R hR, Finset.mul_sum]
    exact Finset.sum_congr rfl fun x _ => Finset.mul_sum _ _ _
  · simp only [if_neg hk]
    simp

end Hotbit
