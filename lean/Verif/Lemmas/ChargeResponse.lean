import Verif.Lemmas.UniquenessRun
import Mathlib.Topology.Order.IntermediateValue
import Verif.Lemmas.Damped
import Verif.Spec.Damping

/-!
# How the populations change with the Hamiltonian
-/

set_option linter.unusedSimpArgs false

namespace Hotbit

open Matrix

section Fermi

/-- The occupation without the largest argument of the exponential function. -/
noncomputable def smoothFermi (w mu e : ℝ) : ℝ := 2 / (Real.exp ((e - mu) / w) + 1)

theorem smoothFermi_anti {w : ℝ} (hw : 0 < w) {mu mu' e e' : ℝ} (h : e - mu ≤ e' - mu') :
    smoothFermi w mu' e' ≤ smoothFermi w mu e := by
  unfold smoothFermi
  have : (e - mu) / w ≤ (e' - mu') / w := by gcongr
  have := Real.exp_le_exp.2 this
  have := Real.exp_pos ((e - mu) / w)
  gcongr

/-- Occupations change against the energies, and no faster. -/
theorem smoothFermi_gap {w : ℝ} (hw : 0 < w) (mu mu' e e' : ℝ) :
    w / 2 * (smoothFermi w mu e - smoothFermi w mu' e') ^ 2
      ≤ -((smoothFermi w mu e - smoothFermi w mu' e') * ((e - mu) - (e' - mu'))) := by
  have key : ∀ x y : ℝ, x ≤ y → 2 / (Real.exp (x / w) + 1) - 2 / (Real.exp (y / w) + 1) ≤ 2 / w * (y - x) := by
    intro x y _
    have hx := Real.exp_pos (x / w)
    have hy := Real.exp_pos (y / w)
    have h1 : Real.exp (y / w) - Real.exp (x / w) ≤ Real.exp (y / w) * ((y - x) / w) := by
      have := Real.add_one_le_exp (-((y - x) / w))
      have h2 : Real.exp (x / w) = Real.exp (y / w) * Real.exp (-((y - x) / w)) := by
        rw [← Real.exp_add]; congr 1; ring
      rw [h2]
      nlinarith
    rw [div_sub_div _ _ (by positivity) (by positivity), div_le_iff₀ (by positivity)]
    have h3 : 0 ≤ (y - x) / w := by
      apply div_nonneg <;> linarith
    have h4 : 2 / w * (y - x) = 2 * ((y - x) / w) := by ring
    rw [h4]
    nlinarith [mul_nonneg h3 hx.le, mul_nonneg h3 (mul_pos hx hy).le]
  have half : ∀ x y : ℝ, x ≤ y → w / 2 * (2 / (Real.exp (x / w) + 1) - 2 / (Real.exp (y / w) + 1)) ^ 2
      ≤ (2 / (Real.exp (x / w) + 1) - 2 / (Real.exp (y / w) + 1)) * (y - x) := by
    intro x y h
    have h0 : 0 ≤ 2 / (Real.exp (x / w) + 1) - 2 / (Real.exp (y / w) + 1) := by
      have := smoothFermi_anti hw (mu := 0) (mu' := 0) (e := x) (e' := y) (by simpa using h)
      unfold smoothFermi at this
      simp only [sub_zero] at this
      linarith
    have h1 := key x y h
    have h2 : w / 2 * (2 / (Real.exp (x / w) + 1) - 2 / (Real.exp (y / w) + 1)) ≤ y - x := by
      have := mul_le_mul_of_nonneg_left h1 (half_pos hw).le
      have e : w / 2 * (2 / w * (y - x)) = y - x := by field_simp
      linarith
    nlinarith
  unfold smoothFermi
  rcases le_total (e - mu) (e' - mu') with h | h
  · have := half _ _ h
    linarith
  · have := half _ _ h
    nlinarith

/-- The cut exponential makes little difference. -/
theorem fermi_smooth (w mu e : ℝ) : |fermi w mu e - smoothFermi w mu e| ≤ 1e-20 := by
  unfold fermi smoothFermi
  by_cases h : (e - mu) / w < maxExpArg
  · rw [if_pos h, sub_self, abs_zero]; norm_num
  · rw [if_neg h, zero_sub, abs_neg, abs_of_pos (by positivity)]
    have h0 : (2 : ℝ) * 10 ^ 20 ≤ 2 ^ 1024 - 2 ^ 971 := by
      have e1 : (2 : ℝ) ^ 1024 - 2 ^ 971 = 2 ^ 971 * (2 ^ 53 - 1) := by
        rw [mul_sub, ← pow_add, mul_one]
      have e2 : (2 : ℝ) ^ 100 ≤ 2 ^ 971 := pow_le_pow_right₀ (by norm_num) (by norm_num)
      have e3 : (2 : ℝ) * 10 ^ 20 ≤ 2 ^ 100 := by norm_num
      have e4 : (1 : ℝ) ≤ 2 ^ 53 - 1 := by norm_num
      rw [e1]
      exact (e3.trans e2).trans (le_mul_of_one_le_right (le_trans (by norm_num) e2) e4)
    have h1 : (2 : ℝ) ^ 1024 - 2 ^ 971 ≤ Real.exp ((e - mu) / w) := by
      have := Real.exp_le_exp.2 (not_lt.1 h)
      unfold maxExpArg at this
      rwa [Real.exp_log (lt_of_lt_of_le (by norm_num) h0)] at this
    rw [div_le_iff₀ (by positivity)]
    have h2 : (2 : ℝ) * 10 ^ 20 ≤ Real.exp ((e - mu) / w) := h0.trans h1
    generalize Real.exp ((e - mu) / w) = z at *
    have h3 : (1e-20 : ℝ) * (2 * 10 ^ 20) = 2 := by norm_num
    have h4 := mul_le_mul_of_nonneg_left h2 (show (0 : ℝ) ≤ 1e-20 by norm_num)
    rw [h3] at h4
    clear h0 h1 h2 h3 h
    rw [mul_add, mul_one]
    exact h4.trans (le_add_of_nonneg_right (by norm_num))

end Fermi

section Point

variable {n : ℕ}

/-- The difference of two density matrices. -/
theorem rho_gap {H H' S c d : CMat n} {e e' : Fin n → ℝ} (f f' : Fin n → ℝ) (h : Solutions H S e c)
    (h' : Solutions H' S e' d) :
    computeRho c f - computeRho d f'
      = cᵀ * Matrix.of (fun a b => overlapsOf S c d a b * ((f a - f' b : ℝ) : ℂ)) * (dᵀ)ᴴ := by
  have u1 : cᵀ * ((cᵀ)ᴴ * S) = 1 := mul_eq_one_comm.1 h.matrix.1
  have u2 : S * (dᵀ * (dᵀ)ᴴ) = 1 := by
    have : dᵀ * ((dᵀ)ᴴ * S) = 1 := mul_eq_one_comm.1 h'.matrix.1
    rw [← Matrix.mul_assoc] at this
    exact mul_eq_one_comm.1 this
  have hW : dᵀ = cᵀ * overlapsOf S c d := by
    unfold overlapsOf
    rw [← Matrix.mul_assoc, u1, Matrix.one_mul]
  have hZ : (cᵀ)ᴴ = overlapsOf S c d * (dᵀ)ᴴ := by
    unfold overlapsOf
    rw [Matrix.mul_assoc, Matrix.mul_assoc, u2, Matrix.mul_one]
  have hM : Matrix.of (fun a b => overlapsOf S c d a b * ((f a - f' b : ℝ) : ℂ))
      = diagonal (fun a => (f a : ℂ)) * overlapsOf S c d - overlapsOf S c d * diagonal (fun a => (f' a : ℂ)) := by
    ext a b
    rw [Matrix.sub_apply, Matrix.diagonal_mul, Matrix.mul_diagonal, Matrix.of_apply]
    push_cast
    ring
  rw [hM, Matrix.mul_sub, Matrix.sub_mul, computeRho_diagonal, computeRho_diagonal]
  congr 1
  · conv_lhs => rw [hZ]
    simp only [Matrix.mul_assoc]
  · conv_lhs => rw [hW]
    simp only [Matrix.mul_assoc]
    rw [← hW]

/-- A weighted sum. -/
theorem norm_bilinear_sq (u w : Fin n → ℂ) (M : CMat n) :
    ‖∑ a, ∑ b, u a * M a b * w b‖ ^ 2
      ≤ (∑ a, ‖u a‖ ^ 2) * (∑ b, ‖w b‖ ^ 2) * ∑ a, ∑ b, ‖M a b‖ ^ 2 := by
  have h1 : ‖∑ a, ∑ b, u a * M a b * w b‖ ≤ ∑ p : Fin n × Fin n, (‖u p.1‖ * ‖w p.2‖) * ‖M p.1 p.2‖ := by
    rw [← Finset.sum_product', Finset.univ_product_univ]
    refine (norm_sum_le _ _).trans (le_of_eq (Finset.sum_congr rfl fun p _ => ?_))
    rw [norm_mul, norm_mul]; ring
  have h2 := Finset.sum_mul_sq_le_sq_mul_sq (Finset.univ : Finset (Fin n × Fin n))
    (fun p => ‖u p.1‖ * ‖w p.2‖) fun p => ‖M p.1 p.2‖
  have h3 : ∑ p : Fin n × Fin n, (‖u p.1‖ * ‖w p.2‖) ^ 2 = (∑ a, ‖u a‖ ^ 2) * (∑ b, ‖w b‖ ^ 2) := by
    rw [Finset.sum_mul_sum, ← Finset.sum_product', Finset.univ_product_univ]
    exact Finset.sum_congr rfl fun p _ => by rw [mul_pow]
  have h4 : ∑ p : Fin n × Fin n, ‖M p.1 p.2‖ ^ 2 = ∑ a, ∑ b, ‖M a b‖ ^ 2 := by
    rw [← Finset.sum_product', Finset.univ_product_univ]
  rw [h3, h4] at h2
  exact (pow_le_pow_left₀ (norm_nonneg _) h1 2).trans h2

/-- The change of a population. -/
theorem pop_gap {H H' S c d : CMat n} {e e' : Fin n → ℝ} (f f' : Fin n → ℝ) (hS : S.IsHermitian)
    (h : Solutions H S e c) (h' : Solutions H' S e' d) (x : Fin n) :
    ‖∑ j, (computeRho c f x j - computeRho d f' x j) * S j x‖ ^ 2
      ≤ ‖S⁻¹ x x‖ * ‖S x x‖ * ∑ a, ∑ b, Complex.normSq (overlapsOf S c d a b) * (f a - f' b) ^ 2 := by
  set M : CMat n := Matrix.of (fun a b => overlapsOf S c d a b * ((f a - f' b : ℝ) : ℂ)) with hM
  have e1 : ∑ j, (computeRho c f x j - computeRho d f' x j) * S j x
      = ∑ a, ∑ b, cᵀ x a * M a b * ((dᵀ)ᴴ * S) b x := by
    have : ∑ j, (computeRho c f x j - computeRho d f' x j) * S j x = ((computeRho c f - computeRho d f') * S) x x := by
      rw [Matrix.mul_apply]; rfl
    rw [this, rho_gap f f' h h', Matrix.mul_assoc, Matrix.mul_assoc, ← hM, Matrix.mul_apply]
    refine Finset.sum_congr rfl fun a _ => ?_
    rw [Matrix.mul_apply, Finset.mul_sum]
    exact Finset.sum_congr rfl fun b _ => by ring
  have sq : ∀ z : ℂ, ((‖z‖ ^ 2 : ℝ) : ℂ) = z * star z := by
    intro z
    rw [← Complex.normSq_eq_norm_sq, Complex.normSq_eq_conj_mul_self, mul_comm]
    rfl
  have e2 : ∑ a, ‖cᵀ x a‖ ^ 2 = ‖S⁻¹ x x‖ := by
    have u1 : cᵀ * ((cᵀ)ᴴ * S) = 1 := mul_eq_one_comm.1 h.matrix.1
    have inv : S⁻¹ = cᵀ * (cᵀ)ᴴ := Matrix.inv_eq_left_inv (by rw [Matrix.mul_assoc, u1])
    have : S⁻¹ x x = ((∑ a, ‖cᵀ x a‖ ^ 2 : ℝ) : ℂ) := by
      rw [inv, Matrix.mul_apply, Complex.ofReal_sum]
      exact Finset.sum_congr rfl fun a _ => by rw [sq, Matrix.conjTranspose_apply]
    rw [this, Complex.norm_of_nonneg (Finset.sum_nonneg fun _ _ => by positivity)]
  have e3 : ∑ b, ‖((dᵀ)ᴴ * S) b x‖ ^ 2 = ‖S x x‖ := by
    have u2 : dᵀ * ((dᵀ)ᴴ * S) = 1 := mul_eq_one_comm.1 h'.matrix.1
    have hh : S = ((dᵀ)ᴴ * S)ᴴ * ((dᵀ)ᴴ * S) := by
      rw [conjTranspose_mul, conjTranspose_conjTranspose, hS, Matrix.mul_assoc, u2, Matrix.mul_one]
    have : S x x = ((∑ b, ‖((dᵀ)ᴴ * S) b x‖ ^ 2 : ℝ) : ℂ) := by
      conv_lhs => rw [hh]
      rw [Matrix.mul_apply, Complex.ofReal_sum]
      exact Finset.sum_congr rfl fun b _ => by rw [sq, Matrix.conjTranspose_apply, mul_comm]
    rw [this, Complex.norm_of_nonneg (Finset.sum_nonneg fun _ _ => by positivity)]
  have e4 : ∑ a, ∑ b, ‖M a b‖ ^ 2
      = ∑ a, ∑ b, Complex.normSq (overlapsOf S c d a b) * (f a - f' b) ^ 2 := by
    refine Finset.sum_congr rfl fun a _ => Finset.sum_congr rfl fun b _ => ?_
    rw [hM, Matrix.of_apply, norm_mul, mul_pow, Complex.normSq_eq_norm_sq, Complex.norm_real, Real.norm_eq_abs, sq_abs]
  rw [e1, ← e2, ← e3, ← e4]
  exact norm_bilinear_sq _ _ _

end Point

section Populations

variable {n nk : ℕ}

/-- The Hamiltonian in a potential on the orbitals. -/
noncomputable def meanH (H0 S : CMat n) (v : Fin n → ℝ) : CMat n :=
  H0 + Matrix.of fun i j => ((((v i + v j) / 2 : ℝ)) : ℂ) * S i j

/-- The electrons in a potential. -/
structure Filled (wk : Fin nk → ℝ) (H0 S : Fin nk → CMat n) (w nel : ℝ) (v : Fin n → ℝ)
    (e : Fin nk → Fin n → ℝ) (c : Fin nk → CMat n) (mu : ℝ) : Prop where
  states : ∀ k, Solutions (meanH (H0 k) (S k) v) (S k) (e k) (c k)
  count : ∑ k, wk k * ∑ a, smoothFermi w mu (e k a) = nel

/-- How much the states differ. -/
noncomputable def fillGap (wk : Fin nk → ℝ) (S : Fin nk → CMat n) (c d : Fin nk → CMat n)
    (f f' : Fin nk → Fin n → ℝ) : ℝ :=
  ∑ k, wk k * ∑ a, ∑ b, Complex.normSq (overlapsOf (S k) (c k) (d k) a b) * (f k a - f' k b) ^ 2

variable {wk : Fin nk → ℝ} {H0 S : Fin nk → CMat n} {w nel : ℝ}

/-- Populations change against the potential. -/
theorem response_gap (hw : 0 < w) (hwk : ∀ k, 0 < wk k) (hS : ∀ k, (S k).IsHermitian)
    {v v' : Fin n → ℝ} {e e' : Fin nk → Fin n → ℝ} {c d : Fin nk → CMat n} {mu mu' : ℝ}
    (F : Filled wk H0 S w nel v e c mu) (F' : Filled wk H0 S w nel v' e' d mu') :
    w / 2 * fillGap wk S c d (fun k a => smoothFermi w mu (e k a)) (fun k a => smoothFermi w mu' (e' k a))
      ≤ -∑ x, (v x - v' x) * (mullikenDiag wk (fun k => computeRho (c k) fun a => smoothFermi w mu (e k a)) S x
        - mullikenDiag wk (fun k => computeRho (d k) fun a => smoothFermi w mu' (e' k a)) S x) := by
  set f : Fin nk → Fin n → ℝ := fun k a => smoothFermi w mu (e k a) with hf
  set f' : Fin nk → Fin n → ℝ := fun k a => smoothFermi w mu' (e' k a) with hf'
  set X : Fin nk → Fin n → Fin n → ℝ := fun k a b => Complex.normSq (overlapsOf (S k) (c k) (d k) a b) with hX
  have one : ∀ k, ∑ a, ∑ b, X k a b * ((f k a - f' k b) * (e k a - e' k b))
      = ∑ x, (v x - v' x) * (∑ j, (computeRho (c k) (f k) x j - computeRho (d k) (f' k) x j) * S k j x).re := by
    intro k
    have g := trace_gap (f k) (f' k) (hS k) (F.states k) (F'.states k)
    refine g.symm.trans ?_
    have hR : (computeRho (c k) (f k) - computeRho (d k) (f' k)).IsHermitian :=
      (computeRho_hermitian _ _).sub (computeRho_hermitian _ _)
    refine Eq.trans ?_ (mean_potential hR (hS k) fun x => v x - v' x)
    congr 1
    refine Finset.sum_congr rfl fun i _ => Finset.sum_congr rfl fun j _ => ?_
    rw [Matrix.sub_apply]
    congr 1
    simp only [meanH, Matrix.add_apply, Matrix.of_apply]
    push_cast
    ring
  have g : ∑ k, wk k * ∑ a, ∑ b, X k a b * ((f k a - f' k b) * (e k a - e' k b))
      = ∑ x, (v x - v' x) * (mullikenDiag wk (fun k => computeRho (c k) (f k)) S x
        - mullikenDiag wk (fun k => computeRho (d k) (f' k)) S x) := by
    rw [Finset.sum_congr rfl fun k _ => by rw [one k]]
    simp only [Finset.mul_sum]
    rw [Finset.sum_comm]
    refine Finset.sum_congr rfl fun x _ => ?_
    unfold mullikenDiag
    rw [← Finset.sum_sub_distrib, Finset.mul_sum]
    refine Finset.sum_congr rfl fun k _ => ?_
    unfold rowDot
    rw [← mul_sub, ← Complex.sub_re, ← Finset.sum_sub_distrib]
    simp only [Matrix.transpose_apply, sub_mul]
    ring
  have rows : ∀ k a, ∑ b, X k a b = 1 := fun k a => overlapsOf_row (hS k) (F.states k) (F'.states k) a
  have cols : ∀ k b, ∑ a, X k a b = 1 := by
    intro k b
    rw [hX]
    dsimp only
    rw [Finset.sum_congr rfl fun a _ => (overlapsOf_swap (hS k) (c k) (d k) a b).symm]
    exact overlapsOf_row (hS k) (F'.states k) (F.states k) b
  have hshift : ∑ k, wk k * ∑ a, ∑ b, X k a b * ((f k a - f' k b) * ((e k a - mu) - (e' k b - mu')))
      = ∑ k, wk k * ∑ a, ∑ b, X k a b * ((f k a - f' k b) * (e k a - e' k b)) := by
    have cnt : ∀ k, ∑ a, ∑ b, X k a b * (f k a - f' k b) = ∑ a, f k a - ∑ b, f' k b := by
      intro k
      simp only [mul_sub, Finset.sum_sub_distrib]
      congr 1
      · exact Finset.sum_congr rfl fun a _ => by rw [← Finset.sum_mul, rows, one_mul]
      · rw [Finset.sum_comm]
        exact Finset.sum_congr rfl fun a _ => by rw [← Finset.sum_mul, cols, one_mul]
    have tot : ∑ k, wk k * (∑ a, f k a - ∑ b, f' k b) = 0 := by
      simp only [mul_sub, Finset.sum_sub_distrib]
      rw [F.count, F'.count, sub_self]
    have : ∀ k, ∑ a, ∑ b, X k a b * ((f k a - f' k b) * ((e k a - mu) - (e' k b - mu')))
        = (∑ a, ∑ b, X k a b * ((f k a - f' k b) * (e k a - e' k b)))
          + (mu' - mu) * ∑ a, ∑ b, X k a b * (f k a - f' k b) := by
      intro k
      simp only [Finset.mul_sum, ← Finset.sum_add_distrib]
      exact Finset.sum_congr rfl fun a _ => Finset.sum_congr rfl fun b _ => by ring
    rw [Finset.sum_congr rfl fun k _ => by rw [this k, cnt k, mul_add]]
    rw [Finset.sum_add_distrib]
    have : ∑ k, wk k * ((mu' - mu) * (∑ a, f k a - ∑ b, f' k b))
        = (mu' - mu) * ∑ k, wk k * (∑ a, f k a - ∑ b, f' k b) := by
      rw [Finset.mul_sum]
      exact Finset.sum_congr rfl fun k _ => by ring
    rw [this, tot, mul_zero, add_zero]
  rw [← g, ← hshift, fillGap, Finset.mul_sum, ← Finset.sum_neg_distrib]
  refine Finset.sum_le_sum fun k _ => ?_
  rw [mul_left_comm, ← mul_neg]
  refine mul_le_mul_of_nonneg_left ?_ (hwk k).le
  rw [Finset.mul_sum, ← Finset.sum_neg_distrib]
  refine Finset.sum_le_sum fun a _ => ?_
  rw [Finset.mul_sum, ← Finset.sum_neg_distrib]
  refine Finset.sum_le_sum fun b _ => ?_
  rw [mul_left_comm, ← mul_neg]
  exact mul_le_mul_of_nonneg_left (smoothFermi_gap hw mu mu' (e k a) (e' k b)) (Complex.normSq_nonneg _)

theorem popScale_nonneg (hwk : ∀ k, 0 < wk k) : 0 ≤ popScale wk S :=
  mul_nonneg (Finset.sum_nonneg fun k _ => (hwk k).le)
    (Finset.sum_nonneg fun k _ => Finset.sum_nonneg fun x _ => by positivity)

theorem fillGap_nonneg (hwk : ∀ k, 0 < wk k) (c d : Fin nk → CMat n) (f f' : Fin nk → Fin n → ℝ) :
    0 ≤ fillGap wk S c d f f' :=
  Finset.sum_nonneg fun k _ => mul_nonneg (hwk k).le (Finset.sum_nonneg fun _ _ => Finset.sum_nonneg fun _ _ =>
    mul_nonneg (Complex.normSq_nonneg _) (sq_nonneg _))

/-- Populations change no more than the states do. -/
theorem response_bound (hwk : ∀ k, 0 < wk k) (hS : ∀ k, (S k).IsHermitian) {H H' : Fin nk → CMat n}
    {e e' : Fin nk → Fin n → ℝ} {c d : Fin nk → CMat n} (h : ∀ k, Solutions (H k) (S k) (e k) (c k))
    (h' : ∀ k, Solutions (H' k) (S k) (e' k) (d k)) (f f' : Fin nk → Fin n → ℝ) (x : Fin n) :
    (mullikenDiag wk (fun k => computeRho (c k) (f k)) S x - mullikenDiag wk (fun k => computeRho (d k) (f' k)) S x) ^ 2
      ≤ popScale wk S * fillGap wk S c d f f' := by
  set y : Fin nk → ℝ := fun k =>
    (∑ j, (computeRho (c k) (f k) x j - computeRho (d k) (f' k) x j) * S k j x).re with hy
  have e1 : mullikenDiag wk (fun k => computeRho (c k) (f k)) S x - mullikenDiag wk (fun k => computeRho (d k) (f' k)) S x
      = ∑ k, wk k * y k := by
    unfold mullikenDiag
    rw [← Finset.sum_sub_distrib]
    refine Finset.sum_congr rfl fun k _ => ?_
    unfold rowDot
    rw [hy, ← mul_sub, ← Complex.sub_re, ← Finset.sum_sub_distrib]
    simp only [Matrix.transpose_apply, sub_mul]
  have e2 : (∑ k, wk k * y k) ^ 2 ≤ (∑ k, wk k) * ∑ k, wk k * y k ^ 2 := by
    have := Finset.sum_mul_sq_le_sq_mul_sq (Finset.univ : Finset (Fin nk)) (fun k => √(wk k)) fun k => √(wk k) * y k
    have s : ∀ k, √(wk k) * √(wk k) = wk k := fun k => Real.mul_self_sqrt (hwk k).le
    have a1 : ∑ k, √(wk k) * (√(wk k) * y k) = ∑ k, wk k * y k :=
      Finset.sum_congr rfl fun k _ => by rw [← mul_assoc, s]
    have a2 : ∑ k, √(wk k) ^ 2 = ∑ k, wk k := Finset.sum_congr rfl fun k _ => by rw [sq, s]
    have a3 : ∑ k, (√(wk k) * y k) ^ 2 = ∑ k, wk k * y k ^ 2 :=
      Finset.sum_congr rfl fun k _ => by rw [mul_pow, sq (√(wk k)), s]
    rwa [a1, a2, a3] at this
  have κ : ∀ k, ‖(S k)⁻¹ x x‖ * ‖S k x x‖ ≤ ∑ k, ∑ x, ‖(S k)⁻¹ x x‖ * ‖S k x x‖ := by
    intro k
    refine le_trans ?_ (Finset.single_le_sum (f := fun k => ∑ x, ‖(S k)⁻¹ x x‖ * ‖S k x x‖)
      (fun k _ => Finset.sum_nonneg fun x _ => by positivity) (Finset.mem_univ k))
    exact Finset.single_le_sum (f := fun x => ‖(S k)⁻¹ x x‖ * ‖S k x x‖) (fun x _ => by positivity) (Finset.mem_univ x)
  rw [e1]
  refine e2.trans ?_
  unfold popScale fillGap
  rw [mul_assoc, Finset.mul_sum (a := ∑ k, ∑ x, ‖(S k)⁻¹ x x‖ * ‖S k x x‖)]
  refine mul_le_mul_of_nonneg_left (Finset.sum_le_sum fun k _ => ?_) (Finset.sum_nonneg fun k _ => (hwk k).le)
  rw [mul_left_comm]
  refine mul_le_mul_of_nonneg_left ?_ (hwk k).le
  have p := pop_gap (f k) (f' k) (hS k) (h k) (h' k) x
  have q : y k ^ 2 ≤ ‖∑ j, (computeRho (c k) (f k) x j - computeRho (d k) (f' k) x j) * S k j x‖ ^ 2 := by
    rw [hy, ← sq_abs]
    exact pow_le_pow_left₀ (abs_nonneg _) (Complex.abs_re_le_norm _) 2
  refine (q.trans p).trans (mul_le_mul_of_nonneg_right (κ k) ?_)
  exact Finset.sum_nonneg fun _ _ => Finset.sum_nonneg fun _ _ => mul_nonneg (Complex.normSq_nonneg _) (sq_nonneg _)

theorem smoothFermi_continuous (w e : ℝ) : Continuous fun mu => smoothFermi w mu e := by
  unfold smoothFermi
  refine Continuous.div continuous_const (by fun_prop) fun mu => ?_
  positivity

/-- There is a chemical potential. -/
theorem mu_exists (hw : 0 < w) (hwk : ∀ k, 0 < wk k) (e : Fin nk → Fin n → ℝ) (h0 : 0 < nel)
    (h1 : nel < 2 * n * ∑ k, wk k) : ∃ mu, ∑ k, wk k * ∑ a, smoothFermi w mu (e k a) = nel := by
  set F : ℝ → ℝ := fun mu => ∑ k, wk k * ∑ a, smoothFermi w mu (e k a) with hF
  have hc : Continuous F := by
    refine continuous_finset_sum _ fun k _ => continuous_const.mul (continuous_finset_sum _ fun a _ => ?_)
    exact smoothFermi_continuous w (e k a)
  have bot : Filter.Tendsto F Filter.atBot (nhds 0) := by
    have : (0 : ℝ) = ∑ k : Fin nk, wk k * ∑ a : Fin n, (0 : ℝ) := by simp
    rw [this]
    refine tendsto_finset_sum _ fun k _ => Filter.Tendsto.const_mul _ (tendsto_finset_sum _ fun a _ => ?_)
    unfold smoothFermi
    refine Filter.Tendsto.div_atTop tendsto_const_nhds (Filter.tendsto_atTop_add_const_right _ _ ?_)
    refine Real.tendsto_exp_atTop.comp (Filter.Tendsto.atTop_div_const hw ?_)
    exact Filter.tendsto_atTop_add_const_left _ _ Filter.tendsto_neg_atBot_atTop
  have top : Filter.Tendsto F Filter.atTop (nhds (2 * n * ∑ k, wk k)) := by
    have : 2 * n * ∑ k, wk k = ∑ k : Fin nk, wk k * ∑ a : Fin n, (2 / (0 + 1) : ℝ) := by
      simp only [Finset.sum_const, Finset.card_univ, Fintype.card_fin, nsmul_eq_mul, Finset.mul_sum]
      exact Finset.sum_congr rfl fun k _ => by ring
    rw [this]
    refine tendsto_finset_sum _ fun k _ => Filter.Tendsto.const_mul _ (tendsto_finset_sum _ fun a _ => ?_)
    unfold smoothFermi
    refine Filter.Tendsto.div tendsto_const_nhds (Filter.Tendsto.add_const _ ?_) (by norm_num)
    refine Real.tendsto_exp_atBot.comp (Filter.Tendsto.atBot_div_const hw ?_)
    exact Filter.tendsto_atBot_add_const_left _ _ Filter.tendsto_neg_atTop_atBot
  obtain ⟨m0, hm0⟩ := (bot.eventually (gt_mem_nhds h0)).exists
  obtain ⟨m1, hm1⟩ := (top.eventually (lt_mem_nhds h1)).exists
  have : nel ∈ Set.range F := mem_range_of_exists_le_of_exists_ge hc ⟨m0, hm0.le⟩ ⟨m1, hm1.le⟩
  exact this

theorem meanH_hermitian {H0 S : CMat n} (hH : H0.IsHermitian) (hS : S.IsHermitian) (v : Fin n → ℝ) :
    (meanH H0 S v).IsHermitian := by
  unfold meanH
  refine hH.add ?_
  ext i j
  rw [Matrix.conjTranspose_apply, Matrix.of_apply, Matrix.of_apply, star_mul', hS.apply i j]
  simp [add_comm]

open scoped ComplexOrder in
/-- Electrons can be put into every potential. -/
theorem filled_exists (hw : 0 < w) (hwk : ∀ k, 0 < wk k) (hH : ∀ k, (H0 k).IsHermitian) (hS : ∀ k, (S k).PosDef)
    (h0 : 0 < nel) (h1 : nel < 2 * n * ∑ k, wk k) (v : Fin n → ℝ) :
    ∃ e c mu, Filled wk H0 S w nel v e c mu := by
  have : ∀ k, ∃ (e : Fin n → ℝ) (c : CMat n), Solutions (meanH (H0 k) (S k) v) (S k) e c := by
    intro k
    obtain ⟨e, Z, -, ho, he⟩ := states_exist _ _ (meanH_hermitian (hH k) (hS k).isHermitian v) (hS k)
    refine ⟨e, Zᵀ, fun a b => ?_, fun a i => ?_⟩
    · have := congrFun (congrFun ho a) b
      rw [Matrix.mul_apply, Matrix.one_apply] at this
      rw [← this, Finset.sum_comm]
      refine Finset.sum_congr rfl fun j _ => ?_
      rw [Matrix.mul_apply, Finset.sum_mul]
      rfl
    · have := congrFun (congrFun he i) a
      rw [Matrix.mul_diagonal, Matrix.mul_apply, Matrix.mul_apply, mul_comm _ ((e a : ℝ) : ℂ)] at this
      exact this
  choose e c h using this
  obtain ⟨mu, hmu⟩ := mu_exists hw hwk e h0 h1
  exact ⟨e, c, mu, h, hmu⟩

/-- Occupations that give nearly the number of electrons are near. -/
theorem fermi_near (hw : 0 < w) (hwk : ∀ k, 0 < wk k) {e : Fin nk → Fin n → ℝ} {mu mu' τ : ℝ}
    (h : ∑ k, wk k * ∑ a, smoothFermi w mu (e k a) = nel)
    (h' : |∑ k, wk k * ∑ a, fermi w mu' (e k a) - nel| ≤ τ) (k : Fin nk) (a : Fin n) :
    |fermi w mu' (e k a) - smoothFermi w mu (e k a)| ≤ (τ + 1e-20 * (n * ∑ k, wk k)) / wk k + 1e-20 := by
  have c1 : |∑ k, wk k * ∑ a, (smoothFermi w mu' (e k a) - smoothFermi w mu (e k a))|
      ≤ τ + 1e-20 * (n * ∑ k, wk k) := by
    have t : |∑ k, wk k * ∑ a, (smoothFermi w mu' (e k a) - fermi w mu' (e k a))| ≤ 1e-20 * (n * ∑ k, wk k) := by
      refine (Finset.abs_sum_le_sum_abs _ _).trans ?_
      rw [Finset.mul_sum, Finset.mul_sum]
      refine Finset.sum_le_sum fun k _ => ?_
      rw [abs_mul, abs_of_pos (hwk k)]
      have : |∑ a, (smoothFermi w mu' (e k a) - fermi w mu' (e k a))| ≤ n * 1e-20 := by
        refine (Finset.abs_sum_le_sum_abs _ _).trans ?_
        refine (Finset.sum_le_sum fun a _ => (abs_sub_comm _ _).le.trans (fermi_smooth w mu' (e k a))).trans ?_
        simp
      calc _ ≤ wk k * (n * 1e-20) := mul_le_mul_of_nonneg_left this (hwk k).le
        _ = _ := by ring
    have e1 : ∑ k, wk k * ∑ a, (smoothFermi w mu' (e k a) - smoothFermi w mu (e k a))
        = (∑ k, wk k * ∑ a, fermi w mu' (e k a) - nel)
          + ∑ k, wk k * ∑ a, (smoothFermi w mu' (e k a) - fermi w mu' (e k a)) := by
      rw [← h, ← Finset.sum_sub_distrib, ← Finset.sum_add_distrib]
      refine Finset.sum_congr rfl fun k _ => ?_
      simp only [Finset.sum_sub_distrib]
      ring
    rw [e1]
    exact (abs_add_le _ _).trans (add_le_add h' t)
  have c2 : wk k * |smoothFermi w mu' (e k a) - smoothFermi w mu (e k a)|
      ≤ |∑ k, wk k * ∑ a, (smoothFermi w mu' (e k a) - smoothFermi w mu (e k a))| := by
    have key : ∀ m m' : ℝ, m ≤ m' → wk k * |smoothFermi w m' (e k a) - smoothFermi w m (e k a)|
        ≤ |∑ k, wk k * ∑ a, (smoothFermi w m' (e k a) - smoothFermi w m (e k a))| := by
      intro m m' hm
      have nn : ∀ k a, 0 ≤ smoothFermi w m' (e k a) - smoothFermi w m (e k a) := fun k a => by
        have := smoothFermi_anti hw (mu := m') (mu' := m) (e := e k a) (e' := e k a) (by linarith)
        linarith
      rw [abs_of_nonneg (nn k a)]
      refine le_trans ?_ (le_abs_self _)
      refine le_trans ?_ (Finset.single_le_sum
        (f := fun k => wk k * ∑ a, (smoothFermi w m' (e k a) - smoothFermi w m (e k a)))
        (fun k _ => mul_nonneg (hwk k).le (Finset.sum_nonneg fun a _ => nn k a)) (Finset.mem_univ k))
      exact mul_le_mul_of_nonneg_left (Finset.single_le_sum
        (f := fun a => smoothFermi w m' (e k a) - smoothFermi w m (e k a)) (fun a _ => nn k a) (Finset.mem_univ a))
        (hwk k).le
    rcases le_total mu mu' with hm | hm
    · exact key mu mu' hm
    · have := key mu' mu hm
      rw [abs_sub_comm] at this
      refine this.trans (le_of_eq ?_)
      rw [← abs_neg, ← Finset.sum_neg_distrib]
      congr 1
      refine Finset.sum_congr rfl fun k _ => ?_
      rw [← mul_neg, ← Finset.sum_neg_distrib]
      simp only [neg_sub]
  have c3 : |smoothFermi w mu' (e k a) - smoothFermi w mu (e k a)| ≤ (τ + 1e-20 * (n * ∑ k, wk k)) / wk k := by
    rw [le_div_iff₀ (hwk k), mul_comm]
    exact c2.trans c1
  calc _ = |(smoothFermi w mu' (e k a) - smoothFermi w mu (e k a)) + (fermi w mu' (e k a) - smoothFermi w mu' (e k a))| := by
        congr 1; ring
    _ ≤ _ := (abs_add_le _ _).trans (add_le_add c3 (fermi_smooth w mu' (e k a)))

/-- The populations of such occupations are near. -/
theorem pop_near (hwk : ∀ k, 0 < wk k) (hS : ∀ k, (S k).IsHermitian) {H : Fin nk → CMat n}
    {e : Fin nk → Fin n → ℝ} {c : Fin nk → CMat n} (h : ∀ k, Solutions (H k) (S k) (e k) (c k))
    {f f' : Fin nk → Fin n → ℝ} {δ : ℝ} (hf : ∀ k a, |f k a - f' k a| ≤ δ) (x : Fin n) :
    (mullikenDiag wk (fun k => computeRho (c k) (f k)) S x - mullikenDiag wk (fun k => computeRho (c k) (f' k)) S x) ^ 2
      ≤ popScale wk S * (n * (∑ k, wk k) * δ ^ 2) := by
  refine (response_bound hwk hS h h f f' x).trans (mul_le_mul_of_nonneg_left ?_ (popScale_nonneg hwk))
  unfold fillGap
  rw [Finset.mul_sum, Finset.sum_mul]
  refine Finset.sum_le_sum fun k _ => ?_
  have : ∑ a, ∑ b, Complex.normSq (overlapsOf (S k) (c k) (c k) a b) * (f k a - f' k b) ^ 2 ≤ n * δ ^ 2 := by
    have o : overlapsOf (S k) (c k) (c k) = 1 := (h k).matrix.1
    rw [o]
    have : ∀ a, ∑ b, Complex.normSq ((1 : CMat n) a b) * (f k a - f' k b) ^ 2 ≤ δ ^ 2 := by
      intro a
      rw [Finset.sum_eq_single a]
      · rw [Matrix.one_apply_eq, map_one, one_mul, ← sq_abs]
        exact pow_le_pow_left₀ (abs_nonneg _) (hf k a) 2
      · intro b _ hb
        rw [Matrix.one_apply_ne hb.symm]; simp
      · simp
    refine (Finset.sum_le_sum fun a _ => this a).trans ?_
    simp
  calc _ ≤ wk k * (n * δ ^ 2) := mul_le_mul_of_nonneg_left this (hwk k).le
    _ = _ := by ring

end Populations

end Hotbit
