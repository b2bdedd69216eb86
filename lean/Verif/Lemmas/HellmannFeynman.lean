import Verif.Props.Density
import Verif.Lemmas.Eigen
import Verif.Spec.Eigen
import Mathlib.Analysis.Calculus.Deriv.Mul
import Mathlib.Analysis.Calculus.Deriv.Star
import Mathlib.Analysis.Complex.RealDeriv

/-!
# The derivative of the band energy along a path of states
-/

set_option linter.unusedSimpArgs false

namespace Hotbit

open Matrix

variable {nk n : ℕ}

/-- The form `y† M x`. -/
noncomputable def sesq (M : CMat n) (y x : Fin n → ℂ) : ℂ := ∑ i, ∑ j, (starRingEnd ℂ) (y i) * M i j * x j

theorem sesq_conj {M : CMat n} (h : M.IsHermitian) (y x : Fin n → ℂ) :
    (starRingEnd ℂ) (sesq M y x) = sesq M x y := by
  unfold sesq
  simp only [map_sum, map_mul, Complex.conj_conj]
  rw [Finset.sum_comm]
  refine Finset.sum_congr rfl fun j _ => Finset.sum_congr rfl fun i _ => ?_
  have : (starRingEnd ℂ) (M i j) = M j i := h.apply j i
  rw [this]; ring

theorem sesq_eigen {H S : CMat n} {e : ℝ} {c : Fin n → ℂ}
    (h : ∀ i, ∑ j, H i j * c j = e * ∑ j, S i j * c j) (y : Fin n → ℂ) :
    sesq H y c = e * sesq S y c := by
  unfold sesq
  rw [Finset.mul_sum]
  refine Finset.sum_congr rfl fun i _ => ?_
  have : ∀ M : CMat n, ∑ j, (starRingEnd ℂ) (y i) * M i j * c j
      = (starRingEnd ℂ) (y i) * ∑ j, M i j * c j := fun M => by
    rw [Finset.mul_sum]; exact Finset.sum_congr rfl fun j _ => by ring
  rw [this, this, h]; ring

theorem sesq_hasDerivAt {S : ℝ → CMat n} {S' : CMat n} {c : ℝ → Fin n → ℂ} {c' : Fin n → ℂ}
    (hS : ∀ i j, HasDerivAt (fun t => S t i j) (S' i j) 0)
    (hc : ∀ i, HasDerivAt (fun t => c t i) (c' i) 0) :
    HasDerivAt (fun t => sesq (S t) (c t) (c t))
      (sesq S' (c 0) (c 0) + sesq (S 0) c' (c 0) + sesq (S 0) (c 0) c') 0 := by
  unfold sesq
  rw [← Finset.sum_add_distrib, ← Finset.sum_add_distrib]
  refine HasDerivAt.fun_sum fun i _ => ?_
  rw [← Finset.sum_add_distrib, ← Finset.sum_add_distrib]
  refine HasDerivAt.fun_sum fun j _ => ?_
  have h1 : HasDerivAt (fun t => (starRingEnd ℂ) (c t i)) ((starRingEnd ℂ) (c' i)) 0 := (hc i).star
  exact ((h1.mul (hS i j)).mul (hc j)).congr_deriv (by rw [Pi.mul_apply]; ring)

/-- The derivative of the density matrix. -/
noncomputable def rhoDer (c c' : CMat n) (f f' : Fin n → ℝ) : CMat n :=
  Matrix.of fun i j => ∑ a, (c' a i * ((f a : ℂ) * (starRingEnd ℂ) (c a j))
    + c a i * ((f' a : ℂ) * (starRingEnd ℂ) (c a j) + (f a : ℂ) * (starRingEnd ℂ) (c' a j)))

theorem rho_hasDerivAt {c : ℝ → CMat n} {c' : CMat n} {f : ℝ → Fin n → ℝ} {f' : Fin n → ℝ}
    (hc : ∀ a i, HasDerivAt (fun t => c t a i) (c' a i) 0)
    (hf : ∀ a, HasDerivAt (fun t => f t a) (f' a) 0) (i j : Fin n) :
    HasDerivAt (fun t => computeRho (c t) (f t) i j) (rhoDer (c 0) c' (f 0) f' i j) 0 := by
  simp only [computeRho_apply]
  unfold rhoDer
  simp only [Matrix.of_apply]
  refine HasDerivAt.fun_sum fun a _ => ?_
  have h1 : HasDerivAt (fun t => (starRingEnd ℂ) (c t a j)) ((starRingEnd ℂ) (c' a j)) 0 := (hc a j).star
  have h2 : HasDerivAt (fun t => ((f t a : ℝ) : ℂ)) (f' a : ℂ) 0 := (hf a).ofReal_comp
  exact ((hc a i).mul (h2.mul h1))

theorem rhoDer_hermitian (c c' : CMat n) (f f' : Fin n → ℝ) : (rhoDer c c' f f').IsHermitian := by
  ext i j
  rw [Matrix.conjTranspose_apply]
  simp only [rhoDer, Matrix.of_apply, star_sum]
  refine Finset.sum_congr rfl fun a _ => ?_
  simp
  ring

theorem sum_rho (c M : CMat n) (g : Fin n → ℝ) :
    ∑ i, ∑ j, computeRho c g i j * M j i = ∑ a, (g a : ℂ) * sesq M (c a) (c a) := by
  simp only [computeRho_apply, Finset.sum_mul, sesq, Finset.mul_sum]
  rw [Finset.sum_comm]
  rw [Finset.sum_congr rfl fun j _ => Finset.sum_comm]
  rw [Finset.sum_comm]
  refine Finset.sum_congr rfl fun a _ => Finset.sum_congr rfl fun j _ =>
    Finset.sum_congr rfl fun i _ => ?_
  ring

theorem sum_rhoDer (c c' M : CMat n) (f f' : Fin n → ℝ) :
    ∑ i, ∑ j, rhoDer c c' f f' i j * M j i = ∑ a, ((f' a : ℂ) * sesq M (c a) (c a)
      + (f a : ℂ) * (sesq M (c a) (c' a) + sesq M (c' a) (c a))) := by
  simp only [rhoDer, Matrix.of_apply, Finset.sum_mul, sesq, Finset.mul_sum, ← Finset.sum_add_distrib]
  rw [Finset.sum_comm]
  rw [Finset.sum_congr rfl fun j _ => Finset.sum_comm]
  rw [Finset.sum_comm]
  refine Finset.sum_congr rfl fun a _ => Finset.sum_congr rfl fun j _ =>
    Finset.sum_congr rfl fun i _ => ?_
  ring

/-- Hellmann-Feynman with overlap: the change of the density matrix in the Hamiltonian of the states
is the change of the occupations and the change of the overlap. -/
theorem hellmann_feynman {H S S' c' : CMat n} {St : ℝ → CMat n} {c : ℝ → CMat n} {e f f' : Fin n → ℝ}
    (h0 : St 0 = S) (hH : H.IsHermitian) (hS : S.IsHermitian) (hs : Solutions H S e (c 0))
    (hn : ∀ᶠ t in nhds (0 : ℝ), ∀ a, sesq (St t) (c t a) (c t a) = 1)
    (hS' : ∀ i j, HasDerivAt (fun t => St t i j) (S' i j) 0)
    (hc : ∀ a i, HasDerivAt (fun t => c t a i) (c' a i) 0) :
    ∑ i, ∑ j, rhoDer (c 0) c' f f' i j * H j i
      = ∑ a, ((f' a * e a : ℝ) : ℂ) - ∑ i, ∑ j, computeRhoe (c 0) f e i j * S' j i := by
  rw [sum_rhoDer, computeRhoe_eq, sum_rho, ← Finset.sum_sub_distrib]
  refine Finset.sum_congr rfl fun a _ => ?_
  have n1 : sesq S (c 0 a) (c 0 a) = 1 := by
    have := hs.orthonormal a a
    rwa [if_pos rfl] at this
  have e1 : sesq H (c 0 a) (c 0 a) = e a := by rw [sesq_eigen (hs.solve a), n1, mul_one]
  have e2 : sesq H (c' a) (c 0 a) = e a * sesq S (c' a) (c 0 a) := sesq_eigen (hs.solve a) _
  have e3 : sesq H (c 0 a) (c' a) = e a * sesq S (c 0 a) (c' a) := by
    rw [← sesq_conj hH, e2, map_mul, sesq_conj hS, Complex.conj_ofReal]
  have d := sesq_hasDerivAt (c := fun t => c t a) hS' (hc a)
  have d0 : HasDerivAt (fun t => sesq (St t) (c t a) (c t a)) 0 0 :=
    (hasDerivAt_const (0 : ℝ) (1 : ℂ)).congr_of_eventuallyEq (by
      filter_upwards [hn] with t ht using ht a)
  have u := d.unique d0
  rw [h0] at u
  rw [e1, e2, e3, ← mul_add]
  have : sesq S (c 0 a) (c' a) + sesq S (c' a) (c 0 a) = - sesq S' (c 0 a) (c 0 a) := by
    linear_combination u
  rw [this]
  push_cast
  ring

/-- The density matrix of the states does not depend on which orthonormal solutions are taken when
occupations are a function of the energy. -/
theorem rho_unique {H S c d : CMat n} {e e' : Fin n → ℝ} (hH : H.IsHermitian) (hS : S.IsHermitian)
    (h : Solutions H S e c) (h' : Solutions H S e' d) (g : ℝ → ℝ) :
    computeRho c (fun a => g (e a)) = computeRho d fun a => g (e' a) := by
  have key : ∀ (c : CMat n) (e : Fin n → ℝ), Solutions H S e c →
      (cᵀ)ᴴ * S * cᵀ = 1 ∧ H * cᵀ = S * cᵀ * diagonal (fun a => (e a : ℂ)) := by
    intro c e h
    constructor
    · ext a b
      rw [Matrix.mul_apply]
      have := h.orthonormal a b
      rw [Finset.sum_comm] at this
      rw [Matrix.one_apply, ← this]
      refine Finset.sum_congr rfl fun j _ => ?_
      rw [Matrix.mul_apply, Finset.sum_mul]
      rfl
    · ext i a
      rw [Matrix.mul_diagonal, Matrix.mul_apply, Matrix.mul_apply, mul_comm]
      exact h.solve a i
  obtain ⟨o1, s1⟩ := key c e h
  obtain ⟨o2, s2⟩ := key d e' h'
  set Z := cᵀ
  set W := dᵀ
  have u1 : Z * (Zᴴ * S) = 1 := mul_eq_one_comm.1 o1
  have u2 : S * (W * Wᴴ) = 1 := by
    have : W * (Wᴴ * S) = 1 := mul_eq_one_comm.1 o2
    rw [← Matrix.mul_assoc] at this
    exact mul_eq_one_comm.1 this
  have s1' : Zᴴ * H = diagonal (fun a => (e a : ℂ)) * (Zᴴ * S) := by
    have := congrArg Matrix.conjTranspose s1
    rw [conjTranspose_mul, conjTranspose_mul, conjTranspose_mul, hH, hS, diagonal_conjTranspose] at this
    rw [this]
    congr 2
    funext a
    simp
  have comm : ∀ a b, (e a : ℂ) * (Zᴴ * S * W) a b = (Zᴴ * S * W) a b * (e' b : ℂ) := by
    intro a b
    have h1 : Zᴴ * H * W = diagonal (fun a => (e a : ℂ)) * (Zᴴ * S * W) := by
      rw [s1', Matrix.mul_assoc]
    have h2 : Zᴴ * H * W = Zᴴ * S * W * diagonal (fun a => (e' a : ℂ)) := by
      rw [Matrix.mul_assoc, s2, ← Matrix.mul_assoc, ← Matrix.mul_assoc]
    have := congrFun (congrFun (h1.symm.trans h2) a) b
    rwa [Matrix.diagonal_mul, Matrix.mul_diagonal] at this
  have gcomm : diagonal (fun a => (g (e a) : ℂ)) * (Zᴴ * S * W)
      = Zᴴ * S * W * diagonal (fun a => (g (e' a) : ℂ)) := by
    ext a b
    rw [Matrix.diagonal_mul, Matrix.mul_diagonal]
    by_cases hz : (Zᴴ * S * W) a b = 0
    · rw [hz]; simp
    · have := comm a b
      rw [mul_comm] at this
      have he := mul_left_cancel₀ hz this
      rw [Complex.ofReal_inj] at he
      rw [he, mul_comm]
  have rep : ∀ (c : CMat n) (g : Fin n → ℝ), computeRho c g = cᵀ * diagonal (fun a => (g a : ℂ)) * (cᵀ)ᴴ := by
    intro c g
    unfold computeRho
    rw [Matrix.mul_assoc]
    congr 1
    ext a j
    rw [Matrix.diagonal_mul]
    rfl
  rw [rep, rep]
  show Z * diagonal (fun a => (g (e a) : ℂ)) * Zᴴ = W * diagonal (fun a => (g (e' a) : ℂ)) * Wᴴ
  have hW : W = Z * (Zᴴ * S * W) := by rw [← Matrix.mul_assoc, u1, Matrix.one_mul]
  have hZ : Zᴴ = (Zᴴ * S * W) * Wᴴ := by
    rw [Matrix.mul_assoc, Matrix.mul_assoc, u2, Matrix.mul_one]
  calc Z * diagonal (fun a => (g (e a) : ℂ)) * Zᴴ
      = Z * diagonal (fun a => (g (e a) : ℂ)) * ((Zᴴ * S * W) * Wᴴ) := by rw [← hZ]
    _ = Z * (diagonal (fun a => (g (e a) : ℂ)) * (Zᴴ * S * W)) * Wᴴ := by
        simp only [Matrix.mul_assoc]
    _ = Z * (Zᴴ * S * W) * diagonal (fun a => (g (e' a) : ℂ)) * Wᴴ := by
        rw [gcomm]; simp only [Matrix.mul_assoc]
    _ = _ := by rw [← hW]

/-- The populations in a potential that is the mean of the potentials of the two orbitals. -/
theorem mean_potential {R S : CMat n} (hR : R.IsHermitian) (hS : S.IsHermitian) (phi : Fin n → ℝ) :
    (∑ i, ∑ j, R i j * ((((phi j + phi i) / 2 : ℝ) : ℂ) * S j i)).re
      = ∑ i, phi i * (∑ j, R i j * S j i).re := by
  have c : ∀ i j, (R i j * S j i).re = (R j i * S i j).re := by
    intro i j
    have h1 : R i j = star (R j i) := (hR.apply i j).symm
    have h2 : S j i = star (S i j) := (hS.apply j i).symm
    rw [h1, h2]
    simp
  have e1 : ∀ i j, (R i j * ((((phi j + phi i) / 2 : ℝ) : ℂ) * S j i)).re
      = phi j / 2 * (R i j * S j i).re + phi i / 2 * (R i j * S j i).re := by
    intro i j
    have : R i j * ((((phi j + phi i) / 2 : ℝ) : ℂ) * S j i)
        = (((phi j + phi i) / 2 : ℝ) : ℂ) * (R i j * S j i) := by ring
    rw [this, Complex.re_ofReal_mul]; ring
  simp only [Complex.re_sum, e1, Finset.sum_add_distrib]
  rw [Finset.sum_comm (f := fun i j => phi j / 2 * (R i j * S j i).re)]
  rw [← Finset.sum_add_distrib]
  refine Finset.sum_congr rfl fun i _ => ?_
  simp only [Finset.mul_sum]
  rw [← Finset.sum_add_distrib]
  refine Finset.sum_congr rfl fun j _ => ?_
  rw [c j i]; ring

/-- The derivative of a matrix when an atom moves, from the derivative array `D`: rows of the orbitals
of the atom and, by the conjugate, their columns. -/
noncomputable def movedDer (on : Fin n → Prop) [DecidablePred on] (D : CMat n) : CMat n :=
  Matrix.of fun i j => (if on i then D i j else 0) + (if on j then (starRingEnd ℂ) (D j i) else 0)

theorem movedDer_hermitian (on : Fin n → Prop) [DecidablePred on] (D : CMat n) :
    (movedDer on D).IsHermitian := by
  ext i j
  rw [Matrix.conjTranspose_apply]
  simp only [movedDer, Matrix.of_apply, star_add, apply_ite star, star_zero, Complex.star_def,
    Complex.conj_conj]
  ring

theorem trace_movedDer (on : Fin n → Prop) [DecidablePred on] (D R : CMat n) (hR : R.IsHermitian) :
    (∑ i, ∑ j, R i j * movedDer on D j i).re
      = 2 * (∑ i, if on i then ∑ j, D i j * Rᵀ i j else 0).re := by
  have e1 : ∑ i, ∑ j, R i j * movedDer on D j i
      = (∑ i, if on i then ∑ j, D i j * Rᵀ i j else 0)
        + (starRingEnd ℂ) (∑ i, if on i then ∑ j, D i j * Rᵀ i j else 0) := by
    simp only [movedDer, Matrix.of_apply, mul_add, Finset.sum_add_distrib]
    congr 1
    · rw [Finset.sum_comm]
      refine Finset.sum_congr rfl fun j _ => ?_
      by_cases h : on j
      · simp only [if_pos h, Matrix.transpose_apply]
        exact Finset.sum_congr rfl fun i _ => mul_comm _ _
      · simp only [if_neg h, mul_zero, Finset.sum_const_zero]
    · rw [map_sum]
      refine Finset.sum_congr rfl fun i _ => ?_
      by_cases h : on i
      · simp only [if_pos h, Matrix.transpose_apply, map_sum, map_mul]
        refine Finset.sum_congr rfl fun j _ => ?_
        have : (starRingEnd ℂ) (R j i) = R i j := hR.apply i j
        rw [this, mul_comm]
      · simp only [if_neg h, mul_zero, Finset.sum_const_zero, map_zero]
  rw [e1, Complex.add_re, Complex.conj_re]
  ring

end Hotbit
