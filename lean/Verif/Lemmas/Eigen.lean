import Verif.Model.Eigen
import Verif.Spec.Eigen
import Mathlib.Analysis.Matrix.Spectrum
import Mathlib.Analysis.Matrix.PosDef
import Mathlib.LinearAlgebra.Matrix.Charpoly.Basic
import Mathlib.LinearAlgebra.Matrix.NonsingularInverse
import Mathlib.Data.Fin.Tuple.Sort
import Mathlib.Data.List.Sort
import Mathlib.Tactic

/-!
# Lemmas on generalized eigenvalue problems
-/

namespace Hotbit

open Matrix
open scoped ComplexOrder

variable {n : ℕ}

/-- States in matrix form. -/
theorem areStates_iff (H S : CMat n) (e : Fin n → ℝ) (Z : CMat n) :
    AreStates H S e Zᵀ ↔
      Monotone e ∧ Zᴴ * S * Z = 1 ∧ H * Z = S * Z * diagonal fun a => (e a : ℂ) := by
  have h1 : ∀ a b, (Zᴴ * S * Z) a b =
      ∑ i, ∑ j, (starRingEnd ℂ) (Zᵀ a i) * S i j * Zᵀ b j := by
    intro a b
    rw [Matrix.mul_apply, Finset.sum_comm]
    refine Finset.sum_congr rfl fun j _ => ?_
    rw [Matrix.mul_apply, Finset.sum_mul]
    rfl
  have h2 : ∀ i a, (S * Z * diagonal fun a => (e a : ℂ)) i a = e a * ∑ j, S i j * Zᵀ a j := by
    intro i a
    rw [Matrix.mul_diagonal, Matrix.mul_apply, mul_comm]
    rfl
  constructor
  · intro h
    refine ⟨h.ascending, ?_, ?_⟩
    · ext a b
      rw [h1, h.orthonormal, Matrix.one_apply]
    · ext i a
      rw [h2, ← h.solve, Matrix.mul_apply]
      rfl
  · rintro ⟨m, o, s⟩
    refine ⟨m, fun a b => ?_, fun a i => ?_⟩
    · rw [← h1, o, Matrix.one_apply]
    · rw [← h2, ← s, Matrix.mul_apply]
      rfl

/-- Ascending families with the same values are equal. -/
theorem monotone_unique {f g : Fin n → ℝ} (hf : Monotone f) (hg : Monotone g)
    (h : (Finset.univ.val.map f : Multiset ℝ) = Finset.univ.val.map g) : f = g := by
  have key : ∀ k : Fin n → ℝ, (Finset.univ.val.map k : Multiset ℝ) = (List.ofFn k : Multiset ℝ) := by
    intro k
    rw [Fin.univ_val_map]
  rw [key, key, Multiset.coe_eq_coe] at h
  have := List.Perm.eq_of_sortedLE hf.sortedLE_ofFn hg.sortedLE_ofFn h
  exact List.ofFn_injective this

/-- The characteristic polynomial of `S⁻¹ H` has the energies as roots. -/
theorem states_charpoly {H S Z : CMat n} {e : Fin n → ℝ} (ho : Zᴴ * S * Z = 1)
    (hs : H * Z = S * Z * diagonal fun a => (e a : ℂ)) :
    (S⁻¹ * H).charpoly = ∏ a, (Polynomial.X - Polynomial.C (e a : ℂ)) := by
  have u1 : (Zᴴ * S) * Z = 1 := ho
  have u2 : Z * (Zᴴ * S) = 1 := mul_eq_one_comm.1 u1
  have hS : S * (Z * Zᴴ) = 1 := by
    rw [← Matrix.mul_assoc] at u2
    exact mul_eq_one_comm.1 u2
  have hinv : S⁻¹ = Z * Zᴴ := Matrix.inv_eq_right_inv hS
  let U : (CMat n)ˣ := ⟨Z, Zᴴ * S, u2, u1⟩
  have e1 : S⁻¹ * H = U.val * (diagonal fun a => (e a : ℂ)) * (U.val)⁻¹ := by
    have hz : (U.val)⁻¹ = Zᴴ * S := Matrix.inv_eq_right_inv u2
    rw [hz]
    show S⁻¹ * H = Z * (diagonal fun a => (e a : ℂ)) * (Zᴴ * S)
    have hH : H = S * Z * (diagonal fun a => (e a : ℂ)) * (Zᴴ * S) := by
      rw [← hs, Matrix.mul_assoc, u2, Matrix.mul_one]
    have u3 : (Z * Zᴴ) * S = 1 := mul_eq_one_comm.1 hS
    conv_lhs => rw [hH]
    rw [hinv]
    simp only [← Matrix.mul_assoc]
    rw [u3, Matrix.one_mul]
  rw [e1, charpoly_units_conj, charpoly_diagonal]

/-- The energies are determined by the matrices. -/
theorem states_unique {H S Z Z' : CMat n} {e e' : Fin n → ℝ} (hm : Monotone e) (hm' : Monotone e')
    (ho : Zᴴ * S * Z = 1) (hs : H * Z = S * Z * diagonal fun a => (e a : ℂ))
    (ho' : Z'ᴴ * S * Z' = 1) (hs' : H * Z' = S * Z' * diagonal fun a => (e' a : ℂ)) : e = e' := by
  have h := (states_charpoly ho hs).symm.trans (states_charpoly ho' hs')
  have r := congrArg Polynomial.roots h
  have key : ∀ k : Fin n → ℝ, (∏ a, (Polynomial.X - Polynomial.C (k a : ℂ))).roots =
      Finset.univ.val.map fun a => (k a : ℂ) := by
    intro k
    have := Polynomial.roots_multiset_prod_X_sub_C (Finset.univ.val.map fun a => (k a : ℂ))
    rw [Multiset.map_map] at this
    exact this
  rw [key, key] at r
  have r2 := congrArg (Multiset.map Complex.re) r
  simp only [Multiset.map_map, Function.comp_def, Complex.ofReal_re] at r2
  exact monotone_unique hm hm' r2

/-- Every Hermitian Hamiltonian has states if the overlap is positive definite. -/
theorem states_exist (H S : CMat n) (hH : H.IsHermitian) (hS : S.PosDef) :
    ∃ (e : Fin n → ℝ) (Z : CMat n), Monotone e ∧ Zᴴ * S * Z = 1 ∧
      H * Z = S * Z * diagonal fun a => (e a : ℂ) := by
  -- orthonormalize the basis
  obtain ⟨T, hT⟩ : ∃ T : CMat n, Tᴴ * S * T = 1 := by
    have hs := hS.isHermitian
    let U : CMat n := hs.eigenvectorUnitary
    have hU : Uᴴ * U = 1 := by
      have := Unitary.coe_star_mul_self hs.eigenvectorUnitary
      exact this
    have hSU : Uᴴ * S * U = diagonal fun a => (hs.eigenvalues a : ℂ) := by
      have := hs.conjStarAlgAut_star_eigenvectorUnitary
      rw [Unitary.conjStarAlgAut_star_apply] at this
      exact this
    refine ⟨U * diagonal fun a => (((√(hs.eigenvalues a))⁻¹ : ℝ) : ℂ), ?_⟩
    rw [conjTranspose_mul, diagonal_conjTranspose]
    have : (diagonal (star fun a => (((√(hs.eigenvalues a))⁻¹ : ℝ) : ℂ)) * Uᴴ * S *
        (U * diagonal fun a => (((√(hs.eigenvalues a))⁻¹ : ℝ) : ℂ))) =
        diagonal (star fun a => (((√(hs.eigenvalues a))⁻¹ : ℝ) : ℂ)) * (Uᴴ * S * U) *
          diagonal fun a => (((√(hs.eigenvalues a))⁻¹ : ℝ) : ℂ) := by
      simp only [Matrix.mul_assoc]
    rw [this, hSU, diagonal_mul_diagonal, diagonal_mul_diagonal, ← diagonal_one]
    congr 1
    funext a
    have hp : 0 < hs.eigenvalues a := hS.eigenvalues_pos a
    have hq : 0 < √(hs.eigenvalues a) := Real.sqrt_pos.2 hp
    have : (√(hs.eigenvalues a))⁻¹ * hs.eigenvalues a * (√(hs.eigenvalues a))⁻¹ = 1 := by
      have := Real.mul_self_sqrt hp.le
      field_simp
      nlinarith
    simp only [Pi.star_apply, RCLike.star_def, Complex.conj_ofReal]
    exact_mod_cast this
  -- diagonalize in the new basis
  have hK : (Tᴴ * H * T).IsHermitian := by
    unfold Matrix.IsHermitian
    rw [conjTranspose_mul, conjTranspose_mul, conjTranspose_conjTranspose, hH.eq, Matrix.mul_assoc]
  let V : CMat n := hK.eigenvectorUnitary
  have hV : Vᴴ * V = 1 := Unitary.coe_star_mul_self hK.eigenvectorUnitary
  have hKV : Vᴴ * (Tᴴ * H * T) * V = diagonal fun a => (hK.eigenvalues a : ℂ) := by
    have := hK.conjStarAlgAut_star_eigenvectorUnitary
    rw [Unitary.conjStarAlgAut_star_apply] at this
    exact this
  let σ := Tuple.sort hK.eigenvalues
  let Z : CMat n := (T * V).submatrix id σ
  have e1 : Zᴴ * S * Z = 1 := by
    have : Zᴴ * S * Z = ((T * V)ᴴ * S * (T * V)).submatrix σ σ := by
      ext a b
      simp [Z, Matrix.mul_apply, conjTranspose_apply]
    rw [this, conjTranspose_mul]
    have h2 : Vᴴ * Tᴴ * S * (T * V) = 1 := by
      rw [show Vᴴ * Tᴴ * S * (T * V) = Vᴴ * (Tᴴ * S * T) * V by simp only [Matrix.mul_assoc], hT,
        Matrix.mul_one, hV]
    rw [h2]
    exact Matrix.submatrix_one_equiv σ
  have e2 : Zᴴ * H * Z = diagonal fun a => (hK.eigenvalues (σ a) : ℂ) := by
    have : Zᴴ * H * Z = ((T * V)ᴴ * H * (T * V)).submatrix σ σ := by
      ext a b
      simp [Z, Matrix.mul_apply, conjTranspose_apply]
    rw [this, conjTranspose_mul,
      show Vᴴ * Tᴴ * H * (T * V) = Vᴴ * (Tᴴ * H * T) * V by simp only [Matrix.mul_assoc], hKV]
    rw [submatrix_diagonal_equiv]
    rfl
  refine ⟨hK.eigenvalues ∘ σ, Z, Tuple.monotone_sort _, e1, ?_⟩
  have u1 : Zᴴ * (S * Z) = 1 := by rw [← Matrix.mul_assoc]; exact e1
  have u2 : (S * Z) * Zᴴ = 1 := mul_eq_one_comm.1 u1
  calc H * Z = ((S * Z) * Zᴴ) * (H * Z) := by rw [u2, Matrix.one_mul]
    _ = (S * Z) * (Zᴴ * H * Z) := by simp only [Matrix.mul_assoc]
    _ = _ := by rw [e2]; rfl

end Hotbit
