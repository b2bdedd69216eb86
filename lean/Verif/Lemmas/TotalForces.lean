import Verif.Lemmas.HellmannFeynman
import Verif.Model.Eigen

/-!
# The derivative of band plus electrostatic energy along a path of self-consistent states
-/

set_option linter.unusedSimpArgs false

namespace Hotbit

open Matrix

variable {nk n : ℕ}

theorem re_hasDerivAt {g : ℝ → ℂ} {g' : ℂ} (h : HasDerivAt g g' 0) :
    HasDerivAt (fun t => (g t).re) g'.re 0 := by
  have := (Complex.reCLM.hasFDerivAt (x := g 0)).comp_hasDerivAt 0 h
  exact this

theorem trace_hasDerivAt {R M : ℝ → CMat n} {R' M' : CMat n}
    (hR : ∀ i j, HasDerivAt (fun t => R t i j) (R' i j) 0)
    (hM : ∀ i j, HasDerivAt (fun t => M t i j) (M' i j) 0) (x : Fin n) :
    HasDerivAt (fun t => (rowDot (R t) (M t) x).re)
      ((∑ j, R' x j * M 0 j x).re + (∑ j, R 0 x j * M' j x).re) 0 := by
  rw [← Complex.add_re, ← Finset.sum_add_distrib]
  refine re_hasDerivAt ?_
  unfold rowDot
  refine HasDerivAt.fun_sum fun j _ => ?_
  exact (hR x j).mul (hM j x)

/-- A quadratic form along a path. -/
theorem quad_hasDerivAt (N : ℕ) {γ : ℝ → ℕ → ℕ → ℝ} {γ' : ℕ → ℕ → ℝ} {q : ℝ → ℕ → ℝ} {q' : ℕ → ℝ}
    (hsym : ∀ i < N, ∀ j < N, γ 0 i j = γ 0 j i)
    (hγ : ∀ i < N, ∀ j < N, HasDerivAt (fun t => γ t i j) (γ' i j) 0)
    (hq : ∀ i < N, HasDerivAt (fun t => q t i) (q' i) 0) :
    HasDerivAt (fun t => (∑ i ∈ Finset.range N, ∑ j ∈ Finset.range N, q t i * γ t i j * q t j) / 2)
      ((∑ i ∈ Finset.range N, ∑ j ∈ Finset.range N, q 0 i * γ' i j * q 0 j) / 2
        + ∑ i ∈ Finset.range N, q' i * ∑ j ∈ Finset.range N, γ 0 i j * q 0 j) 0 := by
  have h1 : HasDerivAt (fun t => ∑ i ∈ Finset.range N, ∑ j ∈ Finset.range N, q t i * γ t i j * q t j)
      (∑ i ∈ Finset.range N, ∑ j ∈ Finset.range N,
        (q' i * γ 0 i j * q 0 j + q 0 i * γ' i j * q 0 j + q 0 i * γ 0 i j * q' j)) 0 := by
    refine HasDerivAt.fun_sum fun i hi => HasDerivAt.fun_sum fun j hj => ?_
    have hi := Finset.mem_range.1 hi
    have hj := Finset.mem_range.1 hj
    exact (((hq i hi).mul (hγ i hi j hj)).mul (hq j hj)).congr_deriv (by
      simp only [Pi.mul_apply]; ring)
  refine (h1.div_const 2).congr_deriv ?_
  simp only [Finset.sum_add_distrib]
  have e1 : ∑ i ∈ Finset.range N, ∑ j ∈ Finset.range N, q 0 i * γ 0 i j * q' j
      = ∑ i ∈ Finset.range N, ∑ j ∈ Finset.range N, q' i * γ 0 i j * q 0 j := by
    rw [Finset.sum_comm]
    refine Finset.sum_congr rfl fun j hj => Finset.sum_congr rfl fun i hi => ?_
    rw [hsym i (Finset.mem_range.1 hi) j (Finset.mem_range.1 hj)]
    ring
  have e2 : ∑ i ∈ Finset.range N, q' i * ∑ j ∈ Finset.range N, γ 0 i j * q 0 j
      = ∑ i ∈ Finset.range N, ∑ j ∈ Finset.range N, q' i * γ 0 i j * q 0 j := by
    refine Finset.sum_congr rfl fun i _ => ?_
    rw [Finset.mul_sum]
    exact Finset.sum_congr rfl fun j _ => by ring
  rw [e1, e2]
  ring

/-- The energy `Σ_k w_k Re tr(ρ H0) + ½ q γ q`, for states that at the start of the path are those of
`H0 + h1 ∘ S` with `h1` the mean of the potentials `γ q`. -/
theorem total_core (wk : Fin nk → ℝ) (H S : ℝ → Fin nk → CMat n) (c : ℝ → Fin nk → CMat n)
    (f : ℝ → Fin nk → Fin n → ℝ) (f' ε : Fin nk → Fin n → ℝ) (at' : Fin n → ℕ) (N a : ℕ)
    (hat : ∀ x, at' x < N) (γ : ℝ → ℕ → ℕ → ℝ) (γ' : ℕ → ℕ → ℝ) (q : ℝ → ℕ → ℝ) (val : ℕ → ℝ)
    (h1 : Fin n → Fin n → ℝ) (dH dS : Fin nk → CMat n)
    (hsym : ∀ i < N, ∀ j < N, γ 0 i j = γ 0 j i)
    (hγ : ∀ i < N, ∀ j < N, HasDerivAt (fun t => γ t i j) (γ' i j) 0)
    (hq : ∀ᶠ t in nhds (0 : ℝ), ∀ i < N, q t i = (∑ x, if at' x = i then
      mullikenDiag wk (fun k => computeRho (c t k) (f t k)) (S t) x else 0) - val i)
    (hh1 : ∀ x y, h1 x y = (∑ j ∈ Finset.range N, γ 0 (at' x) j * q 0 j
      + ∑ j ∈ Finset.range N, γ 0 (at' y) j * q 0 j) / 2)
    (hH0 : ∀ k, (H 0 k).IsHermitian) (hS0 : ∀ k, (S 0 k).IsHermitian)
    (hs : ∀ k, Solutions (scfHamiltonian (some h1) (H 0 k) (S 0 k)) (S 0 k) (ε k) (c 0 k))
    (hn : ∀ᶠ t in nhds (0 : ℝ), ∀ k b, sesq (S t k) (c t k b) (c t k b) = 1)
    (hdH : ∀ k i j, HasDerivAt (fun t => H t k i j) (movedDer (fun x => at' x = a) (dH k) i j) 0)
    (hdS : ∀ k i j, HasDerivAt (fun t => S t k i j) (movedDer (fun x => at' x = a) (dS k) i j) 0)
    (hc : ∀ k b i, DifferentiableAt ℝ (fun t => c t k b i) 0)
    (hf : ∀ k b, HasDerivAt (fun t => f t k b) (f' k b) 0) :
    HasDerivAt (fun t => ∑ k, wk k * (∑ x, rowDot (computeRho (c t k) (f t k)) (H t k) x).re
        + (∑ i ∈ Finset.range N, ∑ j ∈ Finset.range N, q t i * γ t i j * q t j) / 2)
      (-(2 * (∑ x, if at' x = a then forceDiag wk (fun k => dHfull (dH k) (dS k) (some h1)) dS
          (fun k => computeRho (c 0 k) (f 0 k)) (fun k => computeRhoe (c 0 k) (f 0 k) (ε k)) x
            else 0).re)
        + ∑ k, wk k * ∑ b, f' k b * ε k b
        + (∑ i ∈ Finset.range N, ∑ j ∈ Finset.range N, q 0 i * γ' i j * q 0 j) / 2) 0 := by
  classical
  set c' : Fin nk → CMat n := fun k => Matrix.of fun b i => deriv (fun t => c t k b i) 0 with hc'
  have hcd : ∀ k b i, HasDerivAt (fun t => c t k b i) (c' k b i) 0 := fun k b i => (hc k b i).hasDerivAt
  set R : Fin nk → CMat n := fun k => computeRho (c 0 k) (f 0 k) with hR
  set R' : Fin nk → CMat n := fun k => rhoDer (c 0 k) (c' k) (f 0 k) (f' k) with hR'
  set H' : Fin nk → CMat n := fun k => movedDer (fun x => at' x = a) (dH k) with hH'
  set S' : Fin nk → CMat n := fun k => movedDer (fun x => at' x = a) (dS k) with hS'
  set phi : ℕ → ℝ := fun i => ∑ j ∈ Finset.range N, γ 0 i j * q 0 j with hphi
  have hRd : ∀ k i j, HasDerivAt (fun t => computeRho (c t k) (f t k) i j) (R' k i j) 0 :=
    fun k i j => rho_hasDerivAt (hcd k) (hf k) i j
  -- the derivative of the charges
  set p' : Fin n → ℝ := fun x => ∑ k, wk k * ((∑ j, R' k x j * S 0 k j x).re
    + (∑ j, R k x j * S' k j x).re) with hp'
  have hpd : ∀ x, HasDerivAt (fun t => mullikenDiag wk (fun k => computeRho (c t k) (f t k)) (S t) x)
      (p' x) 0 := by
    intro x
    unfold mullikenDiag
    refine HasDerivAt.fun_sum fun k _ => ?_
    exact (trace_hasDerivAt (R := fun t => computeRho (c t k) (f t k)) (M := fun t => S t k)
      (hRd k) (hdS k) x).const_mul (wk k)
  have hqd : ∀ i < N, HasDerivAt (fun t => q t i) (∑ x, if at' x = i then p' x else 0) 0 := by
    intro i hi
    have h2 : HasDerivAt (fun t => (∑ x, if at' x = i then
        mullikenDiag wk (fun k => computeRho (c t k) (f t k)) (S t) x else 0) - val i)
        (∑ x, if at' x = i then p' x else 0) 0 := by
      refine HasDerivAt.sub_const _ (HasDerivAt.fun_sum fun x _ => ?_)
      by_cases hx : at' x = i
      · simp only [if_pos hx]; exact hpd x
      · simp only [if_neg hx]; exact hasDerivAt_const _ _
    refine h2.congr_of_eventuallyEq ?_
    filter_upwards [hq] with t ht using ht i hi
  have hquad := quad_hasDerivAt N hsym hγ hqd
  have hband : HasDerivAt (fun t => ∑ k, wk k * (∑ x, rowDot (computeRho (c t k) (f t k)) (H t k) x).re)
      (∑ k, wk k * ((∑ x, ∑ j, R' k x j * H 0 k j x).re + (∑ x, ∑ j, R k x j * H' k j x).re)) 0 := by
    refine HasDerivAt.fun_sum fun k _ => HasDerivAt.const_mul (wk k) ?_
    simp only [Complex.re_sum]
    rw [← Finset.sum_add_distrib]
    refine HasDerivAt.fun_sum fun x _ => ?_
    have := trace_hasDerivAt (R := fun t => computeRho (c t k) (f t k)) (M := fun t => H t k)
      (hRd k) (hdH k) x
    simp only [Complex.re_sum] at this
    exact this
  refine (hband.add hquad).congr_deriv ?_
  -- the change of the charges times the potential
  have hRh : ∀ k, (R k).IsHermitian := fun k => (c20_hermitian _ _ 0).1
  have hR'h : ∀ k, (R' k).IsHermitian := fun k => rhoDer_hermitian _ _ _ _
  have hS'h : ∀ k, (S' k).IsHermitian := fun k => movedDer_hermitian _ _
  have e1 : ∑ i ∈ Finset.range N, (∑ x, if at' x = i then p' x else 0) * phi i
      = ∑ x, phi (at' x) * p' x := by
    simp only [Finset.sum_mul]
    rw [Finset.sum_comm]
    refine Finset.sum_congr rfl fun x _ => ?_
    rw [Finset.sum_eq_single (at' x)]
    · rw [if_pos rfl, mul_comm]
    · intro i _ hi
      rw [if_neg (Ne.symm hi), zero_mul]
    · intro h
      exact absurd (Finset.mem_range.2 (hat x)) h
  have e2 : ∑ x, phi (at' x) * p' x = ∑ k, wk k *
      ((∑ i, ∑ j, R' k i j * ((h1 j i : ℂ) * S 0 k j i)).re
        + (∑ i, ∑ j, R k i j * ((h1 j i : ℂ) * S' k j i)).re) := by
    simp only [hp', Finset.mul_sum]
    rw [Finset.sum_comm]
    refine Finset.sum_congr rfl fun k _ => ?_
    have m1 := mean_potential (hR'h k) (hS0 k) fun x => phi (at' x)
    have m2 := mean_potential (hRh k) (hS'h k) fun x => phi (at' x)
    have hh : ∀ i j, (phi (at' j) + phi (at' i)) / 2 = h1 j i := fun i j => (hh1 j i).symm
    simp only [hh] at m1 m2
    rw [m1, m2, ← Finset.sum_add_distrib, Finset.mul_sum]
    exact Finset.sum_congr rfl fun x _ => by ring
  have hh1s : ∀ x y, h1 x y = h1 y x := fun x y => by rw [hh1, hh1, add_comm]
  -- the Hamiltonian of the states
  have e3 : ∀ k, (∑ x, ∑ j, R' k x j * H 0 k j x).re
      + (∑ i, ∑ j, R' k i j * ((h1 j i : ℂ) * S 0 k j i)).re
      = ∑ b, f' k b * ε k b - (∑ i, ∑ j, computeRhoe (c 0 k) (f 0 k) (ε k) i j * S' k j i).re := by
    intro k
    have hF : (scfHamiltonian (some h1) (H 0 k) (S 0 k)).IsHermitian := by
      ext i j
      have a1 : star (H 0 k j i) = H 0 k i j := (hH0 k).apply i j
      have a2 : star (S 0 k j i) = S 0 k i j := (hS0 k).apply i j
      simp only [scfHamiltonian, Matrix.conjTranspose_apply, Matrix.add_apply, Matrix.of_apply,
        star_add, star_mul', a1, a2, Complex.star_def, Complex.conj_ofReal, hh1s j i]
    have hhf := hellmann_feynman (H := scfHamiltonian (some h1) (H 0 k) (S 0 k)) (S := S 0 k)
      (St := fun t => S t k) (c := fun t => c t k) (e := ε k) (f := f 0 k) (f' := f' k) rfl hF (hS0 k)
      (hs k) (by filter_upwards [hn] with t ht using ht k) (hdS k) (hcd k)
    have hre := congrArg Complex.re hhf
    rw [Complex.sub_re, ← Complex.ofReal_sum, Complex.ofReal_re] at hre
    rw [← hre, ← Complex.add_re, ← Finset.sum_add_distrib]
    congr 1
    refine Finset.sum_congr rfl fun i _ => ?_
    rw [← Finset.sum_add_distrib]
    refine Finset.sum_congr rfl fun j _ => ?_
    simp only [scfHamiltonian, Matrix.add_apply, Matrix.of_apply, mul_add]
    rfl
  -- the block of the atom
  have e4 : ∀ k, (∑ x, ∑ j, R k x j * H' k j x).re
      + (∑ i, ∑ j, R k i j * ((h1 j i : ℂ) * S' k j i)).re
      = 2 * (∑ i, if at' i = a then ∑ j, dHfull (dH k) (dS k) (some h1) i j * (R k)ᵀ i j else 0).re := by
    intro k
    rw [← trace_movedDer _ _ _ (hRh k), ← Complex.add_re, ← Finset.sum_add_distrib]
    congr 1
    refine Finset.sum_congr rfl fun i _ => ?_
    rw [← Finset.sum_add_distrib]
    refine Finset.sum_congr rfl fun j _ => ?_
    rw [← mul_add]
    congr 1
    simp only [hH', hS', movedDer, dHfull, Matrix.of_apply, map_add, map_mul, Complex.conj_ofReal,
      hh1s i j]
    by_cases hi : at' i = a <;> by_cases hj : at' j = a <;> simp only [hi, hj, if_true, if_false] <;> ring
  have e5 : ∀ k, (∑ i, ∑ j, computeRhoe (c 0 k) (f 0 k) (ε k) i j * S' k j i).re
      = 2 * (∑ i, if at' i = a then ∑ j, dS k i j * (computeRhoe (c 0 k) (f 0 k) (ε k))ᵀ i j else 0).re :=
    fun k => trace_movedDer _ _ _ (c20_hermitian _ _ _).2
  have e6 : (∑ x, if at' x = a then forceDiag wk (fun k => dHfull (dH k) (dS k) (some h1)) dS R
      (fun k => computeRhoe (c 0 k) (f 0 k) (ε k)) x else 0).re
      = -∑ k, wk k * ((∑ i, if at' i = a then ∑ j, dHfull (dH k) (dS k) (some h1) i j * (R k)ᵀ i j else 0).re
        - (∑ i, if at' i = a then ∑ j, dS k i j * (computeRhoe (c 0 k) (f 0 k) (ε k))ᵀ i j else 0).re) := by
    have : ∀ x, (if at' x = a then forceDiag wk (fun k => dHfull (dH k) (dS k) (some h1)) dS R
        (fun k => computeRhoe (c 0 k) (f 0 k) (ε k)) x else 0)
        = ∑ k, -((wk k : ℂ) * ((if at' x = a then ∑ j, dHfull (dH k) (dS k) (some h1) x j * (R k)ᵀ x j else 0)
          - (if at' x = a then ∑ j, dS k x j * (computeRhoe (c 0 k) (f 0 k) (ε k))ᵀ x j else 0))) := by
      intro x
      by_cases hx : at' x = a
      · simp only [if_pos hx, forceDiag, Finset.sum_sub_distrib]
      · simp only [if_neg hx, sub_zero, mul_zero, neg_zero, Finset.sum_const_zero]
    simp only [this]
    rw [Finset.sum_comm, Complex.re_sum, ← Finset.sum_neg_distrib]
    refine Finset.sum_congr rfl fun k _ => ?_
    rw [Finset.sum_neg_distrib, ← Finset.mul_sum, Complex.neg_re, Complex.re_ofReal_mul,
      Finset.sum_sub_distrib, Complex.sub_re]
  rw [e6]
  have hphi' : ∀ i, ∑ j ∈ Finset.range N, γ 0 i j * q 0 j = phi i := fun i => rfl
  simp only [hphi']
  rw [e1, e2]
  have e7 : ∀ k, wk k * ((∑ x, ∑ j, R' k x j * H 0 k j x).re + (∑ x, ∑ j, R k x j * H' k j x).re)
      + wk k * ((∑ i, ∑ j, R' k i j * ((h1 j i : ℂ) * S 0 k j i)).re
        + (∑ i, ∑ j, R k i j * ((h1 j i : ℂ) * S' k j i)).re)
      = wk k * ∑ b, f' k b * ε k b + 2 * (wk k * ((∑ i, if at' i = a then
          ∑ j, dHfull (dH k) (dS k) (some h1) i j * (R k)ᵀ i j else 0).re
        - (∑ i, if at' i = a then ∑ j, dS k i j * (computeRhoe (c 0 k) (f 0 k) (ε k))ᵀ i j else 0).re)) := by
    intro k
    have a3 := e3 k
    have a4 := e4 k
    have a5 := e5 k
    linear_combination (wk k) * a3 + (wk k) * a4 - (wk k) * a5
  have e8 := Finset.sum_congr (rfl : (Finset.univ : Finset (Fin nk)) = Finset.univ) fun k _ => e7 k
  rw [Finset.sum_add_distrib, Finset.sum_add_distrib, ← Finset.mul_sum] at e8
  linear_combination e8

end Hotbit
