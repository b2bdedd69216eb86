import Verif.Lemmas.Eigen

/-!
# C121: the states at the k-points

* `c121_lapack` – the promises of the LAPACK routine can be kept.
* `c121_states_partial` – two or more orbitals: `diagonalize` returns the states and leaves the
  overlap matrix alone.
* `c121_unique` – the energies are determined by the matrices.
* `c121_all` – so it is at all k-points, with and without electrostatic part.
* `c121_norm` – whatever is returned, the norms are one up to the tolerance.
* `c121_single_fails` – one orbital: the overlap matrix is replaced by its square root, and an error
  is raised although there is nothing wrong with the matrices.
* `c121_indefinite_fails` – an overlap matrix that is not positive definite is not always noticed;
  uninitialised memory is returned as energies.
-/

namespace Hotbit

open Matrix
open scoped ComplexOrder

variable {n : ℕ}

/-- There is a routine that keeps the promises of `zhegvd`. -/
theorem c121_lapack (n : ℕ) : ∃ L : Lapack n, L.Ok := by
  classical
  refine ⟨⟨fun H S => if h : H.IsHermitian ∧ S.PosDef then
    some (Classical.choose (states_exist H S h.1 h.2),
      Classical.choose (Classical.choose_spec (states_exist H S h.1 h.2))) else none, 0⟩, ?_, ?_⟩
  · intro H S hH hS
    exact ⟨_, _, dif_pos ⟨hH, hS⟩,
      Classical.choose_spec (Classical.choose_spec (states_exist H S hH hS))⟩
  · intro H S _ _ hS
    exact dif_neg fun h => hS h.2

theorem geig_some (L : Lapack n) (H S : CMat n) (r : (Fin n → ℝ) × CMat n)
    (h : L.run H S = some r) :
    geig L H S = (r, if n = 1 then of fun i j => ((√(S i j).re : ℝ) : ℂ) else S) := by
  unfold geig
  simp only [h, Option.getD_some, Option.isSome_some, and_true]
  rfl

theorem stateNorm_eq (wf S : CMat n) (a : Fin n) :
    stateNorm wf S a = ∑ i, ∑ j, (starRingEnd ℂ) (wf a i) * S i j * wf a j := by
  unfold stateNorm
  rw [Finset.sum_comm]
  exact Finset.sum_congr rfl fun j _ => Finset.sum_mul _ _ _

/-- With at least two orbitals, a Hermitian Hamiltonian and a positive definite overlap, the states
are returned and the overlap matrix is unchanged.  Missing: a single orbital, see
`c121_single_fails`. -/
theorem c121_states_partial (hn : 2 ≤ n) (L : Lapack n) (hL : L.Ok) (tol : ℝ) (ht : 0 ≤ tol)
    (H S : CMat n) (hH : H.IsHermitian) (hS : S.PosDef) :
    ∃ e wf, diagonalize L tol H S = (.ok (e, wf), S) ∧ AreStates H S e wf := by
  obtain ⟨e, Z, h1, h2, h3, h4⟩ := hL.solves H S hH hS
  have st := (areStates_iff H S e Z).2 ⟨h2, h3, h4⟩
  refine ⟨e, Zᵀ, ?_, st⟩
  have hg : geig L H S = ((e, Z), S) := by
    rw [geig_some L H S _ h1, if_neg (by omega)]
  unfold diagonalize
  simp only [hg]
  rw [if_neg (by omega), if_neg]
  rintro ⟨a, ha⟩
  have := st.orthonormal a a
  rw [← stateNorm_eq, if_pos rfl] at this
  rw [this, sub_self, norm_zero] at ha
  linarith

/-- The energies are determined by the Hamiltonian and the overlap. -/
theorem c121_unique (H S : CMat n) (e e' : Fin n → ℝ) (wf wf' : CMat n)
    (h : AreStates H S e wf) (h' : AreStates H S e' wf') : e = e' := by
  have k := (areStates_iff H S e wfᵀ).1 (by rwa [transpose_transpose])
  have k' := (areStates_iff H S e' wf'ᵀ).1 (by rwa [transpose_transpose])
  exact states_unique k.1 k'.1 k.2.1 k.2.2 k'.2.1 k'.2.2

/-- The electrostatic part keeps the Hamiltonian Hermitian. -/
theorem scfHamiltonian_hermitian (H1 : Option (Fin n → Fin n → ℝ))
    (h1 : ∀ h, H1 = some h → ∀ i j, h i j = h j i) (H0 S : CMat n) (hH : H0.IsHermitian)
    (hS : S.IsHermitian) : (scfHamiltonian H1 H0 S).IsHermitian := by
  cases H1 with
  | none => exact hH
  | some h =>
    refine hH.add ?_
    ext i j
    have := hS.apply i j
    simp only [conjTranspose_apply, of_apply, RCLike.star_def, map_mul, Complex.conj_ofReal]
    rw [h1 h rfl j i]
    congr 1

/-- All k-points: the states of `H0 + h1 S` (entry by entry) at each of them, in order. -/
theorem c121_all (hn : 2 ≤ n) (L : Lapack n) (hL : L.Ok) (tol : ℝ) (ht : 0 ≤ tol)
    (H1 : Option (Fin n → Fin n → ℝ)) (h1 : ∀ h, H1 = some h → ∀ i j, h i j = h j i)
    (Ms : List (CMat n × CMat n)) (hM : ∀ M ∈ Ms, M.1.IsHermitian ∧ M.2.PosDef) :
    ∃ r, solveAll L tol H1 Ms = .ok r ∧ List.Forall₂
      (fun M x => AreStates (scfHamiltonian H1 M.1 M.2) M.2 x.1 x.2) Ms r := by
  induction Ms with
  | nil => exact ⟨[], rfl, .nil⟩
  | cons M Ms ih =>
    obtain ⟨r, h, hr⟩ := ih fun X hX => hM X (List.mem_cons_of_mem _ hX)
    obtain ⟨hH, hS⟩ := hM M List.mem_cons_self
    obtain ⟨e, wf, hd, hst⟩ := c121_states_partial hn L hL tol ht _ M.2
      (scfHamiltonian_hermitian H1 h1 M.1 M.2 hH hS.isHermitian) hS
    refine ⟨(e, wf) :: r, ?_, .cons hst hr⟩
    rw [solveAll, hd, h]
    rfl

/-- Whatever states are returned, their norms are one up to the tolerance, with respect to the
overlap matrix as it is afterwards. -/
theorem c121_norm (L : Lapack n) (tol : ℝ) (H S S' : CMat n) (e : Fin n → ℝ) (wf : CMat n)
    (h : diagonalize L tol H S = (.ok (e, wf), S')) (a : Fin n) :
    ‖(∑ i, ∑ j, (starRingEnd ℂ) (wf a i) * S' i j * wf a j) - 1‖ ≤ tol := by
  unfold diagonalize at h
  simp only at h
  by_cases h0 : n = 0
  · rw [if_pos h0] at h
    cases (Prod.mk.injEq .. ▸ h).1
  by_cases h1 : ∃ a, tol < ‖stateNorm (geig L H S).1.2ᵀ (geig L H S).2 a - 1‖
  · rw [if_neg h0, if_pos h1] at h
    cases (Prod.mk.injEq .. ▸ h).1
  rw [if_neg h0, if_neg h1] at h
  simp only [Prod.mk.injEq, Except.ok.injEq] at h
  obtain ⟨⟨rfl, rfl⟩, rfl⟩ := h
  rw [← stateNorm_eq]
  exact not_lt.1 fun k => h1 ⟨a, k⟩

/-- One orbital with overlap `s`: the caller's overlap matrix is replaced by `√s`, and unless `√s` is
one up to the tolerance the result is an `AssertionError`. -/
theorem c121_single_fails (L : Lapack 1) (hL : L.Ok) (tol : ℝ) (h s : ℝ) (hs : 0 < s)
    (htol : tol < |1 / √s - 1|) :
    (∃ e wf, AreStates (n := 1) (of fun _ _ => (h : ℂ)) (of fun _ _ => (s : ℂ)) e wf) ∧
    diagonalize L tol (of fun _ _ => (h : ℂ)) (of fun _ _ => (s : ℂ)) =
      (.error .assertionError, of fun _ _ => ((√s : ℝ) : ℂ)) := by
  set H : CMat 1 := of fun _ _ => (h : ℂ)
  set S : CMat 1 := of fun _ _ => (s : ℂ)
  have hH : H.IsHermitian := by ext i j; simp [H]
  have hSd : S = diagonal fun _ => (s : ℂ) := by
    ext i j
    rw [Subsingleton.elim j i, diagonal_apply_eq]
    rfl
  have hS : S.PosDef := by
    rw [hSd, posDef_diagonal_iff]
    intro _
    exact_mod_cast hs
  obtain ⟨e, Z, h1, h2, h3, h4⟩ := hL.solves H S hH hS
  have st := (areStates_iff H S e Z).2 ⟨h2, h3, h4⟩
  refine ⟨⟨e, Zᵀ, st⟩, ?_⟩
  have hg : geig L H S = ((e, Z), of fun _ _ => ((√s : ℝ) : ℂ)) := by
    rw [geig_some L H S _ h1, if_pos rfl]
    rfl
  have hn := st.orthonormal 0 0
  have hq : 0 < √s := Real.sqrt_pos.2 hs
  have hss : √s * √s = s := Real.mul_self_sqrt hs.le
  have hnorm : stateNorm Zᵀ (of fun _ _ => ((√s : ℝ) : ℂ)) 0 = ((1 / √s : ℝ) : ℂ) := by
    rw [stateNorm_eq]
    simp only [Fin.sum_univ_one, if_true, S, of_apply] at hn ⊢
    have hsc : ((√s : ℝ) : ℂ) * ((√s : ℝ) : ℂ) = (s : ℂ) := by exact_mod_cast hss
    have hqc : ((√s : ℝ) : ℂ) ≠ 0 := by exact_mod_cast hq.ne'
    rw [← hsc] at hn
    push_cast
    rw [eq_div_iff hqc, ← hn]
    ring
  unfold diagonalize
  simp only [hg]
  rw [if_neg (by norm_num), if_pos]
  refine ⟨0, ?_⟩
  rw [hnorm, ← Complex.ofReal_one, ← Complex.ofReal_sub, Complex.norm_real]
  exact htol

/-- A chain of equal atoms with one orbital each: overlap 1.5 at the zone centre. -/
example : (1e-6 : ℝ) < |1 / √1.5 - 1| := by
  have h1 : (1.2 : ℝ) < √1.5 := Real.lt_sqrt_of_sq_lt (by norm_num)
  have h2 : 1 / √1.5 < 1 / 1.2 := one_div_lt_one_div_of_lt (by norm_num) h1
  rw [abs_of_neg (by norm_num at h2 ⊢; linarith)]
  norm_num at h2 ⊢
  linarith

/-- An overlap matrix that is not positive definite: no error is raised, the energies are what the
memory happened to hold, and there are no states. -/
theorem c121_indefinite_fails (L : Lapack 2) (hL : L.Ok) (tol : ℝ) (ht : 0 ≤ tol) :
    diagonalize L tol 1 !![1, 2; 2, 1] = (.ok (L.junk, 1), !![1, 2; 2, 1]) ∧
    ∀ e wf, ¬ AreStates 1 (!![1, 2; 2, 1] : CMat 2) e wf := by
  have no : ∀ e wf, ¬ AreStates 1 (!![1, 2; 2, 1] : CMat 2) e wf := by
    intro e wf h
    have k := (areStates_iff _ _ e wfᵀ).1 (by rwa [transpose_transpose])
    have d := congrArg Matrix.det k.2.1
    rw [det_mul, det_mul, det_conjTranspose, det_one, det_fin_two_of] at d
    have d2 : -3 * Complex.normSq (wfᵀ).det = 1 := by
      have : star (wfᵀ).det * (1 * 1 - 2 * 2) * (wfᵀ).det
          = ((-3 * Complex.normSq (wfᵀ).det : ℝ) : ℂ) := by
        rw [RCLike.star_def]
        push_cast
        rw [Complex.normSq_eq_conj_mul_self]
        ring
      rw [this] at d
      exact_mod_cast d
    have := Complex.normSq_nonneg (wfᵀ).det
    linarith
  refine ⟨?_, no⟩
  have hherm : (!![1, 2; 2, 1] : CMat 2).IsHermitian := by
    ext i j; fin_cases i <;> fin_cases j <;> simp [conjTranspose_apply]
  have hr : L.run 1 !![1, 2; 2, 1] = none := by
    refine hL.refuses _ _ (isHermitian_one) hherm fun hp => ?_
    obtain ⟨e, Z, h⟩ := states_exist 1 _ isHermitian_one hp
    exact no e Zᵀ ((areStates_iff _ _ _ _).2 h)
  have hg : geig L 1 !![1, 2; 2, 1] = ((L.junk, 1), !![1, 2; 2, 1]) := by
    unfold geig
    rw [hr]
    rfl
  unfold diagonalize
  simp only [hg]
  rw [if_neg (by norm_num), if_neg, transpose_one]
  rintro ⟨a, ha⟩
  have : stateNorm (1 : CMat 2)ᵀ !![1, 2; 2, 1] a = 1 := by
    fin_cases a <;> simp [stateNorm, Fin.sum_univ_two]
  rw [this, sub_self, norm_zero] at ha
  linarith

/-- A two-orbital problem meeting the hypotheses of `c121_states_partial`. -/
example : (!![1, 2; 2, -3] : CMat 2).IsHermitian ∧ (diagonal ![4, 1] : CMat 2).PosDef := by
  refine ⟨?_, ?_⟩
  · ext i j; fin_cases i <;> fin_cases j <;> simp [conjTranspose_apply]
  · rw [posDef_diagonal_iff]
    intro i; fin_cases i <;> simp

end Hotbit
