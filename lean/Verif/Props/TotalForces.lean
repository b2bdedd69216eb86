import Verif.Lemmas.TotalPath

/-!
# C124: the forces are minus the gradient of the energy
-/

set_option linter.unusedSimpArgs false

namespace Hotbit

open Matrix

variable {P : ScfIn} {A : Atoms} {elements : String → Option ElementData} {σ : Op → Op}

theorem AreStates.solutions {n : ℕ} {H S : CMat n} {e : Fin n → ℝ} {wf : CMat n} (h : AreStates H S e wf) :
    Solutions H S e wf := ⟨h.orthonormal, h.solve⟩

/-- The correction to the Hamiltonian, zero without SCC. -/
noncomputable def ScfRun.h1z (r : ScfRun P) (N : ℕ) : Fin P.t.norb → Fin P.t.norb → ℝ := fun x y =>
  if P.scc then constructH1 P.t N (r.epsilon N) (fun _ => 0) x y else 0

theorem ham_h1z (r : ScfRun P) (N : ℕ) (H S : CMat P.t.norb) :
    scfHamiltonian (r.h1 N) H S = scfHamiltonian (some (r.h1z N)) H S := by
  unfold ScfRun.h1 ScfRun.h1z scfHamiltonian
  cases P.scc
  · ext i j
    simp
  · rfl

theorem dH_h1z (r : ScfRun P) (N : ℕ) (H S : CMat P.t.norb) :
    dHfull H S (r.h1 N) = dHfull H S (some (r.h1z N)) := by
  unfold ScfRun.h1 ScfRun.h1z dHfull
  cases P.scc
  · ext i j
    simp
  · rfl

theorem h1z_hermitian (r : ScfRun P) (N : ℕ) {H S : CMat P.t.norb} (hH : H.IsHermitian)
    (hS : S.IsHermitian) : (scfHamiltonian (r.h1 N) H S).IsHermitian := by
  rw [ham_h1z]
  unfold scfHamiltonian
  refine hH.add ?_
  ext i j
  rw [Matrix.conjTranspose_apply]
  simp only [Matrix.of_apply, star_mul']
  have e1 : star (S j i) = S i j := hS.apply i j
  have e2 : r.h1z N j i = r.h1z N i j := by
    unfold ScfRun.h1z
    cases P.scc
    · rfl
    · exact c28_symmetric _ _ _ _ _ _
  rw [e1, e2]
  simp

/-- Hermitian matrices, near the start of the path. -/
theorem hermitian_eventually (hfit : Fits P A elements) (hsm : Smooth P A σ) {a : ℕ}
    (ha : a < A.positions.length) (v : Vec) (r : ℝ → ScfRun P)
    (hr : ∀ᶠ t in nhds (0 : ℝ), Converged P (displace A a (P.bohr • v) t) (r t)) :
    ∀ᶠ t in nhds (0 : ℝ), ∀ k, ((r t).H0 k).IsHermitian ∧ ((r t).S k).IsHermitian := by
  have ha' : a < A.atoms.length := by simpa [Atoms.positions] using ha
  filter_upwards [hr, input_eventually hsm.closed.commuting hfit.units.ne' ha' v hsm.images] with t ht hi k
  have h1 := ht.mats k
  rw [hi.1] at h1
  refine flatten_hermitian (σ := σ) h1 ?_ ?_
    (displace_inversePairs (hsm.pairs k) hsm.inverse.rot_zero a (t • v)) ?_ ?_
  · exact hsm.inverse.idFirst
  · exact hsm.follow
  · intro i hi'
    exact hsm.parity i (by rw [show A.positions.length = A.atoms.length by simp [Atoms.positions]]; exact hi')
  · intro x
    obtain ⟨h2, h3, -⟩ := hfit.numAt x
    exact ⟨by rw [show A.positions.length = A.atoms.length by simp [Atoms.positions]] at h2; exact h2, h3⟩

/-- The excess population of atom `i`. -/
theorem dq_eq (hfit : Fits P A elements) {rho S : Fin P.nk → CMat P.t.norb} {dq : List ℝ}
    (h : mulliken P.wk rho S P.t.blocks P.val P.charge P.tol = .ok dq) {i : ℕ}
    (hi : i < A.positions.length) :
    chg dq i = (∑ x : Fin P.t.norb, if P.t.atomAt x = i then mullikenDiag P.wk rho S x else 0)
      - P.val.getD i 0 := by
  have hN : A.symbols.length = A.positions.length := by simp [Atoms.symbols, Atoms.positions]
  have hl := blocks_length elements A.symbols P.t hfit.orbitals
  unfold mulliken at h
  dsimp only at h
  split at h
  · cases h
  · cases h
    have h1 : i < P.t.blocks.length := by omega
    have h2 : i < P.val.length := by rw [hfit.valences]; exact hi
    rw [← block_sum_atom hfit.orbitals _ i _ (List.getElem?_eq_getElem h1)]
    simp [chg, List.getD_eq_getElem?_getD, List.getElem?_zipWith, h1, h2]

/-- The energy as a number. -/
theorem energy_ok {r : ScfRun P} {A : Atoms} {E : ℝ} (h : r.energy A = .ok E) :
    E = (∑ k, P.wk k * (∑ x, rowDot (r.rho k) (r.H0 k) x).re) * P.hartree
      + coulombEnergy P.scc A.positions.length (chg r.dq) (r.epsilon A.positions.length) * P.hartree
      + repEnergyOf (P.geom A) P.V P.rmax P.hartree - P.efree * P.hartree := by
  unfold ScfRun.energy at h
  simp only [Bind.bind, Except.bind] at h
  unfold bandEnergy at h
  dsimp only at h
  by_cases hi : (∑ k, (P.wk k : ℂ) * ∑ i, rowDot (r.rho k) (r.H0 k) i).im < P.tolIm
  · rw [if_pos hi] at h
    dsimp only at h
    unfold repEnergyOf
    cases hE : repEnergy (P.geom A) P.V P.rmax P.hartree with
    | error e => rw [hE] at h; cases h
    | ok e =>
      rw [hE] at h
      cases h
      dsimp only
      congr 4
      rw [Complex.re_sum]
      refine Finset.sum_congr rfl fun k _ => ?_
      rw [Complex.re_ofReal_mul]
  · rw [if_neg hi] at h
    cases h

theorem deriv_core (hfit : Fits P A elements) (hsm : Smooth P A σ) {a : ℕ}
    (ha : a < A.positions.length) (c : Fin 3) (r : ℝ → ScfRun P)
    (hr : ∀ᶠ t in nhds (0 : ℝ), Converged P (displace A a (P.bohr • Pi.single c 1) t) (r t))
    {ε : ℝ → Fin P.nk → Fin P.t.norb → ℝ} (hst : SmoothStates A.positions.length r ε) {E : ℝ → ℝ}
    (hE : ∀ᶠ t in nhds (0 : ℝ), (r t).energy (displace A a (P.bohr • Pi.single c 1) t) = .ok (E t)) :
    HasDerivAt E (-((r 0).force A a c * P.bohr) + P.hartree * ∑ k, P.wk k * ∑ b,
      deriv (fun t => fermi P.width (r t).mu (ε t k b)) 0 * ε 0 k b) 0 := by
  obtain ⟨⟨cs, hsol, hcd⟩, hεd, hmud, hmax⟩ := hst
  set N := A.positions.length with hN
  set D : ℝ → Atoms := fun t => displace A a (P.bohr • Pi.single c 1) t with hD
  have hD0 : D 0 = A := displace_zero _ _ _
  have hDN : ∀ t, (D t).positions.length = N := fun t => displace_length _ _ _ _
  have hNa : A.positions.length = A.atoms.length := by simp [Atoms.positions]
  have ha' : a < A.atoms.length := by rw [← hNa]; exact ha
  have hher := hermitian_eventually hfit hsm ha (Pi.single c 1) r hr
  have hr0 : Converged P A (r 0) := by have := hr.self_of_nhds; rwa [displace_zero] at this
  have hfd : ∀ t, Fits P (D t) elements := fun t =>
    { orbitals := by rw [hD]; dsimp only; rw [displace_symbols]; exact hfit.orbitals
      numbers := fun i hi => hfit.numbers i (by rw [hDN] at hi; exact hi)
      valences := by rw [hDN]; exact hfit.valences
      units := hfit.units }
  -- the code's density matrices are those of the smooth states
  have hrho : ∀ᶠ t in nhds (0 : ℝ), ∀ k,
      (r t).rho k = computeRho (cs t k) (fun b => fermi P.width (r t).mu (ε t k b)) := by
    filter_upwards [hr, hher, hsol] with t h1 h2 h3 k
    have h4 := (h1.states k).solutions
    rw [hDN] at h4
    exact rho_unique (h1z_hermitian (r t) N (h2 k).1 (h2 k).2) (h2 k).2 h4 (h3 k)
      (fermi P.width (r t).mu)
  have hrhoe : ∀ k, (r 0).rhoe k
      = computeRhoe (cs 0 k) (fun b => fermi P.width (r 0).mu (ε 0 k b)) (ε 0 k) := by
    intro k
    have h2 := hher.self_of_nhds k
    have h4 := (hr0.states k).solutions
    have := rho_unique (h1z_hermitian (r 0) N h2.1 h2.2) h2.2 h4 (hsol.self_of_nhds k)
      (fun e => e * fermi P.width (r 0).mu e)
    unfold ScfRun.rhoe
    rw [computeRhoe_eq, computeRhoe_eq]
    exact this
  set f : ℝ → Fin P.nk → Fin P.t.norb → ℝ := fun t k b => fermi P.width (r t).mu (ε t k b) with hf
  have hfder : ∀ k b, HasDerivAt (fun t => f t k b) (deriv (fun t => f t k b) 0) 0 := fun k b =>
    (fermi_differentiable hmud (hεd k b) (hmax k b)).hasDerivAt
  set Q : ℝ → ℕ → ℝ := fun t i => (∑ x : Fin P.t.norb, if P.t.atomAt x = i then
    mullikenDiag P.wk (fun k => computeRho (cs t k) (f t k)) ((r t).S) x else 0) - P.val.getD i 0 with hQ
  have hdq : ∀ᶠ t in nhds (0 : ℝ), P.scc = true → ∀ i < N, chg (r t).dq i = Q t i := by
    filter_upwards [hr, hrho] with t h1 h2 hscc i hi
    have h3 : (r t).rho = fun k => computeRho (cs t k) (f t k) := funext h2
    rw [dq_eq (hfd t) (h1.charges hscc) (by rw [hDN]; exact hi), h3]
  set γ : ℝ → ℕ → ℕ → ℝ := fun t i j => if P.scc then gam P.cd P.bohr P.U P.w P.gcut (D t) i j else 0
    with hγ
  have hclus : P.scc = true → P.gcut.isSome ∨ A.isCluster = true := fun hscc =>
    (esState_eq _ _ _ _ _ _ _ _ _ _ (hr0.potential hscc).1).2.2.2
  have hγd : ∀ i < N, ∀ j < N, HasDerivAt (fun t => γ t i j) (deriv (fun t => γ t i j) 0) 0 := by
    intro i hi j hj
    refine DifferentiableAt.hasDerivAt ?_
    by_cases hscc : P.scc = true
    · simp only [hγ, hscc, if_true]
      exact gam_differentiable hfit.units hsm.cutoff A hsm.closed (hclus hscc) hsm.coulomb ha _ hi hj
    · simp only [hγ, hscc]
      exact differentiableAt_const _
  have hγs : ∀ i < N, ∀ j < N, γ 0 i j = γ 0 j i := by
    intro i _ j _
    by_cases hscc : P.scc = true
    · simp only [hγ, hscc, if_true, hD0]
      exact gam_symm A hsm.closed (hclus hscc) i j
    · simp only [hγ, hscc]
      rfl
  have heps : ∀ᶠ t in nhds (0 : ℝ), P.scc = true → ∀ i < N,
      (r t).epsilon N i = ∑ j ∈ Finset.range N, γ t i j * Q t j := by
    filter_upwards [hr, hdq] with t h1 h2 hscc i hi
    obtain ⟨h3, h4, -⟩ := h1.potential hscc
    have := epsilon_gam h3 h4 (i := i) (by rw [hDN]; exact hi)
    rw [hDN] at this
    unfold ScfRun.epsilon
    rw [this]
    refine Finset.sum_congr rfl fun j hj => ?_
    rw [h2 hscc j (Finset.mem_range.1 hj)]
    simp only [hγ, hscc, if_true]
    rfl
  have hh1 : ∀ x y, (r 0).h1z N x y = (∑ j ∈ Finset.range N, γ 0 (P.t.atomAt x) j * Q 0 j
      + ∑ j ∈ Finset.range N, γ 0 (P.t.atomAt y) j * Q 0 j) / 2 := by
    intro x y
    unfold ScfRun.h1z
    by_cases hscc : P.scc = true
    · rw [if_pos hscc, ← heps.self_of_nhds hscc _ (hfit.numAt x).1,
        ← heps.self_of_nhds hscc _ (hfit.numAt y).1]
      obtain ⟨-, -, -, -, -, -, hx, -⟩ := orb_at hfit.orbitals x
      obtain ⟨-, -, -, -, -, -, hy, -⟩ := orb_at hfit.orbitals y
      have hNs : A.symbols.length = N := by rw [hN, hNa]; simp [Atoms.symbols]
      have := (c28_element elements A.symbols P.t hfit.orbitals ((r 0).epsilon N) (fun _ => 0) x y _ _
        hx hy).2 (fun i _ => by simp; norm_num)
      rw [hNs] at this
      exact this
    · rw [if_neg hscc]
      simp only [hγ, hscc]
      simp
  -- the derivatives of the matrices
  have hmat : ∀ (K : Comp) (k : Fin P.nk) (x y : Fin P.t.norb),
      HasDerivAt (fun t => P.t.flat (K.get ((r t).st k)) x y)
        (movedDer (fun x : Fin P.t.norb => P.t.atomAt x = a) (P.t.flat (K.getD ((r 0).st k) c)) x y) 0 := by
    intro K k x y
    obtain ⟨x1, x2, x3⟩ := hfit.numAt x
    obtain ⟨y1, y2, y3⟩ := hfit.numAt y
    have h1 := el_hasDerivAt K (hr0.mats k) hsm.inverse.idFirst
      (fun i hi => (hfit.numbers i (by rw [hNa]; exact hi)).2) hsm.follow hsm.inverse.rot_zero (hsm.pairs k)
      (fun i hi => hsm.parity i (by rw [hNa]; exact hi))
      (fun i j hij hj => hsm.tables i j hij (by rw [hNa]; exact hj)) a c
      (i := P.t.atomAt x) (j := P.t.atomAt y) (by rw [hNa] at x1; exact x1)
      (by rw [hNa] at y1; exact y1) x2 y2
    refine (h1.congr_of_eventuallyEq ?_).congr_deriv ?_
    · filter_upwards [hr, input_eventually hsm.closed.commuting hfit.units.ne' ha' (Pi.single c 1)
        hsm.images] with t h2 h3
      have h4 := h2.mats k
      rw [h3.1] at h4
      rw [elOf_ok K h4]
      rfl
    · rfl
  have core := total_core P.wk (fun t k => (r t).H0 k) (fun t k => (r t).S k) cs f
    (fun k b => deriv (fun t => f t k b) 0) (ε 0) (fun x : Fin P.t.norb => P.t.atomAt x) N a
    (fun x => (hfit.numAt x).1) γ (fun i j => deriv (fun t => γ t i j) 0) Q (fun i => P.val.getD i 0)
    ((r 0).h1z N) (fun k => (r 0).dH0 c k) (fun k => (r 0).dS c k) hγs hγd
    (Filter.Eventually.of_forall fun t i _ => rfl) hh1 (fun k => (hher.self_of_nhds k).1)
    (fun k => (hher.self_of_nhds k).2)
    (fun k => by have := hsol.self_of_nhds k; rwa [ham_h1z] at this)
    (by
      filter_upwards [hsol] with t ht k b
      have := (ht k).orthonormal b b
      rw [if_pos rfl] at this
      exact this)
    (hmat .H) (hmat .S) hcd hfder
  have hrep := c31_gradient (hartree := P.hartree) hsm.inverse hsm.symmetric hsm.repulsion (a := a)
    (by exact ha') (Pi.single c 1)
  -- the energy
  have hval : E =ᶠ[nhds 0] fun t => (∑ k, P.wk k * (∑ x, rowDot (computeRho (cs t k) (f t k))
        ((r t).H0 k) x).re + (∑ i ∈ Finset.range N, ∑ j ∈ Finset.range N, Q t i * γ t i j * Q t j) / 2)
        * P.hartree
      + repEnergyOf ((P.geom A).displace a (t • Pi.single c 1)) P.V P.rmax P.hartree
      - P.efree * P.hartree := by
    filter_upwards [hE, hrho, hdq, heps, input_eventually hsm.closed.commuting hfit.units.ne' ha'
      (Pi.single c 1) hsm.images] with t h1 h2 h3 h4 h5
    rw [energy_ok h1, h5.2, displace_length, ← hN]
    have e1 : coulombEnergy P.scc N (chg (r t).dq) ((r t).epsilon N)
        = (∑ i ∈ Finset.range N, ∑ j ∈ Finset.range N, Q t i * γ t i j * Q t j) / 2 := by
      unfold coulombEnergy
      by_cases hscc : P.scc = true
      · rw [if_pos hscc]
        have : ∀ i ∈ Finset.range N, chg (r t).dq i * (r t).epsilon N i
            = ∑ j ∈ Finset.range N, Q t i * γ t i j * Q t j := by
          intro i hi
          have hi := Finset.mem_range.1 hi
          rw [h3 hscc i hi, h4 hscc i hi, Finset.mul_sum]
          exact Finset.sum_congr rfl fun j _ => by ring
        rw [Finset.sum_congr rfl this]
        ring
      · rw [if_neg hscc]
        simp only [hγ, hscc]
        simp
    rw [e1]
    simp only [h2]
    ring
  refine (((core.mul_const P.hartree).add hrep).sub_const (P.efree * P.hartree)
    |>.congr_of_eventuallyEq hval).congr_deriv ?_
  -- the electrostatic force
  have hcoul : (∑ i ∈ Finset.range N, ∑ j ∈ Finset.range N, Q 0 i * deriv (fun t => γ t i j) 0 * Q 0 j) / 2
      = - gammaForces P.scc N (r 0).dG P.bohr (fun i => (r 0).field.getD i 0) (chg (r 0).dq) a c := by
    by_cases hscc : P.scc = true
    · obtain ⟨h3, h4, h5⟩ := hr0.potential hscc
      obtain ⟨Ec, h6, h7⟩ := c28_force_gradient P.cd P.bohr hfit.units P.U P.w P.gcut hsm.cutoff A
        hsm.closed hsm.coulomb (r 0).dq _ ⟨_, _, _, _, h3, h5, rfl⟩ a ha (Pi.single c 1)
      have h8 : HasDerivAt (fun t => (∑ i ∈ Finset.range N, ∑ j ∈ Finset.range N,
          Q 0 i * γ t i j * Q 0 j) / 2) ((∑ i ∈ Finset.range N, ∑ j ∈ Finset.range N,
          Q 0 i * deriv (fun t => γ t i j) 0 * Q 0 j) / 2) 0 := by
        refine HasDerivAt.div_const (HasDerivAt.fun_sum fun i hi => HasDerivAt.fun_sum fun j hj => ?_) _
        exact ((hγd i (Finset.mem_range.1 hi) j (Finset.mem_range.1 hj)).const_mul _).mul_const _
      have h9 : Ec = fun t => (∑ i ∈ Finset.range N, ∑ j ∈ Finset.range N,
          Q 0 i * γ t i j * Q 0 j) / 2 := by
        funext t
        rw [esEnergy_gam (h6 t), displace_length, ← hN]
        congr 1
        refine Finset.sum_congr rfl fun i hi => Finset.sum_congr rfl fun j hj => ?_
        rw [hdq.self_of_nhds hscc i (Finset.mem_range.1 hi), hdq.self_of_nhds hscc j (Finset.mem_range.1 hj)]
        simp only [hγ, hscc, if_true, hD]
      rw [h9] at h7
      rw [h8.unique h7, hscc, ← hN]
      simp [dotProduct, Pi.single_apply]
    · simp only [hγ, hscc]
      simp [gammaForces]
  -- the band-structure force
  have hband : (bandForces P.wk (fun k => dHfull ((r 0).dH0 c k) ((r 0).dS c k) ((r 0).h1 N)) ((r 0).dS c)
      (r 0).rho (r 0).rhoe P.t.blocks).getD a 0
      = 2 * (∑ x : Fin P.t.norb, if P.t.atomAt x = a then forceDiag P.wk
          (fun k => dHfull ((r 0).dH0 c k) ((r 0).dS c k) (some ((r 0).h1z N))) (fun k => (r 0).dS c k)
          (fun k => computeRho (cs 0 k) (f 0 k)) (fun k => computeRhoe (cs 0 k) (f 0 k) (ε 0 k)) x
            else 0).re := by
    have hl := blocks_length elements A.symbols P.t hfit.orbitals
    have hNs : A.symbols.length = N := by rw [hN, hNa]; simp [Atoms.symbols]
    have h1 : a < P.t.blocks.length := by rw [hl, hNs]; exact ha
    unfold bandForces
    rw [List.getD_eq_getElem?_getD, List.getElem?_map, List.getElem?_eq_getElem h1, Option.map_some,
      Option.getD_some, block_sum_atom hfit.orbitals _ a _ (List.getElem?_eq_getElem h1)]
    have e1 : (r 0).rho = fun k => computeRho (cs 0 k) (f 0 k) := funext hrho.self_of_nhds
    have e2 : (r 0).rhoe = fun k => computeRhoe (cs 0 k) (f 0 k) (ε 0 k) := funext hrhoe
    rw [e1, e2]
    simp only [dH_h1z]
  unfold ScfRun.force
  dsimp only
  rw [← hN, hband, hcoul]
  have hb := hfit.units.ne'
  have e3 : repForces (P.geom A) P.V P.rmax a ⬝ᵥ Pi.single c 1 = repForces (P.geom A) P.V P.rmax a c := by
    simp [dotProduct, Pi.single_apply]
  rw [e3]
  field_simp
  ring

theorem moved_scaled (A : Atoms) (a : ℕ) (c : Fin 3) (b t : ℝ) :
    displace A a (b • Pi.single c 1) t = moved A a c (b * t) := by
  unfold moved displace
  simp only [smul_smul, mul_comm]

theorem tendsto_scaled (b : ℝ) : Filter.Tendsto (fun t : ℝ => b * t) (nhds 0) (nhds 0) := by
  have : Continuous fun t : ℝ => b * t := by fun_prop
  simpa using this.tendsto 0

/-- **C124 (energy).** Let the atoms be in a smooth geometry and `r` be the converged calculations
when a coordinate of an atom varies. The reported energy changes at the rate minus the reported force
plus the energy of the electrons that change their level. -/
theorem c124_energy_partial (hfit : Fits P A elements) (hsm : Smooth P A σ) {a : ℕ}
    (ha : a < A.positions.length) (c : Fin 3) (r : ℝ → ScfRun P)
    (hr : ∀ᶠ x in nhds (0 : ℝ), Converged P (moved A a c x) (r x))
    {ε : ℝ → Fin P.nk → Fin P.t.norb → ℝ} (hst : SmoothStates A.positions.length r ε) {E : ℝ → ℝ}
    (hE : ∀ᶠ x in nhds (0 : ℝ), (r x).energy (moved A a c x) = .ok (E x)) :
    HasDerivAt E (-(r 0).force A a c + P.hartree * ∑ k, P.wk k * ∑ b,
      deriv (fun x => fermi P.width (r x).mu (ε x k b)) 0 * ε 0 k b) 0 := by
  have hb := hfit.units.ne'
  have hc : DifferentiableAt ℝ (fun t : ℝ => P.bohr * t) 0 := by fun_prop
  have hz : P.bohr * (0 : ℝ) = 0 := mul_zero _
  obtain ⟨⟨cs, h1, h2⟩, h3, h4, h5⟩ := hst
  have key := deriv_core hfit hsm ha c (fun t => r (P.bohr * t))
    (by
      filter_upwards [(tendsto_scaled P.bohr).eventually hr] with t ht
      rw [moved_scaled]; exact ht)
    (ε := fun t => ε (P.bohr * t))
    ⟨⟨fun t => cs (P.bohr * t), (tendsto_scaled P.bohr).eventually h1, fun k b i =>
        DifferentiableAt.comp (g := fun t => cs t k b i) (f := fun t => P.bohr * t) 0
          (by rw [hz]; exact h2 k b i) hc⟩,
      fun k b => DifferentiableAt.comp (g := fun t => ε t k b) (f := fun t => P.bohr * t) 0
        (by rw [hz]; exact h3 k b) hc,
      DifferentiableAt.comp (g := fun t => (r t).mu) (f := fun t => P.bohr * t) 0
        (by rw [hz]; exact h4) hc,
      by dsimp only; rw [hz]; exact h5⟩
    (E := fun t => E (P.bohr * t))
    (by
      filter_upwards [(tendsto_scaled P.bohr).eventually hE] with t ht
      rw [moved_scaled]; exact ht)
  have hd : ∀ k b, deriv (fun t => fermi P.width (r (P.bohr * t)).mu (ε (P.bohr * t) k b)) 0
      = P.bohr * deriv (fun x => fermi P.width (r x).mu (ε x k b)) 0 := by
    intro k b
    have := deriv_comp_mul_left P.bohr (fun x => fermi P.width (r x).mu (ε x k b)) 0
    rw [hz, smul_eq_mul] at this
    exact this
  simp only [hd, hz] at key
  have hs := HasDerivAt.comp (0 : ℝ) (h := fun x => P.bohr⁻¹ * x) (h₂ := fun t => E (P.bohr * t))
    (by rw [mul_zero]; exact key) ((hasDerivAt_id (0 : ℝ)).const_mul P.bohr⁻¹)
  have e1 : ((fun t => E (P.bohr * t)) ∘ fun x => P.bohr⁻¹ * x) = E := by
    funext x
    simp only [Function.comp]
    rw [← mul_assoc, mul_inv_cancel₀ hb, one_mul]
  rw [e1] at hs
  refine hs.congr_deriv ?_
  have e2 : ∑ k, P.wk k * ∑ b, P.bohr * deriv (fun x => fermi P.width (r x).mu (ε x k b)) 0 * ε 0 k b
      = P.bohr * ∑ k, P.wk k * ∑ b, deriv (fun x => fermi P.width (r x).mu (ε x k b)) 0 * ε 0 k b := by
    simp only [Finset.mul_sum]
    exact Finset.sum_congr rfl fun k _ => Finset.sum_congr rfl fun b _ => by ring
  rw [e2]
  field_simp

/-- **C124 (free energy).** In the same situation, the forces are minus the gradient of the free
energy, the reported energy minus width times entropy of the electrons. -/
theorem c124_free_energy (hfit : Fits P A elements) (hsm : Smooth P A σ) (hw : P.width ≠ 0) {a : ℕ}
    (ha : a < A.positions.length) (c : Fin 3) (r : ℝ → ScfRun P)
    (hr : ∀ᶠ x in nhds (0 : ℝ), Converged P (moved A a c x) (r x))
    {ε : ℝ → Fin P.nk → Fin P.t.norb → ℝ} (hst : SmoothStates A.positions.length r ε) {E : ℝ → ℝ}
    (hE : ∀ᶠ x in nhds (0 : ℝ), (r x).energy (moved A a c x) = .ok (E x)) :
    HasDerivAt (fun x => E x - P.hartree * P.width * (r x).entropy) (-(r 0).force A a c) 0 := by
  have hen := c124_energy_partial hfit hsm ha c r hr hst hE
  obtain ⟨⟨cs, hsol, -⟩, hεd, hmud, hmax⟩ := hst
  have hher : ∀ᶠ x in nhds (0 : ℝ), ∀ k, ((r x).H0 k).IsHermitian ∧ ((r x).S k).IsHermitian := by
    have h1 := hermitian_eventually hfit hsm ha (Pi.single c 1) (fun t => r (P.bohr * t)) (by
      filter_upwards [(tendsto_scaled P.bohr).eventually hr] with t ht
      rw [moved_scaled]; exact ht)
    filter_upwards [(tendsto_scaled P.bohr⁻¹).eventually h1] with x hx
    rw [← mul_assoc, mul_inv_cancel₀ hfit.units.ne', one_mul] at hx
    exact hx
  have hsum : ∀ᶠ x in nhds (0 : ℝ), ∀ (g : ℝ → ℝ) k, ∑ b, g ((r x).e k b) = ∑ b, g (ε x k b) := by
    filter_upwards [hr, hher, hsol] with x h1 h2 h3 g k
    have h4 := (h1.states k).solutions
    unfold moved at h4
    rw [displace_length] at h4
    exact sum_states_unique (h1z_hermitian (r x) _ (h2 k).1 (h2 k).2) (h2 k).2 h4 (h3 k) g
  have hfd : ∀ k b, HasDerivAt (fun x => fermi P.width (r x).mu (ε x k b))
      (deriv (fun x => fermi P.width (r x).mu (ε x k b)) 0) 0 := fun k b =>
    (fermi_differentiable hmud (hεd k b) (hmax k b)).hasDerivAt
  -- the number of electrons is constant
  have hnum : ∑ k, P.wk k * ∑ b, deriv (fun x => fermi P.width (r x).mu (ε x k b)) 0 = 0 := by
    have h1 : HasDerivAt (fun x => ∑ k, P.wk k * ∑ b, fermi P.width (r x).mu (ε x k b))
        (∑ k, P.wk k * ∑ b, deriv (fun x => fermi P.width (r x).mu (ε x k b)) 0) 0 :=
      HasDerivAt.fun_sum fun k _ => (HasDerivAt.fun_sum fun b _ => hfd k b).const_mul _
    have h2 : (fun x => ∑ k, P.wk k * ∑ b, fermi P.width (r x).mu (ε x k b)) =ᶠ[nhds 0]
        fun _ => P.nel := by
      filter_upwards [hr, hsum] with x h3 h4
      rw [← h3.electrons]
      refine Finset.sum_congr rfl fun k _ => ?_
      rw [← h4 (fermi P.width (r x).mu) k]
      rfl
    exact h1.unique ((hasDerivAt_const (0 : ℝ) P.nel).congr_of_eventuallyEq h2)
  have hent : HasDerivAt (fun x => P.width * (r x).entropy)
      (∑ k, P.wk k * ∑ b, deriv (fun x => fermi P.width (r x).mu (ε x k b)) 0 * ε 0 k b) 0 := by
    have h1 : HasDerivAt (fun x => ∑ k, P.wk k * ∑ b,
        P.width * (2 * Real.binEntropy (fermi P.width (r x).mu (ε x k b) / 2)))
        (∑ k, P.wk k * ∑ b, deriv (fun x => fermi P.width (r x).mu (ε x k b)) 0 * (ε 0 k b - (r 0).mu)) 0 :=
      HasDerivAt.fun_sum fun k _ => (HasDerivAt.fun_sum fun b _ =>
        entropy_hasDerivAt hw hmud (hεd k b) (hmax k b)).const_mul _
    refine (h1.congr_of_eventuallyEq ?_).congr_deriv ?_
    · filter_upwards [hsum] with x h4
      unfold ScfRun.entropy
      have h5 : ∀ k, ∑ b, Real.binEntropy ((r x).f k b / 2)
          = ∑ b, Real.binEntropy (fermi P.width (r x).mu (ε x k b) / 2) := fun k =>
        h4 (fun e => Real.binEntropy (fermi P.width (r x).mu e / 2)) k
      simp only [h5, Finset.mul_sum]
      exact Finset.sum_congr rfl fun k _ => Finset.sum_congr rfl fun b _ => by ring
    · simp only [mul_sub, Finset.sum_sub_distrib, ← Finset.sum_mul]
      simp only [← mul_assoc, ← Finset.sum_mul]
      rw [hnum, zero_mul, sub_zero]
  refine ((hen.sub (hent.const_mul P.hartree)).congr_deriv (by ring)).congr_of_eventuallyEq
    (Filter.Eventually.of_forall fun x => ?_)
  simp only [Pi.sub_apply]
  ring

/-- **C124 (fixed occupations).** If the occupations do not change the forces are minus the gradient of
the reported energy. -/
theorem c124_fixed_occupations (hfit : Fits P A elements) (hsm : Smooth P A σ) {a : ℕ}
    (ha : a < A.positions.length) (c : Fin 3) (r : ℝ → ScfRun P)
    (hr : ∀ᶠ x in nhds (0 : ℝ), Converged P (moved A a c x) (r x))
    {ε : ℝ → Fin P.nk → Fin P.t.norb → ℝ} (hst : SmoothStates A.positions.length r ε) {E : ℝ → ℝ}
    (hE : ∀ᶠ x in nhds (0 : ℝ), (r x).energy (moved A a c x) = .ok (E x))
    (hf : ∀ k b, ∀ᶠ x in nhds (0 : ℝ), fermi P.width (r x).mu (ε x k b) = fermi P.width (r 0).mu (ε 0 k b)) :
    HasDerivAt E (-(r 0).force A a c) 0 := by
  have h := c124_energy_partial hfit hsm ha c r hr hst hE
  have : ∀ k b, deriv (fun x => fermi P.width (r x).mu (ε x k b)) 0 = 0 := by
    intro k b
    have h1 : (fun x => fermi P.width (r x).mu (ε x k b)) =ᶠ[nhds 0] fun _ =>
      fermi P.width (r 0).mu (ε 0 k b) := hf k b
    rw [h1.deriv_eq, deriv_const]
  simpa [this] using h

end Hotbit
