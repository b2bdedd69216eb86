import Verif.Lemmas.Uniqueness

/-!
# Two self-consistent solutions for the same structure
-/

set_option linter.unusedSimpArgs false

namespace Hotbit

open Matrix

variable {P : ScfIn} {A : Atoms} {elements : String → Option ElementData} {r r' : ScfRun P}

theorem Converged.st_eq (h : Converged P A r) (h' : Converged P A r') : r'.st = r.st := by
  funext k
  have := h.mats k
  rw [h'.mats k] at this
  exact Except.ok.inj this

theorem Converged.S_eq (h : Converged P A r) (h' : Converged P A r') (k : Fin P.nk) : r'.S k = r.S k := by
  unfold ScfRun.S
  rw [h.st_eq h']

theorem Converged.H0_eq (h : Converged P A r) (h' : Converged P A r') (k : Fin P.nk) : r'.H0 k = r.H0 k := by
  unfold ScfRun.H0
  rw [h.st_eq h']

/-- The potential of the charges at an orbital. -/
noncomputable def ScfRun.potAt (r : ScfRun P) (N : ℕ) (x : Fin P.t.norb) : ℝ :=
  if P.scc then r.epsilon N (P.t.atomAt x) else 0

theorem h1z_potAt (hfit : Fits P A elements) (r : ScfRun P) (x y : Fin P.t.norb) :
    r.h1z A.positions.length x y
      = (r.potAt A.positions.length x + r.potAt A.positions.length y) / 2 := by
  unfold ScfRun.h1z ScfRun.potAt
  by_cases hscc : P.scc = true
  · rw [if_pos hscc, if_pos hscc, if_pos hscc]
    obtain ⟨-, -, -, -, -, -, hx, -⟩ := orb_at hfit.orbitals x
    obtain ⟨-, -, -, -, -, -, hy, -⟩ := orb_at hfit.orbitals y
    have hNs : A.symbols.length = A.positions.length := by simp [Atoms.symbols, Atoms.positions]
    have := (c28_element elements A.symbols P.t hfit.orbitals (r.epsilon A.positions.length) (fun _ => 0) x y _ _
      hx hy).2 (fun i _ => by simp; norm_num)
    rw [hNs] at this
    exact this
  · rw [if_neg hscc, if_neg hscc, if_neg hscc]
    simp

/-- The overlaps of the states of the two solutions. -/
noncomputable def stateOverlap (r r' : ScfRun P) (k : Fin P.nk) (a b : Fin P.t.norb) : ℝ :=
  Complex.normSq (overlapsOf (r.S k) (r.wf k) (r'.wf k) a b)

theorem computeRho_hermitian {n : ℕ} (c : CMat n) (f : Fin n → ℝ) : (computeRho c f).IsHermitian := by
  rw [computeRho_diagonal]
  unfold Matrix.IsHermitian
  rw [conjTranspose_mul, conjTranspose_mul, conjTranspose_conjTranspose, diagonal_conjTranspose,
    Matrix.mul_assoc]
  congr 3
  funext a
  simp

/-- Differences of populations in the difference of the potentials. -/
theorem gap_sum (hfit : Fits P A elements) (h : Converged P A r) (h' : Converged P A r') :
    ∑ k, P.wk k * ∑ a, ∑ b, stateOverlap r r' k a b * ((r.f k a - r'.f k b) * (r.e k a - r'.e k b))
      = ∑ x, (r.potAt A.positions.length x - r'.potAt A.positions.length x)
        * (mullikenDiag P.wk r.rho r.S x - mullikenDiag P.wk r'.rho r'.S x) := by
  set N := A.positions.length with hN
  set v : Fin P.t.norb → ℝ := fun x => r.potAt N x - r'.potAt N x with hv
  have one : ∀ k, ∑ a, ∑ b, stateOverlap r r' k a b * ((r.f k a - r'.f k b) * (r.e k a - r'.e k b))
      = ∑ x, v x * (∑ j, (r.rho k x j - r'.rho k x j) * r.S k j x).re := by
    intro k
    have hS := (h.hermitian k).2.2
    have s1 := (h.states k).solutions
    have s2 := (h'.states k).solutions
    rw [h.S_eq h', h.H0_eq h'] at s2
    have g := trace_gap (r.f k) (r'.f k) hS s1 s2
    refine g.symm.trans ?_
    have hR : (r.rho k - r'.rho k).IsHermitian := (computeRho_hermitian _ _).sub (computeRho_hermitian _ _)
    refine Eq.trans ?_ (mean_potential hR hS v)
    congr 1
    refine Finset.sum_congr rfl fun i _ => Finset.sum_congr rfl fun j _ => ?_
    show (r.rho k i j - r'.rho k i j) * _ = (r.rho k i j - r'.rho k i j) * _
    congr 1
    rw [ham_h1z, ham_h1z]
    simp only [scfHamiltonian, Matrix.add_apply, Matrix.of_apply]
    rw [h1z_potAt hfit, h1z_potAt hfit, ← hN, hv]
    push_cast
    ring
  rw [Finset.sum_congr rfl fun k _ => by rw [one k]]
  simp only [Finset.mul_sum]
  rw [Finset.sum_comm]
  refine Finset.sum_congr rfl fun x _ => ?_
  unfold mullikenDiag
  rw [← Finset.sum_sub_distrib, Finset.mul_sum]
  refine Finset.sum_congr rfl fun k _ => ?_
  unfold rowDot
  rw [h.S_eq h', ← mul_sub, ← Complex.sub_re, ← Finset.sum_sub_distrib]
  simp only [Matrix.transpose_apply, sub_mul]
  ring

/-- The charges are numbered like the atoms. -/
theorem Converged.dq_length (hfit : Fits P A elements) (hs : P.scc = true) (h : Converged P A r) :
    r.dq.length = A.positions.length := by
  have hN : A.symbols.length = A.positions.length := by simp [Atoms.symbols, Atoms.positions]
  have hl := blocks_length elements A.symbols P.t hfit.orbitals
  have hm := h.charges hs
  unfold mulliken at hm
  dsimp only at hm
  split at hm
  · cases hm
  · have := Except.ok.inj hm
    rw [← this]
    simp [hfit.valences, hl, hN]

/-- The interaction energy of the differences of the charges. -/
theorem gap_coulomb (hfit : Fits P A elements) (hs : P.scc = true) (h : Converged P A r) (h' : Converged P A r') :
    ∃ E, EsEnergy P.cd P.bohr P.U P.w P.gcut A
        ((List.range A.positions.length).map fun i => chg r.dq i - chg r'.dq i) E ∧
      ∑ x, (r.potAt A.positions.length x - r'.potAt A.positions.length x)
        * (mullikenDiag P.wk r.rho r.S x - mullikenDiag P.wk r'.rho r'.S x) = 2 * E := by
  set N := A.positions.length with hN
  obtain ⟨p1, p2, -⟩ := h.potential hs
  obtain ⟨p1', p2', -⟩ := h'.potential hs
  have hc := (esState_eq _ _ _ _ _ _ _ _ _ _ p1).2.2.2
  set q := (List.range N).map fun i => chg r.dq i - chg r'.dq i with hq
  have hqi : ∀ i < N, chg q i = chg r.dq i - chg r'.dq i := by
    intro i hi
    show q.getD i 0 = _
    rw [hq]
    simp [List.getD_eq_getElem?_getD, hi]
  obtain ⟨s, hes⟩ := esState_exists P.cd P.bohr P.U P.w P.gcut A q hc
  obtain ⟨phi, g, hphi, -⟩ := c43_potential _ _ _ _ (esState_eq _ _ _ _ _ _ _ _ _ _ hes).2.2.1
  refine ⟨_, ⟨_, _, s, phi, hes, hphi, rfl⟩, ?_⟩
  have heps : ∀ i < N, r.epsilon N i - r'.epsilon N i
      = epsilonOf N (corrMatrix P.cd P.bohr P.U P.w (nbList A P.gcut)) P.bohr (fun i => phi.getD i 0) (chg q) i := by
    intro i hi
    unfold ScfRun.epsilon
    rw [epsilon_gam p1 p2 hi, epsilon_gam p1' p2' hi, epsilon_gam hes hphi hi, ← Finset.sum_sub_distrib]
    refine Finset.sum_congr rfl fun j hj => ?_
    rw [hqi j (Finset.mem_range.1 hj)]
    ring
  rw [coulombEnergy, if_pos rfl]
  have e1 : ∀ x : Fin P.t.norb, (r.potAt N x - r'.potAt N x)
        * (mullikenDiag P.wk r.rho r.S x - mullikenDiag P.wk r'.rho r'.S x)
      = ∑ i ∈ Finset.range N, (r.epsilon N i - r'.epsilon N i) * (if P.t.atomAt x = i then
        (mullikenDiag P.wk r.rho r.S x - mullikenDiag P.wk r'.rho r'.S x) else 0) := by
    intro x
    unfold ScfRun.potAt
    rw [if_pos hs, if_pos hs]
    rw [Finset.sum_eq_single (P.t.atomAt x)]
    · rw [if_pos rfl]
    · intro b _ hb
      rw [if_neg (Ne.symm hb), mul_zero]
    · intro hcon
      exact absurd (Finset.mem_range.2 (hfit.numAt x).1) hcon
  rw [Finset.sum_congr rfl fun x _ => e1 x, Finset.sum_comm]
  have e2 : ∀ i ∈ Finset.range N, (∑ x : Fin P.t.norb, (r.epsilon N i - r'.epsilon N i) * (if P.t.atomAt x = i then
        (mullikenDiag P.wk r.rho r.S x - mullikenDiag P.wk r'.rho r'.S x) else 0))
      = chg q i * epsilonOf N (corrMatrix P.cd P.bohr P.U P.w (nbList A P.gcut)) P.bohr (fun i => phi.getD i 0)
        (chg q) i := by
    intro i hi
    have hi' := Finset.mem_range.1 hi
    rw [← Finset.mul_sum, heps i hi', mul_comm]
    congr 1
    rw [hqi i hi', dq_eq hfit (h.charges hs) hi', dq_eq hfit (h'.charges hs) hi', sub_sub_sub_cancel_right,
      ← Finset.sum_sub_distrib]
    refine Finset.sum_congr rfl fun x _ => ?_
    by_cases hx : P.t.atomAt x = i
    · rw [if_pos hx, if_pos hx, if_pos hx]
    · rw [if_neg hx, if_neg hx, if_neg hx, sub_zero]
  rw [Finset.sum_congr rfl e2]
  ring

/-- If no charges have a negative interaction energy, two solutions have the same density matrices. -/
theorem rho_unique_scf (hfit : Fits P A elements) (hw : 0 < P.width) (hk : ∀ k, 0 < P.wk k)
    (hpos : P.scc = true → ∀ q E, EsEnergy P.cd P.bohr P.U P.w P.gcut A q E → 0 ≤ E)
    (h : Converged P A r) (h' : Converged P A r') : r'.rho = r.rho := by
  have g := gap_sum hfit h h'
  have hnn : 0 ≤ ∑ k, P.wk k * ∑ a, ∑ b, stateOverlap r r' k a b
      * ((r.f k a - r'.f k b) * (r.e k a - r'.e k b)) := by
    rw [g]
    by_cases hs : P.scc = true
    · obtain ⟨E, hE, he⟩ := gap_coulomb hfit hs h h'
      rw [he]
      have := hpos hs _ E hE
      linarith
    · unfold ScfRun.potAt
      simp [hs]
  -- shift the energies to the chemical potentials
  have rows : ∀ k a, ∑ b, stateOverlap r r' k a b = 1 := by
    intro k a
    have s1 := (h.states k).solutions
    have s2 := (h'.states k).solutions
    rw [h.S_eq h', h.H0_eq h'] at s2
    exact overlapsOf_row (h.hermitian k).2.2 s1 s2 a
  have cols : ∀ k b, ∑ a, stateOverlap r r' k a b = 1 := by
    intro k b
    have s1 := (h.states k).solutions
    have s2 := (h'.states k).solutions
    rw [h.S_eq h', h.H0_eq h'] at s2
    unfold stateOverlap
    rw [Finset.sum_congr rfl fun a _ => (overlapsOf_swap (h.hermitian k).2.2 (r.wf k) (r'.wf k) a b).symm]
    exact overlapsOf_row (h.hermitian k).2.2 s2 s1 b
  have hshift : ∑ k, P.wk k * ∑ a, ∑ b, stateOverlap r r' k a b
        * ((r.f k a - r'.f k b) * ((r.e k a - r.mu) - (r'.e k b - r'.mu)))
      = ∑ k, P.wk k * ∑ a, ∑ b, stateOverlap r r' k a b * ((r.f k a - r'.f k b) * (r.e k a - r'.e k b)) := by
    have cnt : ∀ k, ∑ a, ∑ b, stateOverlap r r' k a b * (r.f k a - r'.f k b) = ∑ a, r.f k a - ∑ b, r'.f k b := by
      intro k
      simp only [mul_sub, Finset.sum_sub_distrib]
      congr 1
      · exact Finset.sum_congr rfl fun a _ => by rw [← Finset.sum_mul, rows, one_mul]
      · rw [Finset.sum_comm]
        exact Finset.sum_congr rfl fun a _ => by rw [← Finset.sum_mul, cols, one_mul]
    have tot : ∑ k, P.wk k * (∑ a, r.f k a - ∑ b, r'.f k b) = 0 := by
      simp only [mul_sub, Finset.sum_sub_distrib]
      rw [h.electrons, h'.electrons, sub_self]
    have : ∀ k, ∑ a, ∑ b, stateOverlap r r' k a b
        * ((r.f k a - r'.f k b) * ((r.e k a - r.mu) - (r'.e k b - r'.mu)))
        = (∑ a, ∑ b, stateOverlap r r' k a b * ((r.f k a - r'.f k b) * (r.e k a - r'.e k b)))
          + (r'.mu - r.mu) * ∑ a, ∑ b, stateOverlap r r' k a b * (r.f k a - r'.f k b) := by
      intro k
      simp only [Finset.mul_sum, ← Finset.sum_add_distrib]
      exact Finset.sum_congr rfl fun a _ => Finset.sum_congr rfl fun b _ => by ring
    rw [Finset.sum_congr rfl fun k _ => by rw [this k, cnt k, mul_add]]
    rw [Finset.sum_add_distrib]
    have : ∑ k, P.wk k * ((r'.mu - r.mu) * (∑ a, r.f k a - ∑ b, r'.f k b))
        = (r'.mu - r.mu) * ∑ k, P.wk k * (∑ a, r.f k a - ∑ b, r'.f k b) := by
      rw [Finset.mul_sum]
      exact Finset.sum_congr rfl fun k _ => by ring
    rw [this, tot, mul_zero, add_zero]
  rw [← hshift] at hnn
  have term : ∀ k a b, stateOverlap r r' k a b
      * ((r.f k a - r'.f k b) * ((r.e k a - r.mu) - (r'.e k b - r'.mu))) ≤ 0 := fun k a b =>
    mul_nonpos_of_nonneg_of_nonpos (Complex.normSq_nonneg _) (fermi_gap hw _ _ _ _)
  have inner : ∀ k, ∑ a, ∑ b, stateOverlap r r' k a b
      * ((r.f k a - r'.f k b) * ((r.e k a - r.mu) - (r'.e k b - r'.mu))) ≤ 0 := fun k =>
    Finset.sum_nonpos fun a _ => Finset.sum_nonpos fun b _ => term k a b
  have outer : ∑ k, P.wk k * ∑ a, ∑ b, stateOverlap r r' k a b
      * ((r.f k a - r'.f k b) * ((r.e k a - r.mu) - (r'.e k b - r'.mu))) = 0 :=
    le_antisymm (Finset.sum_nonpos fun k _ => mul_nonpos_of_nonneg_of_nonpos (hk k).le (inner k)) hnn
  have zero : ∀ k a b, stateOverlap r r' k a b
      * ((r.f k a - r'.f k b) * ((r.e k a - r.mu) - (r'.e k b - r'.mu))) = 0 := by
    intro k a b
    have z1 := (Finset.sum_eq_zero_iff_of_nonpos fun k _ =>
      mul_nonpos_of_nonneg_of_nonpos (hk k).le (inner k)).1 outer k (Finset.mem_univ _)
    have z2 : ∑ a, ∑ b, stateOverlap r r' k a b
      * ((r.f k a - r'.f k b) * ((r.e k a - r.mu) - (r'.e k b - r'.mu))) = 0 :=
      (mul_eq_zero.1 z1).resolve_left (hk k).ne'
    have z3 := (Finset.sum_eq_zero_iff_of_nonpos fun a _ =>
      Finset.sum_nonpos fun b _ => term k a b).1 z2 a (Finset.mem_univ _)
    exact (Finset.sum_eq_zero_iff_of_nonpos fun b _ => term k a b).1 z3 b (Finset.mem_univ _)
  funext k
  have s1 := (h.states k).solutions
  have s2 := (h'.states k).solutions
  rw [h.S_eq h', h.H0_eq h'] at s2
  refine (rho_eq_of_overlap s1 s2 fun a b hab => ?_).symm
  rcases mul_eq_zero.1 (zero k a b) with h0 | h0
  · exact absurd (Complex.normSq_eq_zero.1 h0) hab
  · rcases mul_eq_zero.1 h0 with h1 | h1
    · exact sub_eq_zero.1 h1
    · show fermi _ _ _ = fermi _ _ _
      rw [fermi_shift _ r.mu, fermi_shift _ r'.mu, sub_eq_zero.1 h1]


/-- What belongs to the charges is determined by them. -/
theorem es_unique (hs : P.scc = true) (h : Converged P A r) (h' : Converged P A r') (hq : r'.dq = r.dq) :
    r'.G = r.G ∧ r'.dG = r.dG ∧ r'.phi = r.phi ∧ r'.field = r.field := by
  obtain ⟨p1, p2, p3⟩ := h.potential hs
  obtain ⟨q1, q2, q3⟩ := h'.potential hs
  rw [hq] at q1
  obtain ⟨a1, a2, a3, -⟩ := esState_eq _ _ _ _ _ _ _ _ _ _ p1
  obtain ⟨b1, b2, b3, -⟩ := esState_eq _ _ _ _ _ _ _ _ _ _ q1
  have hse : r'.s = r.s := by rw [(fresh_eq _ _ _ _ a3).2, (fresh_eq _ _ _ _ b3).2]
  rw [hse] at q2 q3
  rw [p2] at q2
  rw [p3] at q3
  exact ⟨b1.trans a1.symm, b2.trans a2.symm, (Except.ok.inj q2).symm, (Except.ok.inj q3).symm⟩

end Hotbit
