import Verif.Lemmas.TurnedStates
import Verif.Model.GroundState
import Verif.Spec.TotalEnergy

/-!
# The self-consistent solution of a turned structure
-/

set_option linter.unusedSimpArgs false

namespace Hotbit

open Matrix
open scoped ComplexOrder

variable {P : ScfIn} {A : Atoms} {elements : String → Option ElementData} {R : Mat}

/-- All orbitals of the atoms turned. -/
noncomputable def turnRep (P : ScfIn) (R : Mat) : CMat P.t.norb :=
  bigRep (fun x : Fin P.t.norb => P.t.atomAt x) (fun x => P.t.numAt x) R

theorem turnRep_unitary (hfit : Fits P A elements) (hR : R.transpose * R = 1) :
    (turnRep P R)ᴴ * turnRep P R = 1 := hfit.lay.unitary' hR

theorem turnRep_conj : (turnRep P R)ᴴ = (turnRep P R)ᵀ := bigRep_conj

theorem turn_trace (hfit : Fits P A elements) (hR : R.transpose * R = 1) (M : CMat P.t.norb) (a : ℕ) :
    (∑ x : Fin P.t.norb, if P.t.atomAt x = a then (turnRep P R * M * (turnRep P R)ᴴ) x x else 0)
      = ∑ x : Fin P.t.norb, if P.t.atomAt x = a then M x x else 0 :=
  atom_trace (atom := fun x : Fin P.t.norb => P.t.atomAt x) (hfit.lay.unitary' hR) M a

/-- What is computed for the turned geometry. -/
structure SetupTurned (R : Mat) (x x' : Setup P) : Prop where
  H0 : ∀ k, x'.H0 k = turnRep P R * x.H0 k * (turnRep P R)ᴴ
  S : ∀ k, x'.S k = turnRep P R * x.S k * (turnRep P R)ᴴ
  dH0 : ∀ c k, x'.dH0 c k = turnRep P R * (∑ d, (R c d : ℂ) • x.dH0 d k) * (turnRep P R)ᴴ
  dS : ∀ c k, x'.dS c k = turnRep P R * (∑ d, (R c d : ℂ) • x.dS d k) * (turnRep P R)ᴴ
  nb : x'.nb = x.nb.map fun e => { e with n := R *ᵥ e.n }

theorem SetupTurned.epsilon {x x' : Setup P} (h : SetupTurned R x x') (N : ℕ) (dq : List ℝ) :
    x'.epsilon N dq = x.epsilon N dq := by
  unfold Setup.epsilon
  rw [h.nb]
  congr 1
  · funext i j
    unfold corrMatrix
    rw [List.filter_map, List.map_map]
    rfl
  · funext i
    unfold dcPhi
    simp only [Option.getD_some]
    rw [List.filter_map, List.map_map]
    rfl

theorem mulVec_list_sum (R : Mat) (l : List Vec) : R *ᵥ l.sum = (l.map fun v => R *ᵥ v).sum := by
  induction l with
  | nil => simp
  | cons v l ih => rw [List.sum_cons, List.map_cons, List.sum_cons, mulVec_add, ih]

theorem corrDMatrix_turn (cd : ChargeDensity) (bohr : ℝ) (w : ℕ → ℝ) (l : List Nb) (R : Mat) (i j : ℕ) :
    corrDMatrix cd bohr w (l.map fun e => { e with n := R *ᵥ e.n }) i j
      = R *ᵥ corrDMatrix cd bohr w l i j := by
  unfold corrDMatrix
  rw [List.filter_map, List.map_map, mulVec_list_sum, List.map_map]
  congr 1
  refine List.map_congr_left fun e _ => ?_
  simp only [Function.comp, mulVec_smul]

theorem dcField_turn (cutoff : Option ℝ) (q : List ℝ) (l : List Nb) (R : Mat) (i : ℕ) :
    dcField cutoff q (some (l.map fun e => { e with n := R *ᵥ e.n })) i
      = R *ᵥ dcField cutoff q (some l) i := by
  unfold dcField
  simp only [Option.getD_some]
  rw [List.filter_map, List.map_map, mulVec_list_sum, List.map_map]
  congr 1
  refine List.map_congr_left fun e _ => ?_
  simp only [Function.comp, mulVec_smul]

theorem gammaForces_turn (scc : Bool) (N : ℕ) (dG : ℕ → ℕ → Vec) (bohr : ℝ) (E : ℕ → Vec)
    (dq : ℕ → ℝ) (R : Mat) (i : ℕ) :
    gammaForces scc N (fun i j => R *ᵥ dG i j) bohr (fun i => R *ᵥ E i) dq i
      = R *ᵥ gammaForces scc N dG bohr E dq i := by
  unfold gammaForces
  split
  · have hs : R *ᵥ (∑ j ∈ Finset.range N, dq j • dG i j) = ∑ j ∈ Finset.range N, R *ᵥ (dq j • dG i j) := by
      rw [← Matrix.mulVecLin_apply, map_sum]
      rfl
    rw [mulVec_smul, mulVec_add, mulVec_smul, hs]
    congr 2
    exact Finset.sum_congr rfl fun j _ => (mulVec_smul R (dq j) (dG i j)).symm
  · rw [mulVec_zero]

/-- The turned result of a diagonalisation. -/
structure PassTurned (R : Mat) (p p' : Pass P) : Prop where
  e : p'.e = p.e
  mu : p'.mu = p.mu
  dq : p'.dq = p.dq
  h1 : p'.h1 = p.h1
  rho : ∀ k, p'.rho k = turnRep P R * p.rho k * (turnRep P R)ᴴ
  rhoe : ∀ k, p'.rhoe k = turnRep P R * p.rhoe k * (turnRep P R)ᴴ
  atomic : ∀ h, p.h1 = some h → ∀ x x' y y' : Fin P.t.norb, P.t.atomAt x = P.t.atomAt x' →
    P.t.atomAt y = P.t.atomAt y' → h x y = h x' y'

theorem mullikenDiag_turn (hfit : Fits P A elements) (hR : R.transpose * R = 1) (wk : Fin P.nk → ℝ)
    {rho rho' S S' : Fin P.nk → CMat P.t.norb}
    (h1 : ∀ k, rho' k = turnRep P R * rho k * (turnRep P R)ᴴ)
    (h2 : ∀ k, S' k = turnRep P R * S k * (turnRep P R)ᴴ) (b : ℕ × ℕ) (hb : b ∈ P.t.blocks) :
    sliceSum (mullikenDiag wk rho' S') b = sliceSum (mullikenDiag wk rho S) b := by
  obtain ⟨a, ha⟩ := List.getElem?_of_mem hb
  rw [block_sum_atom hfit.orbitals _ a b ha, block_sum_atom hfit.orbitals _ a b ha]
  have key : ∀ rho S : Fin P.nk → CMat P.t.norb,
      (∑ x : Fin P.t.norb, if P.t.atomAt x = a then mullikenDiag wk rho S x else 0)
      = ∑ k, wk k * (∑ x : Fin P.t.norb, if P.t.atomAt x = a then (rho k * S k) x x else 0).re := by
    intro rho S
    have : ∀ k, wk k * (∑ x : Fin P.t.norb, if P.t.atomAt x = a then (rho k * S k) x x else 0).re
        = ∑ x : Fin P.t.norb, if P.t.atomAt x = a then wk k * ((rho k * S k) x x).re else 0 := by
      intro k
      rw [Complex.re_sum, Finset.mul_sum]
      refine Finset.sum_congr rfl fun x _ => ?_
      split <;> simp
    rw [Finset.sum_congr rfl fun k _ => this k, Finset.sum_comm]
    refine Finset.sum_congr rfl fun x _ => ?_
    unfold mullikenDiag
    simp only [rowDot_eq]
    split
    · rfl
    · simp
  rw [key, key]
  refine Finset.sum_congr rfl fun k _ => ?_
  rw [h1, h2, conj_mul_conj (turnRep_unitary hfit hR), turn_trace hfit hR]

theorem mulliken_turn (hfit : Fits P A elements) (hR : R.transpose * R = 1) (wk : Fin P.nk → ℝ)
    {rho rho' S S' : Fin P.nk → CMat P.t.norb}
    (h1 : ∀ k, rho' k = turnRep P R * rho k * (turnRep P R)ᴴ)
    (h2 : ∀ k, S' k = turnRep P R * S k * (turnRep P R)ᴴ) (val : List ℝ) (charge tol : ℝ) :
    mulliken wk rho' S' P.t.blocks val charge tol = mulliken wk rho S P.t.blocks val charge tol := by
  have : P.t.blocks.map (sliceSum (mullikenDiag wk rho' S'))
      = P.t.blocks.map (sliceSum (mullikenDiag wk rho S)) :=
    List.map_congr_left fun b hb => mullikenDiag_turn hfit hR wk h1 h2 b hb
  unfold mulliken
  rw [this]

theorem bandEnergy_turn (hfit : Fits P A elements) (hR : R.transpose * R = 1) (wk : Fin P.nk → ℝ)
    {rho rho' H H' : Fin P.nk → CMat P.t.norb}
    (h1 : ∀ k, rho' k = turnRep P R * rho k * (turnRep P R)ᴴ)
    (h2 : ∀ k, H' k = turnRep P R * H k * (turnRep P R)ᴴ) (tol : ℝ) :
    bandEnergy wk rho' H' tol = bandEnergy wk rho H tol := by
  have : ∀ k, (∑ i, rowDot (rho' k) (H' k) i) = ∑ i, rowDot (rho k) (H k) i := by
    intro k
    simp only [rowDot_eq]
    show ((rho' k) * (H' k)).trace = ((rho k) * (H k)).trace
    rw [h1, h2, conj_mul_conj (turnRep_unitary hfit hR), Matrix.trace_mul_comm, ← Matrix.mul_assoc,
      turnRep_unitary hfit hR, Matrix.one_mul]
  unfold bandEnergy
  simp only [this]

theorem turn_hermitian {M : CMat P.t.norb} (h : M.IsHermitian) :
    (turnRep P R * M * (turnRep P R)ᴴ).IsHermitian := by
  unfold IsHermitian at h ⊢
  rw [conjTranspose_mul, conjTranspose_mul, conjTranspose_conjTranspose, h, Matrix.mul_assoc]

theorem turn_posDef (hfit : Fits P A elements) (hR : R.transpose * R = 1) {M : CMat P.t.norb}
    (h : M.PosDef) : (turnRep P R * M * (turnRep P R)ᴴ).PosDef := by
  have hu : IsUnit ((turnRep P R)ᴴ) := IsUnit.of_mul_eq_one _ (turnRep_unitary hfit hR)
  have := (Matrix.IsUnit.posDef_star_left_conjugate_iff (x := M) hu).2 h
  rwa [star_eq_conjTranspose, conjTranspose_conjTranspose] at this

theorem atomic_h1 (hfit : Fits P A elements) (eps : ℕ → ℝ) (x x' y y' : Fin P.t.norb)
    (hx : P.t.atomAt x = P.t.atomAt x') (hy : P.t.atomAt y = P.t.atomAt y') :
    constructH1 P.t A.positions.length eps (fun _ => 0) x y
      = constructH1 P.t A.positions.length eps (fun _ => 0) x' y' := by
  have hN : A.symbols.length = A.positions.length := by simp [Atoms.symbols, Atoms.positions]
  have key : ∀ x : Fin P.t.norb, P.t.atomOf x = .ok (P.t.atomAt x) := by
    intro x
    obtain ⟨o, n, -, -, -, -, h, -⟩ := orb_at hfit.orbitals x
    exact h
  have := fun x y : Fin P.t.norb => (c28_element elements A.symbols P.t hfit.orbitals eps (fun _ => 0) x y
    _ _ (key x) (key y)).2 (by intro i _; norm_num)
  rw [← hN, this, this, hx, hy]

theorem scfHamiltonian_turn (H1 : Option (Fin P.t.norb → Fin P.t.norb → ℝ))
    (hat : ∀ h, H1 = some h → ∀ x x' y y' : Fin P.t.norb, P.t.atomAt x = P.t.atomAt x' →
      P.t.atomAt y = P.t.atomAt y' → h x y = h x' y') (H0 S : CMat P.t.norb) :
    scfHamiltonian H1 (turnRep P R * H0 * (turnRep P R)ᴴ) (turnRep P R * S * (turnRep P R)ᴴ)
      = turnRep P R * scfHamiltonian H1 H0 S * (turnRep P R)ᴴ := by
  cases H1 with
  | none => rfl
  | some h =>
    have := hadamard_rep (atom := fun x : Fin P.t.norb => P.t.atomAt x) (num := fun x => P.t.numAt x)
      (R := R) (fun x y => ((h x y : ℝ) : ℂ)) (fun x x' y y' h1 h2 => by rw [hat h rfl x x' y y' h1 h2]) S
    unfold scfHamiltonian
    dsimp only
    rw [Matrix.mul_add, Matrix.add_mul]
    congr 1

/-- What the turned and the original structure need to have. -/
structure Solvable {Mx : Type} (T : ScfTools P Mx) (x : Setup P) : Prop where
  two : 2 ≤ P.t.norb
  lapack : T.L.Ok
  tol : 0 ≤ T.tolNorm
  hermitian : ∀ k, (x.H0 k).IsHermitian
  posDef : ∀ k, (x.S k).PosDef

/-- The states at all k-points. -/
theorem solve_states {Mx : Type} {T : ScfTools P Mx} {x : Setup P} (hx : Solvable T x)
    (H1 : Option (Fin P.t.norb → Fin P.t.norb → ℝ)) (h1 : ∀ h, H1 = some h → ∀ i j, h i j = h j i) :
    ∃ r, solveAll T.L T.tolNorm H1 (List.ofFn fun k => (x.H0 k, x.S k)) = .ok r ∧
      ∀ k : Fin P.nk, AreStates (scfHamiltonian H1 (x.H0 k) (x.S k)) (x.S k)
        (r.getD k (0, 0)).1 (r.getD k (0, 0)).2 := by
  obtain ⟨r, h2, h3⟩ := c121_all hx.two T.L hx.lapack T.tolNorm hx.tol H1 h1
    (List.ofFn fun k => (x.H0 k, x.S k)) (by
      intro M hM
      rw [List.mem_ofFn] at hM
      obtain ⟨k, rfl⟩ := hM
      exact ⟨hx.hermitian k, hx.posDef k⟩)
  refine ⟨r, h2, fun k => ?_⟩
  have hl := h3.length_eq
  rw [List.length_ofFn] at hl
  have hk : (k : ℕ) < r.length := by rw [← hl]; exact k.2
  have := List.Forall₂.get h3 (i := k) (by rw [List.length_ofFn]; exact k.2) hk
  simp only [List.get_eq_getElem, List.getElem_ofFn] at this
  rw [List.getD_eq_getElem?_getD, List.getElem?_eq_getElem hk, Option.getD_some]
  exact this

/-- One iteration for the turned structure: the same error or the turned result. -/
theorem onePass_turn {Mx : Type} (hfit : Fits P A elements) (hR : R.transpose * R = 1)
    {T : ScfTools P Mx} {x x' : Setup P} (hx : Solvable T x) (h : SetupTurned R x x')
    (dq : Option (List ℝ)) :
    (∃ e, onePass T x A.positions.length dq = .error e ∧ onePass T x' A.positions.length dq = .error e) ∨
    ∃ p p', onePass T x A.positions.length dq = .ok p ∧ onePass T x' A.positions.length dq = .ok p' ∧
      PassTurned R p p' := by
  have hx' : Solvable T x' := ⟨hx.two, hx.lapack, hx.tol, fun k => by
      rw [h.H0]; exact turn_hermitian (hx.hermitian k), fun k => by
      rw [h.S]; exact turn_posDef hfit hR (hx.posDef k)⟩
  have he : (dq.map fun q (a b : Fin P.t.norb) =>
        constructH1 P.t A.positions.length (x'.epsilon A.positions.length q) (fun _ => 0) a b)
      = dq.map fun q (a b : Fin P.t.norb) =>
        constructH1 P.t A.positions.length (x.epsilon A.positions.length q) (fun _ => 0) a b := by
    congr 1
    funext q a b
    rw [h.epsilon]
  set H1 : Option (Fin P.t.norb → Fin P.t.norb → ℝ) := dq.map fun q (a b : Fin P.t.norb) =>
        constructH1 P.t A.positions.length (x.epsilon A.positions.length q) (fun _ => 0) a b with hH1
  have hsy : ∀ h, H1 = some h → ∀ i j, h i j = h j i := by
    intro f hf i j
    rw [hH1] at hf
    obtain ⟨q, -, rfl⟩ := Option.map_eq_some_iff.1 hf
    exact c28_symmetric _ _ _ _ _ _
  have hat : ∀ h, H1 = some h → ∀ x x' y y' : Fin P.t.norb, P.t.atomAt x = P.t.atomAt x' →
      P.t.atomAt y = P.t.atomAt y' → h x y = h x' y' := by
    intro f hf a a' b b' h1 h2
    rw [hH1] at hf
    obtain ⟨q, -, rfl⟩ := Option.map_eq_some_iff.1 hf
    exact atomic_h1 hfit _ a a' b b' h1 h2
  obtain ⟨r, h2, h3⟩ := solve_states hx H1 hsy
  obtain ⟨r', h2', h3'⟩ := solve_states hx' H1 hsy
  have hst : ∀ k : Fin P.nk, AreStates (scfHamiltonian H1 (x'.H0 k) (x'.S k)) (x'.S k)
      (r.getD k (0, 0)).1 ((r.getD k (0, 0)).2 * (turnRep P R)ᵀ) := by
    intro k
    have := areStates_turn (turnRep_unitary hfit hR) (h3 k)
    rwa [← scfHamiltonian_turn H1 hat, ← h.H0, ← h.S] at this
  have hee : ∀ k : Fin P.nk, (r'.getD k (0, 0)).1 = (r.getD k (0, 0)).1 := fun k =>
    c121_unique _ _ _ _ _ _ (h3' k) (hst k)
  have hrho : ∀ (g : ℝ → ℝ) (k : Fin P.nk),
      computeRho (r'.getD k (0, 0)).2 (fun a => g ((r'.getD k (0, 0)).1 a))
        = turnRep P R * computeRho (r.getD k (0, 0)).2 (fun a => g ((r.getD k (0, 0)).1 a))
          * (turnRep P R)ᴴ := by
    intro g k
    rw [← computeRho_turn turnRep_conj]
    exact rho_unique (scfHamiltonian_hermitian H1 hsy _ _ (hx'.hermitian k) (hx'.posDef k).isHermitian)
      (hx'.posDef k).isHermitian (h3' k).solved_by (hst k).solved_by g
  unfold onePass
  dsimp only
  rw [he, ← hH1, h2, h2']
  simp only [Bind.bind, Except.bind, pure, Except.pure]
  have hoc : (fun k : Fin P.nk => (r'.getD k (0, 0)).1) = fun k : Fin P.nk => (r.getD k (0, 0)).1 :=
    funext hee
  rw [hoc]
  rcases ho : Occ.occupy ⟨P.nel, P.width, P.wk, fun k : Fin P.nk => (r.getD k (0, 0)).1⟩ T.brentq with er | o
  · exact .inl ⟨er, rfl, rfl⟩
  · have hof : o.2 = fun k a => fermi P.width o.1 ((r.getD (k : Fin P.nk) (0, 0)).1 a) := by
      unfold Occ.occupy at ho
      split at ho
      · split at ho
        · cases ho
        · split at ho
          · cases ho
          · cases ho; rfl
      · cases ho
    dsimp only
    have hm := mulliken_turn hfit hR P.wk
      (rho := fun k => computeRho (r.getD k (0, 0)).2 (o.2 k))
      (rho' := fun k => computeRho (r'.getD k (0, 0)).2 (o.2 k)) (S := x.S) (S' := x'.S)
      (fun k => by
        have := hrho (fermi P.width o.1) k
        rw [hee k] at this
        rw [hof]
        exact this) h.S P.val P.charge P.tol
    rw [hm]
    have fin : ∀ q, PassTurned R
        (⟨fun k => (r.getD k (0, 0)).1, fun k => (r.getD k (0, 0)).2, o.1, q, H1⟩ : Pass P)
        ⟨fun k => (r.getD k (0, 0)).1, fun k => (r'.getD k (0, 0)).2, o.1, q, H1⟩ := by
      intro q
      refine ⟨rfl, rfl, rfl, rfl, fun k => ?_, fun k => ?_, hat⟩
      · have := hrho (fermi P.width o.1) k
        rw [hee k] at this
        exact this
      · have := hrho (fun e => e * fermi P.width o.1 e) k
        rw [hee k] at this
        unfold Pass.rhoe
        rw [computeRhoe_eq, computeRhoe_eq]
        exact this
    split
    · rename_i hsome
      rcases mulliken P.wk (fun k => computeRho (r.getD k (0, 0)).2 (o.2 k)) x.S P.t.blocks P.val P.charge
        P.tol with er | q
      · exact .inl ⟨er, rfl, rfl⟩
      · exact .inr ⟨_, _, rfl, rfl, fin q⟩
    · exact .inr ⟨_, _, rfl, rfl, fin []⟩

/-- Two loops whose solutions correspond. -/
theorem scfLoop_turn {Mx : Type} {N : ℕ} {T : ScfTools P Mx} {x x' : Setup P}
    (h : ∀ dq, (∃ e, onePass T x N dq = .error e ∧ onePass T x' N dq = .error e) ∨
      ∃ p p', onePass T x N dq = .ok p ∧ onePass T x' N dq = .ok p' ∧ PassTurned R p p') (maxiter : ℕ) :
    ∀ (fuel i : ℕ) (s s' : Option (Pass P)) (m : Mx) (dq : List ℝ),
      ((s = none ∧ s' = none) ∨ ∃ p p', s = some p ∧ s' = some p' ∧ PassTurned R p p') →
      (∃ e, scfLoop (scfEnv T x N) maxiter fuel i s m dq = .error e ∧
        scfLoop (scfEnv T x' N) maxiter fuel i s' m dq = .error e) ∨
      ∃ r r', scfLoop (scfEnv T x N) maxiter fuel i s m dq = .ok r ∧
        scfLoop (scfEnv T x' N) maxiter fuel i s' m dq = .ok r' ∧
        ((r.states = none ∧ r'.states = none) ∨
          ∃ p p', r.states = some p ∧ r'.states = some p' ∧ PassTurned R p p') := by
  intro fuel
  induction fuel with
  | zero => intro i s s' m dq hs; exact .inr ⟨_, _, rfl, rfl, hs⟩
  | succ fuel ih =>
    intro i s s' m dq hs
    unfold scfLoop
    rcases h (some dq) with ⟨e, h1, h2⟩ | ⟨p, p', h1, h2, h3⟩
    · left
      refine ⟨e, ?_, ?_⟩
      · simp only [scfEnv, h1, Except.map]
      · simp only [scfEnv, h2, Except.map]
    · have e1 : (scfEnv T x N).solve (some dq) = .ok (some p) := by simp only [scfEnv, h1, Except.map]
      have e2 : (scfEnv T x' N).solve (some dq) = .ok (some p') := by simp only [scfEnv, h2, Except.map]
      rcases hm : T.mix m dq p.dq with ⟨done, dq', mx'⟩
      have e3 : (scfEnv T x N).mix m dq ((scfEnv T x N).dqOut (some p)) = (done, dq', mx') := hm
      have e4 : (scfEnv T x' N).mix m dq ((scfEnv T x' N).dqOut (some p')) = (done, dq', mx') := by
        rw [← hm, ← h3.dq]
        rfl
      simp only [e1, e2, e3, e4]
      have rel : ((some p : Option (Pass P)) = none ∧ (some p' : Option (Pass P)) = none) ∨
          ∃ q q', some p = some q ∧ some p' = some q' ∧ PassTurned R q q' :=
        .inr ⟨p, p', rfl, rfl, h3⟩
      split
      · exact .inr ⟨_, _, rfl, rfl, rel⟩
      · split
        · exact .inl ⟨_, rfl, rfl⟩
        · exact ih _ _ _ _ _ rel

theorem getStates_turn {Mx : Type} {N : ℕ} {T : ScfTools P Mx} {x x' : Setup P}
    (h : ∀ dq, (∃ e, onePass T x N dq = .error e ∧ onePass T x' N dq = .error e) ∨
      ∃ p p', onePass T x N dq = .ok p ∧ onePass T x' N dq = .ok p' ∧ PassTurned R p p')
    (scc : Bool) (maxiter : ℕ) (m : Mx) (dq : List ℝ) :
      (∃ e, getStates (scfEnv T x N) scc maxiter none m dq = .error e ∧
        getStates (scfEnv T x' N) scc maxiter none m dq = .error e) ∨
      ∃ r r', getStates (scfEnv T x N) scc maxiter none m dq = .ok r ∧
        getStates (scfEnv T x' N) scc maxiter none m dq = .ok r' ∧
        ((r.states = none ∧ r'.states = none) ∨
          ∃ p p', r.states = some p ∧ r'.states = some p' ∧ PassTurned R p p') := by
  unfold getStates
  split
  · exact scfLoop_turn h maxiter _ _ _ _ _ _ (.inl ⟨rfl, rfl⟩)
  · split
    · exact .inr ⟨_, _, rfl, rfl, .inl ⟨rfl, rfl⟩⟩
    · rcases h none with ⟨e, h1, h2⟩ | ⟨p, p', h1, h2, h3⟩
      · left
        refine ⟨e, ?_, ?_⟩
        · simp only [scfEnv, h1, Except.map]
        · simp only [scfEnv, h2, Except.map]
      · have e1 : (scfEnv T x N).solve none = .ok (some p) := by simp only [scfEnv, h1, Except.map]
        have e2 : (scfEnv T x' N).solve none = .ok (some p') := by simp only [scfEnv, h2, Except.map]
        rw [e1, e2]
        exact .inr ⟨_, _, rfl, rfl, .inr ⟨p, p', rfl, rfl, h3⟩⟩

/-- The band-structure forces turn along. -/
theorem bandForces_turn (hfit : Fits P A elements) (hR : R.transpose * R = 1) {x x' : Setup P}
    {p p' : Pass P} (h : SetupTurned R x x') (hp : PassTurned R p p') (i : ℕ) (c : Fin 3) :
    (bandForces P.wk (fun k => dHfull (x'.dH0 c k) (x'.dS c k) p'.h1) (x'.dS c) p'.rho p'.rhoe
      P.t.blocks).getD i 0
    = ∑ d, R c d * (bandForces P.wk (fun k => dHfull (x.dH0 d k) (x.dS d k) p.h1) (x.dS d) p.rho p.rhoe
      P.t.blocks).getD i 0 := by
  have hfull : ∀ k, dHfull (x'.dH0 c k) (x'.dS c k) p'.h1
      = turnRep P R * (∑ d, (R c d : ℂ) • dHfull (x.dH0 d k) (x.dS d k) p.h1) * (turnRep P R)ᴴ := by
    intro k
    rw [hp.h1, h.dH0, h.dS]
    have := scfHamiltonian_turn (R := R) p.h1 hp.atomic (∑ d, (R c d : ℂ) • x.dH0 d k)
      (∑ d, (R c d : ℂ) • x.dS d k)
    have e1 : ∀ (X Y : CMat P.t.norb) H1, dHfull X Y H1 = scfHamiltonian H1 X Y := by
      intro X Y H1
      cases H1 with
      | none => rfl
      | some f => rfl
    simp only [e1]
    rw [this]
    congr 2
    cases p.h1 with
    | none => rfl
    | some f =>
      unfold scfHamiltonian
      dsimp only
      simp only [smul_add, Finset.sum_add_distrib]
      congr 1
      ext a b
      simp only [Matrix.of_apply, Matrix.sum_apply, Matrix.smul_apply, smul_eq_mul, Finset.mul_sum]
      exact Finset.sum_congr rfl fun d _ => by ring
  -- entry of the list
  by_cases hi : i < P.t.blocks.length
  · have hb : P.t.blocks[i]? = some P.t.blocks[i] := List.getElem?_eq_getElem hi
    have ent : ∀ (dH dS rho rhoe : Fin P.nk → CMat P.t.norb),
        (bandForces P.wk dH dS rho rhoe P.t.blocks).getD i 0
          = ∑ k, -(2 * P.wk k * (∑ y : Fin P.t.norb, if P.t.atomAt y = i then (dH k * rho k - dS k * rhoe k) y y else 0).re) := by
      intro dH dS rho rhoe
      unfold bandForces
      rw [List.getD_eq_getElem?_getD, List.getElem?_eq_getElem (by simpa using hi), Option.getD_some,
        List.getElem_map,
        block_sum_atom hfit.orbitals _ i _ hb]
      have : (∑ y : Fin P.t.norb, if P.t.atomAt y = i then forceDiag P.wk dH dS rho rhoe y else 0)
          = ∑ k, -((P.wk k : ℂ) * ∑ y : Fin P.t.norb,
            if P.t.atomAt y = i then (dH k * rho k - dS k * rhoe k) y y else 0) := by
        simp only [Finset.mul_sum, ← Finset.sum_neg_distrib]
        rw [Finset.sum_comm]
        refine Finset.sum_congr rfl fun y _ => ?_
        unfold forceDiag
        split
        · refine Finset.sum_congr rfl fun k _ => ?_
          rw [Matrix.sub_apply, Matrix.mul_apply, Matrix.mul_apply, Finset.sum_sub_distrib]
          rfl
        · simp
      rw [this, Complex.re_sum, Finset.mul_sum]
      refine Finset.sum_congr rfl fun k _ => ?_
      rw [Complex.neg_re, Complex.re_ofReal_mul]
      ring
    simp only [ent]
    have sw : ∀ G : Fin 3 → Fin P.nk → ℝ, (∑ d, R c d * ∑ k, G d k) = ∑ k, ∑ d, R c d * G d k := by
      intro G
      simp only [Finset.mul_sum]
      exact Finset.sum_comm
    rw [sw]
    refine Finset.sum_congr rfl fun k _ => ?_
    have e2 : dHfull (x'.dH0 c k) (x'.dS c k) p'.h1 * p'.rho k - x'.dS c k * p'.rhoe k
        = turnRep P R * ((∑ d, (R c d : ℂ) • dHfull (x.dH0 d k) (x.dS d k) p.h1) * p.rho k
          - (∑ d, (R c d : ℂ) • x.dS d k) * p.rhoe k) * (turnRep P R)ᴴ := by
      rw [hfull, h.dS, hp.rho, hp.rhoe, conj_mul_conj (turnRep_unitary hfit hR),
        conj_mul_conj (turnRep_unitary hfit hR), Matrix.mul_sub, Matrix.sub_mul]
    rw [e2, turn_trace hfit hR]
    have e3 : (∑ y : Fin P.t.norb, if P.t.atomAt y = i then
        ((∑ d, (R c d : ℂ) • dHfull (x.dH0 d k) (x.dS d k) p.h1) * p.rho k
          - (∑ d, (R c d : ℂ) • x.dS d k) * p.rhoe k) y y else 0)
        = ∑ d, (R c d : ℂ) * ∑ y : Fin P.t.norb, if P.t.atomAt y = i then
          (dHfull (x.dH0 d k) (x.dS d k) p.h1 * p.rho k - x.dS d k * p.rhoe k) y y else 0 := by
      simp only [Finset.mul_sum]
      rw [Finset.sum_comm]
      refine Finset.sum_congr rfl fun y _ => ?_
      split
      · simp only [Matrix.sub_apply, Finset.sum_mul, Matrix.sum_apply, Matrix.smul_mul, Matrix.smul_apply,
          smul_eq_mul, mul_sub, Finset.sum_sub_distrib]
      · simp
    rw [e3, Complex.re_sum, Finset.mul_sum, ← Finset.sum_neg_distrib]
    refine Finset.sum_congr rfl fun d _ => ?_
    rw [Complex.re_ofReal_mul]
    ring
  · have : ∀ (dH dS rho rhoe : Fin P.nk → CMat P.t.norb),
        (bandForces P.wk dH dS rho rhoe P.t.blocks).getD i 0 = 0 := by
      intro dH dS rho rhoe
      unfold bandForces
      rw [List.getD_eq_getElem?_getD, List.getElem?_eq_none (by simpa using hi), Option.getD_none]
    simp only [this, mul_zero, Finset.sum_const_zero]

end Hotbit
