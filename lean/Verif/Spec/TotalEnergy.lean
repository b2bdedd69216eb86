import Verif.Model.TotalEnergy
import Verif.Model.Calculator
import Verif.Spec.Eigen
import Verif.Spec.Matrices
import Verif.Props.Repulsion
import Verif.Props.Electrostatics
import Mathlib.Analysis.SpecialFunctions.BinaryEntropy

/-!
# Specification of the converged calculation, its free energy, and paths of calculations
-/

namespace Hotbit

/-- The run is a self-consistent solution for the atoms: the matrices are those of the atoms, the
states are all the states of the Hamiltonian with the potential of the charges, they are occupied by
the right number of electrons, and with SCC the charges are the Mulliken charges of the states. -/
structure Converged (P : ScfIn) (A : Atoms) (r : ScfRun P) : Prop where
  mats : ∀ k, getMatrices (P.mat A) (P.kpt k) = .ok (r.st k)
  states : ∀ k, AreStates (scfHamiltonian (r.h1 A.positions.length) (r.H0 k) (r.S k)) (r.S k)
    (r.e k) (r.wf k)
  electrons : ∑ k, P.wk k * ∑ a, r.f k a = P.nel
  charges : P.scc = true → mulliken P.wk r.rho r.S P.t.blocks P.val P.charge P.tol = .ok r.dq
  potential : P.scc = true → EsState P.cd P.bohr P.U P.w P.gcut A r.dq r.G r.dG r.s ∧
    dcPotential r.s = .ok r.phi ∧ dcGetField r.s = .ok r.field

/-- The entropy of the electrons: two spins per state, each occupied with probability `f/2`. -/
noncomputable def ScfRun.entropy {P : ScfIn} (r : ScfRun P) : ℝ :=
  2 * ∑ k, P.wk k * ∑ a, Real.binEntropy (r.f k a / 2)

/-- The parameters belong to the atoms. -/
structure Fits (P : ScfIn) (A : Atoms) (elements : String → Option ElementData) : Prop where
  orbitals : orbInit elements A.symbols = .ok P.t
  numbers : ∀ i < A.positions.length, P.t.nrOrbitals[i]? = some (P.no i) ∧ ValidNo (P.no i)
  valences : P.val.length = A.positions.length
  units : 0 < P.bohr

/-- The images come in inverse pairs and no distance is at the end of a range or a cutoff, and all
tables and potentials are differentiable at the distances that occur. -/
structure Smooth (P : ScfIn) (A : Atoms) (σ : Op → Op) : Prop where
  closed : InversionClosed A
  follow : OrbitalsFollow (P.mat A)
  pairs : ∀ k, InversePairs (P.mat A) (P.kpt k) σ
  inverse : (P.geom A).Inverse σ
  parity : ∀ i < A.positions.length, ParityTable SkTable.h (P.tab ((P.mat A).sym i) ((P.mat A).sym i)) ∧
    ParityTable SkTable.s (P.tab ((P.mat A).sym i) ((P.mat A).sym i))
  tables : ∀ i j, i ≤ j → j < A.positions.length → SmoothPair (P.mat A) i j
  images : ∀ n ∈ P.scan, ∀ i < A.positions.length, ∀ j < A.positions.length,
    ∑ c, ((P.mat A).pos 0 j c - (P.mat A).pos n i c) ^ 2 ≠ P.cut i j ^ 2
  symmetric : SymmetricPot (P.geom A) P.V
  repulsion : SmoothRep (P.geom A) P.V P.rmax
  cutoff : ∀ c, P.gcut = some c → c ≠ 0
  coulomb : RegularPairs A P.gcut

/-- Along the path `r` of calculations the states can be followed: there are orthonormal solutions
and energies that are differentiable at `0`, so is the chemical potential, and no level is exactly
where the exponential of the occupation function overflows. -/
def SmoothStates {P : ScfIn} (N : ℕ) (r : ℝ → ScfRun P) (ε : ℝ → Fin P.nk → Fin P.t.norb → ℝ) : Prop :=
  (∃ c : ℝ → Fin P.nk → CMat P.t.norb,
    (∀ᶠ t in nhds 0, ∀ k, Solutions (scfHamiltonian ((r t).h1 N) ((r t).H0 k) ((r t).S k)) ((r t).S k)
      (ε t k) (c t k)) ∧
    ∀ k a i, DifferentiableAt ℝ (fun t => c t k a i) 0) ∧
  (∀ k a, DifferentiableAt ℝ (fun t => ε t k a) 0) ∧
  DifferentiableAt ℝ (fun t => (r t).mu) 0 ∧
  ∀ k a, (ε 0 k a - (r 0).mu) / P.width ≠ maxExpArg

/-- The atoms when coordinate `c` of atom `a` is `t` larger (in Ångström). -/
noncomputable def moved (A : Atoms) (a : ℕ) (c : Fin 3) (t : ℝ) : Atoms := displace A a (Pi.single c 1) t

end Hotbit
