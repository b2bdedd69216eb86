import Verif.Lemmas.ChargeResponse

/-!
# The exact self-consistent solution
-/

namespace Hotbit

variable {P : ScfIn}

/-- The exact solution for the atoms: the states are all the states of the Hamiltonian with the potential of the
charges, they are occupied with the Fermi function and exactly the number of electrons, and the charges are the
populations of the orbitals of each atom minus its valence electrons. -/
structure ExactSolution (A : Atoms) (x : Setup P) (q : Fin A.positions.length → ℝ)
    (e : Fin P.nk → Fin P.t.norb → ℝ) (c : Fin P.nk → CMat P.t.norb) (mu : ℝ) : Prop where
  states : ∀ k, Solutions (meanH (x.H0 k) (x.S k) fun y =>
    ∑ j : Fin A.positions.length, gam P.cd P.bohr P.U P.w P.gcut A (P.t.atomAt y) j * q j) (x.S k) (e k) (c k)
  electrons : ∑ k, P.wk k * ∑ a, 2 / (Real.exp ((e k a - mu) / P.width) + 1) = P.nel
  charges : ∀ i, q i = (∑ y : Fin P.t.norb, if P.t.atomAt y = i then
    mullikenDiag P.wk (fun k => computeRho (c k) fun a => 2 / (Real.exp ((e k a - mu) / P.width) + 1)) x.S y else 0)
      - P.val.getD i 0

/-- The energy of the exact solution, without repulsion and free atoms. -/
noncomputable def exactEnergy (A : Atoms) (x : Setup P) (q : Fin A.positions.length → ℝ)
    (e : Fin P.nk → Fin P.t.norb → ℝ) (c : Fin P.nk → CMat P.t.norb) (mu : ℝ) : ℝ :=
  (∑ k, P.wk k * (∑ i, ∑ j,
    computeRho (c k) (fun a => 2 / (Real.exp ((e k a - mu) / P.width) + 1)) i j * x.H0 k j i).re)
    + (∑ i : Fin A.positions.length, ∑ j : Fin A.positions.length,
        q i * gam P.cd P.bohr P.U P.w P.gcut A i j * q j) / 2

/-- The forces of the exact solution, without repulsion. -/
noncomputable def exactForce (A : Atoms) (x : Setup P) (q : Fin A.positions.length → ℝ)
    (e : Fin P.nk → Fin P.t.norb → ℝ) (c : Fin P.nk → CMat P.t.norb) (mu : ℝ) (i : ℕ) (d : Fin 3) : ℝ :=
  let v : Fin P.t.norb → ℝ := fun y =>
    ∑ j : Fin A.positions.length, gam P.cd P.bohr P.U P.w P.gcut A (P.t.atomAt y) j * q j
  let f : Fin P.nk → Fin P.t.norb → ℝ := fun k a => 2 / (Real.exp ((e k a - mu) / P.width) + 1)
  (bandForces P.wk (fun k => dHfull (x.dH0 d k) (x.dS d k) (some fun a b => (v a + v b) / 2)) (x.dS d)
      (fun k => computeRho (c k) (f k)) (fun k => computeRhoe (c k) (f k) (e k)) P.t.blocks).getD i 0
    + gammaForces P.scc A.positions.length (corrDMatrix P.cd P.bohr P.w x.nb) P.bohr
        (dcField P.gcut (List.ofFn q) (some x.nb)) (chg (List.ofFn q)) i d

/-- The mixer only says that it is done if no charge changed by more than `d` in the last iteration. -/
def Truthful {Mx : Type} (N : ℕ) (T : ScfTools P Mx) (d : ℝ) : Prop :=
  ∀ s a b, (T.mix s a b).1 = true → ∀ i : Fin N, |vecOf N b i - vecOf N a i| ≤ d

/-- How errors of the charges are enhanced. -/
noncomputable def enhancement (A : Atoms) (x : Setup P) : ℝ := 2 * stiffness P A * softness x / P.width

/-- A bound for the error of the charges if they are converged up to `d`. -/
noncomputable def chargeError (A : Atoms) (x : Setup P) (d : ℝ) : ℝ :=
  enhancement A x * (√A.positions.length * d + chargeNoise x) + chargeNoise x

end Hotbit
