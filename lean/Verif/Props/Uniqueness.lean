import Verif.Lemmas.UniquenessRun
import Verif.Lemmas.GaussianCharges
import Verif.Props.SectorExample
import Verif.Props.TimeReversal

/-!
# C139: the result of a calculation is determined by the structure
-/

set_option linter.unusedSimpArgs false

namespace Hotbit

open Matrix

variable {P : ScfIn} {A : Atoms} {elements : String → Option ElementData}

/-- **C139.** If no charges on the atoms have a negative interaction energy, a structure has at most one
self-consistent solution: any two have the same chemical potential, energies of the states, density
matrices, charges, total energy and forces. So the results do not depend on the mixer, the first guess of the
charges, the calculations before, nor on which of the degenerate states are returned. Without SCC nothing
needs to be known about the interaction. -/
theorem c139_unique (hfit : Fits P A elements) (hw : 0 < P.width) (hk : ∀ k, 0 < P.wk k) (hn : 0 < P.nel)
    (hpos : P.scc = true → ∀ q E, EsEnergy P.cd P.bohr P.U P.w P.gcut A q E → 0 ≤ E)
    {r r' : ScfRun P} (h : Converged P A r) (h' : Converged P A r') :
    r'.mu = r.mu ∧ r'.e = r.e ∧ r'.rho = r.rho ∧ (P.scc = true → r'.dq = r.dq) ∧
      r'.energy A = r.energy A ∧ r'.force A = r.force A := by
  have hrho := rho_unique_scf hfit hw hk hpos h h'
  have hst := h.st_eq h'
  have hS : r'.S = r.S := funext (h.S_eq h')
  have hH0 : r'.H0 = r.H0 := funext (h.H0_eq h')
  have hdq : P.scc = true → r'.dq = r.dq := by
    intro hs
    have a := h.charges hs
    have b := h'.charges hs
    rw [hrho, hS, a] at b
    exact (Except.ok.inj b).symm
  have heps : P.scc = true → ∀ N, r'.epsilon N = r.epsilon N := by
    intro hs N
    obtain ⟨e1, -, e3, -⟩ := es_unique hs h h' (hdq hs)
    unfold ScfRun.epsilon
    rw [e1, e3, hdq hs]
  have hh1 : ∀ N, r'.h1 N = r.h1 N := by
    intro N
    unfold ScfRun.h1
    by_cases hs : P.scc = true
    · rw [if_pos hs, if_pos hs, heps hs]
    · rw [if_neg hs, if_neg hs]
  have hst' : ∀ k, AreStates (scfHamiltonian (r.h1 A.positions.length) (r.H0 k) (r.S k)) (r.S k)
      (r'.e k) (r'.wf k) := by
    intro k
    have := h'.states k
    rwa [hh1, hH0, hS] at this
  have he : r'.e = r.e := funext fun k => c121_unique _ _ _ _ _ _ (hst' k) (h.states k)
  have hmu : r'.mu = r.mu := by
    have a := h'.electrons
    have b := h.electrons
    unfold ScfRun.f at a b
    rw [he] at a
    exact mu_unique hw hk r.e hn a b
  have hrhoe : r'.rhoe = r.rhoe := by
    funext k
    have := rho_unique (h.hermitian k).1 (h.hermitian k).2.2 (hst' k).solutions (h.states k).solutions
      (fun e => e * fermi P.width r.mu e)
    unfold ScfRun.rhoe ScfRun.f
    rw [computeRhoe_eq, computeRhoe_eq, hmu]
    exact this
  refine ⟨hmu, he, hrho, hdq, ?_, ?_⟩
  · unfold ScfRun.energy
    rw [hrho, hH0]
    have : coulombEnergy P.scc A.positions.length (chg r'.dq) (r'.epsilon A.positions.length)
        = coulombEnergy P.scc A.positions.length (chg r.dq) (r.epsilon A.positions.length) := by
      by_cases hs : P.scc = true
      · rw [hdq hs, heps hs]
      · unfold coulombEnergy
        rw [if_neg hs, if_neg hs]
    rw [this]
  · funext i c
    unfold ScfRun.force
    have e1 : ∀ c k, r'.dH0 c k = r.dH0 c k := fun c k => by unfold ScfRun.dH0; rw [hst]
    have e2 : ∀ c, r'.dS c = r.dS c := fun c => by funext k; unfold ScfRun.dS; rw [hst]
    have e3 : gammaForces P.scc A.positions.length r'.dG P.bohr (fun i => r'.field.getD i 0) (chg r'.dq)
        = gammaForces P.scc A.positions.length r.dG P.bohr (fun i => r.field.getD i 0) (chg r.dq) := by
      by_cases hs : P.scc = true
      · obtain ⟨-, g1, -, g2⟩ := es_unique hs h h' (hdq hs)
        rw [hdq hs, g1, g2]
      · funext i
        unfold gammaForces
        rw [if_neg hs, if_neg hs]
    simp only [hrho, hrhoe, e1, e2, e3, hh1]

/-- The widths of the charges belong to the Hubbard parameters, or are larger: two charges of this width in the
same place repel each other no more than the Hubbard parameter says. (The smallest of
these widths is the one that `electrostatics.py:47` and `io/dftb.py:53` choose.) -/
def WideCharges (N : ℕ) (U w : ℕ → ℝ) : Prop :=
  ∀ i < N, 0 < U i ∧ √(8 * Real.log 2 / Real.pi) / U i ≤ w i

/-- No two atoms are in the same place. -/
def DistinctAtoms (A : Atoms) : Prop :=
  ∀ i < A.positions.length, ∀ j < A.positions.length, i ≠ j → A.pos i ≠ A.pos j

/-- **C139.** In a finite structure Gaussian charges of these widths never attract each other as a whole: the
energy that the electrostatics returns is not negative, whatever the charges. -/
theorem c139_gaussian {A : Atoms} (hA : Commuting A.ctype) (hl : ∀ n, Legal A n ↔ n = 0) {bohr : ℝ} (hb : 0 < bohr)
    {U w : ℕ → ℝ} (hU : WideCharges A.positions.length U w) (hd : DistinctAtoms A) {q : List ℝ} {E : ℝ}
    (h : EsEnergy .gaussian bohr U w none A q E) : 0 ≤ E :=
  esEnergy_nonneg hA hl hb hU hd h

/-- **C139.** The same for the charges in one sector of a finite structure. -/
theorem c139_gaussian_sector {A B : Atoms} {M : ℕ} (S : AllSectors A B M) (hl : ∀ n, Legal B n ↔ n = 0) {bohr : ℝ}
    (hb : 0 < bohr) {U w : ℕ → ℝ} (hU : WideCharges A.positions.length U w) (hd : DistinctAtoms B) {q : List ℝ} {E : ℝ}
    (h : EsEnergy .gaussian bohr U w none A q E) : 0 ≤ E :=
  esEnergy_sector_nonneg S hl hb hU hd h

/-- **C139.** The results for a molecule are determined by the molecule. -/
theorem c139_finite (hfit : Fits P A elements) (hw : 0 < P.width) (hk : ∀ k, 0 < P.wk k) (hn : 0 < P.nel)
    (hA : Commuting A.ctype) (hl : ∀ n, Legal A n ↔ n = 0) (hd : DistinctAtoms A)
    (hg : P.scc = true → P.cd = .gaussian ∧ P.gcut = none ∧ WideCharges A.positions.length P.U P.w)
    {r r' : ScfRun P} (h : Converged P A r) (h' : Converged P A r') :
    r'.mu = r.mu ∧ r'.e = r.e ∧ r'.rho = r.rho ∧ (P.scc = true → r'.dq = r.dq) ∧
      r'.energy A = r.energy A ∧ r'.force A = r.force A := by
  refine c139_unique hfit hw hk hn (fun hs q E hE => ?_) h h'
  obtain ⟨h1, h2, h3⟩ := hg hs
  rw [h1, h2] at hE
  exact c139_gaussian hA hl hfit.units h3 hd hE

/-- **C139.** The results for one sector of a symmetric molecule are determined by the sector. -/
theorem c139_sector {B : Atoms} {M : ℕ} (S : AllSectors A B M) (hfit : Fits P A elements) (hw : 0 < P.width)
    (hk : ∀ k, 0 < P.wk k) (hn : 0 < P.nel) (hl : ∀ n, Legal B n ↔ n = 0) (hd : DistinctAtoms B)
    (hg : P.scc = true → P.cd = .gaussian ∧ P.gcut = none ∧ WideCharges A.positions.length P.U P.w)
    {r r' : ScfRun P} (h : Converged P A r) (h' : Converged P A r') :
    r'.mu = r.mu ∧ r'.e = r.e ∧ r'.rho = r.rho ∧ (P.scc = true → r'.dq = r.dq) ∧
      r'.energy A = r.energy A ∧ r'.force A = r.force A := by
  refine c139_unique hfit hw hk hn (fun hs q E hE => ?_) h h'
  obtain ⟨h1, h2, h3⟩ := hg hs
  rw [h1, h2] at hE
  exact c139_gaussian_sector S hl hfit.units h3 hd hE

/-- **C139.** The symmetry of a molecule is never broken: if the calculation for one sector converges, *every*
converged calculation for all atoms gives its chemical potential, its charges in every sector, and its energy
times the number of sectors. (`c134_sector` says that there is one such calculation.) -/
theorem c139_symmetric {P' : ScfIn} {B : Atoms} {M : ℕ} {kf : Fin P'.nk × Fin M ≃ Fin P.nk}
    (C : SectorCalc P P' A B M kf) {elements' : String → Option ElementData} (hA : Fits P A elements)
    (hB : Fits P' B elements') (hw : 0 < P'.width) (hk : ∀ k, 0 < P'.wk k) (hn : 0 < P'.nel)
    (hl : ∀ n, Legal B n ↔ n = 0) (hd : DistinctAtoms B) (hs : P'.scc = true)
    (hg : P'.cd = .gaussian ∧ P'.gcut = none ∧ WideCharges B.positions.length P'.U P'.w)
    {r : ScfRun P} (h : Converged P A r) {r' : ScfRun P'} (h' : Converged P' B r') :
    r'.mu = r.mu ∧
      (∀ u < M, ∀ i < A.positions.length, r'.dq.getD (u * A.positions.length + i) 0 = r.dq.getD i 0) ∧
      ∀ En, 0 < P'.nk → r.energy A = .ok En → r'.energy B = .ok (M * En) := by
  obtain ⟨r2, a1, a2, a3, -, a4⟩ := c134_sector C hA hB h
  obtain ⟨b1, -, -, b2, b3, -⟩ := c139_finite hB hw hk hn C.cell.commB hl hd (fun _ => hg) a1 h'
  rw [b1, b2 hs, b3]
  exact ⟨a2, a3, a4⟩

theorem exWide : √(8 * Real.log 2 / Real.pi) / 1 ≤ 2 := by
  rw [div_one, Real.sqrt_le_left (by norm_num), div_le_iff₀ Real.pi_pos]
  have h1 : Real.log 2 < 1 := by
    have := Real.log_two_lt_d9
    linarith
  have h2 := Real.pi_gt_three
  nlinarith

theorem exOpp2_only (n : Op) : Legal exOpp2 n ↔ n = 0 := by
  refine ⟨exOpp2_legal, fun h => ?_⟩
  have := exOpp_cell.legal_back exOpp_cell.legal_zero
  rw [h]
  simpa using this

theorem exOpp2_distinct : DistinctAtoms exOpp2 := by
  intro i hi j hj hij h
  have hi' : i < 2 := hi
  have hj' : j < 2 := hj
  have key : (![1, 0, 0] : Vec) ≠ ![-1, 0, 0] := fun h => by
    have := congrFun h 0
    simp at this
    linarith
  have p0 : exOpp2.pos 0 = (![1, 0, 0] : Vec) := rfl
  have p1 : exOpp2.pos 1 = (![-1, 0, 0] : Vec) := rfl
  have : (i = 0 ∧ j = 1) ∨ (i = 1 ∧ j = 0) := by omega
  rcases this with ⟨rfl, rfl⟩ | ⟨rfl, rfl⟩
  · rw [p0, p1] at h; exact key h
  · rw [p0, p1] at h; exact key h.symm

/-- Hypotheses of `c139_finite`, and so of `c139_unique` and `c139_gaussian`: two atoms with charge transfer. They have
a solution, and no other has a different energy or different forces. -/
example (J : SkJunk) : (exOppIn2 J).scc = true ∧ ∃ r : ScfRun (exOppIn2 J), Converged (exOppIn2 J) exOpp2 r ∧
    ∀ r', Converged (exOppIn2 J) exOpp2 r' → r'.mu = 0 ∧ r'.energy exOpp2 = r.energy exOpp2 ∧
      r'.force exOpp2 = r.force exOpp2 := by
  refine ⟨rfl, ?_⟩
  obtain ⟨r, hr, hmu, -, -⟩ := exOpp_converged J
  obtain ⟨r1, h1, h2, -⟩ := c134_sector (exOpp_calc J) (exOpp_fits J) (exOpp2_fits J) hr
  refine ⟨r1, h1, fun r' h' => ?_⟩
  obtain ⟨a, -, -, -, b, c⟩ := c139_finite (exOpp2_fits J) (by simp [exOppIn2, exRowIn2, exRowIn])
    (fun k => by simp [exOppIn2, exRowIn2]) (by simp [exOppIn2, exRowIn2]) exOpp_cell.commB exOpp2_only exOpp2_distinct
    (fun _ => ⟨rfl, rfl, fun _ _ => ⟨one_pos, exWide⟩⟩) h1 h'
  exact ⟨a.trans (h2.trans hmu), b, c⟩

/-- Hypotheses of `c139_sector` and `c139_gaussian_sector`: one of the atoms, in a wedge. -/
example (J : SkJunk) : ∃ r : ScfRun (exOppIn J), Converged (exOppIn J) exOpp r ∧
    ∀ r', Converged (exOppIn J) exOpp r' → r'.dq = r.dq ∧ r'.energy exOpp = r.energy exOpp := by
  obtain ⟨r, hr, -⟩ := exOpp_converged J
  refine ⟨r, hr, fun r' h' => ?_⟩
  obtain ⟨-, -, -, a, b, -⟩ := c139_sector exOpp_cell (exOpp_fits J) (by simp [exOppIn, exRowIn])
    (fun k => by simp [exOppIn, exRowIn]) (by simp [exOppIn, exRowIn]) exOpp2_only exOpp2_distinct
    (fun _ => ⟨rfl, rfl, fun _ _ => ⟨one_pos, exWide⟩⟩) hr h'
  exact ⟨a rfl, b⟩

/-- Hypotheses of `c139_symmetric`: the two atoms have equal charges in every converged calculation. -/
example (J : SkJunk) : (∃ r', Converged (exOppIn2 J) exOpp2 r') ∧ ∀ r', Converged (exOppIn2 J) exOpp2 r' →
    r'.dq.getD 0 0 = r'.dq.getD 1 0 := by
  obtain ⟨r, hr, -⟩ := exOpp_converged J
  obtain ⟨r1, h1, -⟩ := c134_sector (exOpp_calc J) (exOpp_fits J) (exOpp2_fits J) hr
  refine ⟨⟨r1, h1⟩, fun r' h' => ?_⟩
  obtain ⟨-, h, -⟩ := c139_symmetric (exOpp_calc J) (exOpp_fits J) (exOpp2_fits J)
    (by simp [exOppIn2, exRowIn2, exRowIn]) (fun k => by simp [exOppIn2, exRowIn2]) (by simp [exOppIn2, exRowIn2])
    exOpp2_only exOpp2_distinct rfl ⟨rfl, rfl, fun _ _ => ⟨one_pos, exWide⟩⟩ hr h'
  have e0 := h 0 (by norm_num) 0 (show 0 < 1 by norm_num)
  have e1 := h 1 (by norm_num) 0 (show 0 < 1 by norm_num)
  exact e0.trans e1.symm

end Hotbit
