import Verif.Lemmas.TurningForces
import Verif.Props.NetForce
import Verif.Spec.Torque

/-!
# C130: the forces exert no torque

* `c130_torque` – the forces have no torque about an axis about which the structure can be turned
  together with its images, whenever the forces could be calculated (at any stage of self-consistency).
* `c130_crystal`, `c130_molecule` – for molecules the torque vanishes, for wires its component along the wire.
* `c130_axis`, `c130_yaxis` – wedges and chiral structures have no torque about their axis.
-/

namespace Hotbit

open Matrix
open scoped ComplexOrder

variable {P : ScfIn} {Mx : Type} {T : ScfTools P Mx} {A : Atoms}
  {elements : String → Option ElementData} {σ : Op → Op}

/-- The matrix of `u ×`. -/
def crossMat (u : Vec) : Mat := !![0, -u 2, u 1; u 2, 0, -u 0; -u 1, u 0, 0]

theorem crossMat_mulVec (u r : Vec) : crossMat u *ᵥ r = u ⨯₃ r := by
  rw [cross_apply]
  ext d
  fin_cases d <;> simp [crossMat, Matrix.mulVec, dotProduct, Fin.sum_univ_three] <;> ring

theorem TurnsAbout.turns {u : Vec} (h : TurnsAbout A u) : TurnsFreely A (crossMat u) where
  skew := by
    ext a b
    fin_cases a <;> fin_cases b <;> simp [crossMat]
  images n hn x := by simp only [crossMat_mulVec, h n hn x]

/-- **C130.** About an axis about which the structure can be turned together with its images, the forces
have no torque. -/
theorem c130_torque (hfit : Fits P A elements) (hsm : Smooth P A σ) (hw : WellPosed T A σ)
    (hscan : ∀ n ∈ P.scan, Legal A n) {u : Vec} (hu : TurnsAbout A u) {F : List Vec}
    (h : atomForces T A = .ok F) : u ⬝ᵥ torque A F = 0 := by
  unfold atomForces at h
  simp only [Bind.bind, Except.bind] at h
  rcases hg : groundState T A with e | ⟨x, p⟩
  · rw [hg] at h; cases h
  rw [hg] at h
  simp only [Pure.pure, Except.pure, Except.ok.injEq] at h
  obtain ⟨hx, dq, -, hp⟩ := groundState_pass hg
  obtain ⟨hm, hnb⟩ := setupOf_ok hx
  have hW := hu.turns
  set W := crossMat u with hWd
  have hpos : ∀ i, (P.mat A).pos 0 i = P.bohr⁻¹ • A.pos i := by
    intro i
    show P.bohr⁻¹ • A.rawTransform _ 0 = _
    rw [rawTransform_zero A hsm.closed.commuting, Atoms.pos, List.getD_eq_getElem?_getD]
  have hzip : A.positions.zip F = (List.range A.positions.length).map fun i => (A.pos i, F.getD i 0) := by
    have hl : F.length = A.positions.length := by rw [← h]; simp
    refine List.ext_getElem (by simp [hl]) fun i h1 h2 => ?_
    simp only [List.length_map, List.length_range] at h2
    rw [List.getElem_zip, List.getElem_map, List.getElem_range, Atoms.pos, List.getD_eq_getElem?_getD,
      List.getD_eq_getElem?_getD, List.getElem?_eq_getElem h2, List.getElem?_eq_getElem (by omega)]
    rfl
  have hdot : ∀ l : List Vec, u ⬝ᵥ l.sum = (l.map fun v => u ⬝ᵥ v).sum := by
    intro l
    induction l with
    | nil => simp
    | cons v l ih => rw [List.sum_cons, dotProduct_add, ih, List.map_cons, List.sum_cons]
  unfold torque
  rw [hdot, hzip, List.map_map, List.map_map, list_range_sum]
  have e1 : ∀ i ∈ Finset.range A.positions.length, u ⬝ᵥ (A.pos i ⨯₃ F.getD i 0)
      = (∑ c, (W *ᵥ (P.mat A).pos 0 i) c * (bandForces P.wk (fun k => dHfull (x.dH0 c k) (x.dS c k) p.h1)
          (x.dS c) p.rho p.rhoe P.t.blocks).getD i 0) * P.hartree
        + (repForces (P.geom A) P.V P.rmax i ⬝ᵥ (W *ᵥ (P.geom A).pos 0 i)) * P.hartree
        + (gammaForces P.scc A.positions.length (corrDMatrix P.cd P.bohr P.w x.nb) P.bohr
            (dcField P.gcut p.dq (some x.nb)) (chg p.dq) i ⬝ᵥ (W *ᵥ A.pos i)) * (P.hartree / P.bohr) := by
    intro i hi
    have hi' := Finset.mem_range.1 hi
    have hF : F.getD i 0 = fun c => ((bandForces P.wk (fun k => dHfull (x.dH0 c k) (x.dS c k) p.h1)
          (x.dS c) p.rho p.rhoe P.t.blocks).getD i 0 + repForces (P.geom A) P.V P.rmax i c
        + gammaForces P.scc A.positions.length (corrDMatrix P.cd P.bohr P.w x.nb) P.bohr
            (dcField P.gcut p.dq (some x.nb)) (chg p.dq) i c) * (P.hartree / P.bohr) := by
      rw [← h, List.getD_eq_getElem?_getD, List.getElem?_map, List.getElem?_range hi']
      rfl
    have hg : (P.geom A).pos 0 i = (P.mat A).pos 0 i := rfl
    rw [triple_product_permutation, triple_product_permutation, ← crossMat_mulVec, ← hWd, hg, hpos,
      Matrix.mulVec_smul, hF]
    simp only [dotProduct, Fin.sum_univ_three, Pi.smul_apply, smul_eq_mul]
    ring
  simp only [Function.comp]
  rw [Finset.sum_congr rfl e1, Finset.sum_add_distrib, Finset.sum_add_distrib, ← Finset.sum_mul,
    ← Finset.sum_mul, ← Finset.sum_mul, band_torque hfit hsm hw hW hscan hx hp, rep_torque hsm hW hscan]
  have hcl : ∑ i ∈ Finset.range A.positions.length, gammaForces P.scc A.positions.length
      (corrDMatrix P.cd P.bohr P.w x.nb) P.bohr (dcField P.gcut p.dq (some x.nb)) (chg p.dq) i
      ⬝ᵥ (W *ᵥ A.pos i) = 0 := by
    by_cases hscc : P.scc = true
    · rw [hnb hscc]
      exact gamma_torque hsm.closed hW P.gcut P.scc P.cd P.bohr P.w p.dq
    · simp [gammaForces, hscc]
  rw [hcl]
  simp

/-- **C130 (crystals).** The torque has no component along the periodic directions, if they are all
parallel. -/
theorem c130_crystal (hfit : Fits P A elements) (hsm : Smooth P A σ) (hw : WellPosed T A σ)
    (hscan : ∀ n ∈ P.scan, Legal A n) (hA : A.ctype = .bravais) {u : Vec}
    (hu : ∀ i, A.pbc i = true → u ⨯₃ A.cell i = 0) {F : List Vec}
    (h : atomForces T A = .ok F) : u ⬝ᵥ torque A F = 0 := by
  refine c130_torque hfit hsm hw hscan (fun n hn r => ?_) h
  have key : ∀ i, u ⨯₃ ((n i : ℝ) • A.cell i) = 0 := by
    intro i
    rw [map_smul]
    by_cases hp : A.pbc i = true
    · rw [hu i hp, smul_zero]
    · have := hn i
      have hr : A.ranges i = rangeZero := by simp [Atoms.ranges, hA, hp]
      rw [hr] at this
      have h0 : n i = 0 := by
        have h1 := le_antisymm this.2 this.1
        simp only [rangeZero, Bound.toEReal] at h1
        exact_mod_cast h1
      rw [h0]
      simp
  simp only [Atoms.rawTransform, Atoms.rawRotation, hA, Matrix.one_mulVec, map_add, key, add_zero]

/-- **C130 (molecules).** The forces have no torque. -/
theorem c130_molecule (hfit : Fits P A elements) (hsm : Smooth P A σ) (hw : WellPosed T A σ)
    (hscan : ∀ n ∈ P.scan, Legal A n) (hA : A.ctype = .bravais) (hp : ∀ i, A.pbc i = false) {F : List Vec}
    (h : atomForces T A = .ok F) : torque A F = 0 := by
  have key : ∀ u, u ⬝ᵥ torque A F = 0 := fun u =>
    c130_crystal hfit hsm hw hscan hA (fun i hi => by rw [hp i] at hi; cases hi) h
  funext c
  have := key (Pi.single c 1)
  rwa [single_dotProduct, one_mul] at this

theorem rotZ_turns (a : ℝ) (r : Vec) :
    (![0, 0, 1] : Vec) ⨯₃ (rotZ a *ᵥ r) = rotZ a *ᵥ ((![0, 0, 1] : Vec) ⨯₃ r) := by
  rw [cross_apply, cross_apply]
  ext d
  fin_cases d <;> simp [rotZ, Matrix.mulVec, dotProduct, Fin.sum_univ_three] <;> ring

theorem zaxis_turns (z : ℝ) : (![0, 0, 1] : Vec) ⨯₃ ![0, 0, z] = 0 := by
  rw [cross_apply]
  ext d
  fin_cases d <;> simp

/-- **C130 (structures with an axis).** In wedges and chiral structures there is no torque about the
axis. -/
theorem c130_axis (hfit : Fits P A elements) (hsm : Smooth P A σ) (hw : WellPosed T A σ)
    (hscan : ∀ n ∈ P.scan, Legal A n) (hA : A.ctype = .wedge ∨
    A.ctype = .chiral ∨ A.ctype = .doubleChiral ∨ A.ctype = .chiralWedge ∨ A.ctype = .chiralGeneral)
    {F : List Vec} (h : atomForces T A = .ok F) : torque A F 2 = 0 := by
  have key : (![0, 0, 1] : Vec) ⬝ᵥ torque A F = 0 := by
    refine c130_torque hfit hsm hw hscan (fun n _ r => ?_) h
    rcases hA with h | h | h | h | h
    · simp only [Atoms.rawTransform, Atoms.rawRotation, h, map_add, rotZ_turns]
      split
      · rw [map_smul, zaxis_turns, smul_zero, add_zero]
      · rw [map_zero, add_zero]
    all_goals simp only [Atoms.rawTransform, Atoms.rawRotation, h, map_add, map_smul, rotZ_turns,
      zaxis_turns, smul_zero, add_zero]
  simpa [dotProduct, Fin.sum_univ_three] using key

theorem rotY_turns (a : ℝ) (r : Vec) :
    (![0, 1, 0] : Vec) ⨯₃ (rotY a *ᵥ r) = rotY a *ᵥ ((![0, 1, 0] : Vec) ⨯₃ r) := by
  rw [cross_apply, cross_apply]
  ext d
  fin_cases d <;> simp [rotY, Matrix.mulVec, dotProduct, Fin.sum_univ_three] <;> ring

theorem yaxis_turns (z : ℝ) : (![0, 1, 0] : Vec) ⨯₃ ![0, z, 0] = 0 := by
  rw [cross_apply]
  ext d
  fin_cases d <;> simp

/-- The same for wedges about the y axis. -/
theorem c130_yaxis (hfit : Fits P A elements) (hsm : Smooth P A σ) (hw : WellPosed T A σ)
    (hscan : ∀ n ∈ P.scan, Legal A n) (hA : A.ctype = .wedgeYAxis) {F : List Vec}
    (h : atomForces T A = .ok F) : torque A F 1 = 0 := by
  have key : (![0, 1, 0] : Vec) ⬝ᵥ torque A F = 0 := by
    refine c130_torque hfit hsm hw hscan (fun n _ r => ?_) h
    simp only [Atoms.rawTransform, Atoms.rawRotation, hA, map_add, rotY_turns]
    split
    · rw [map_smul, yaxis_turns, smul_zero, add_zero]
    · rw [map_zero, add_zero]
  simpa [dotProduct, Fin.sum_univ_three] using key

/-! ### An example -/

/-- The dimer meets the conditions. -/
theorem exDimer_wellPosed (J : SkJunk) {Mx : Type} (T : ScfTools (exScf J 1) Mx) (hL : T.L.Ok)
    (ht : 0 ≤ T.tolNorm) : WellPosed T (exDimer 1) id where
  follow := (exScf_smooth J 1).follow
  pairs := (exScf_smooth J 1).pairs
  parity := (exScf_smooth J 1).parity
  shells i hi a b ha hb h := by
    have ha' : a.val < 1 := ha
    have hb' : b.val < 1 := hb
    rw [show a = b from Fin.ext (by omega)]
  orbitals := le_refl 2
  lapack := hL
  tolerance := ht
  overlap k st h := by
    obtain ⟨st', hst, -, hS⟩ := exDimer_mats J 1 (d := 1) (by norm_num) (by norm_num)
    have hk : (exScf J 1).kpt k = 0 := rfl
    rw [hk] at h
    have : st = st' := by
      have := h.symm.trans hst
      cases this
      rfl
    subst this
    have e : (exScf J 1).t.flat st.S = (1 : CMat 2) := hS
    rw [e]
    exact Matrix.PosDef.one

/-- The forces on the two atoms of the dimer have no torque. -/
example (J : SkJunk) : ∃ T : ScfTools (exScf J 1) Unit, ∃ F, atomForces T (exDimer 1) = .ok F ∧
    torque (exDimer 1) F = 0 := by
  obtain ⟨T, hL, ht, F, hF⟩ := exDimer_runs J
  refine ⟨T, F, hF, c130_molecule (exScf_fits J 1 1) (exScf_smooth J 1) (exDimer_wellPosed J T hL ht) ?_ rfl
    ?_ hF⟩
  · intro n hn
    have : n = 0 := by simpa [exScf] using hn
    subst this
    intro i
    fin_cases i <;> simp [exDimer, Atoms.ranges, rangeZero, Bound.toEReal]
  · intro i
    fin_cases i <;> rfl

end Hotbit
