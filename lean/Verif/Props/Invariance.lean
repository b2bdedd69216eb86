import Verif.Lemmas.TurnedGeometry
import Verif.Props.MatricesContainers

/-!
# C125: turning, reflecting or shifting a structure

* `c125_energy` – the energy (or the error) is the same for the moved structure.
* `c125_forces` – the forces turn along.
* `c125_states` – so do charges, energies of the states and the chemical potential, which are equal.
* `c125_bravais`, `c125_axis`, `c125_yaxis`, `c125_slab` – which motions the containers allow.
* `c125_crystal` – molecules and crystals, where all conditions on the images are met.
-/

set_option linter.unusedSimpArgs false

namespace Hotbit

open Matrix
open scoped ComplexOrder

variable {P : ScfIn} {Mx : Type} {T : ScfTools P Mx} {A A' : Atoms}
  {elements : String → Option ElementData} {R : Mat} {c : Vec} {σ : Op → Op}

/-- The ground states of the structure and of the moved one correspond. -/
theorem groundState_turn (hfit : Fits P A elements) (h : RigidlyMoved A A' R c)
    (hA : A.ctype ≠ .twistAndTurn) (hw : WellPosed T A σ) (hf' : OrbitalsFollow (P.mat A')) :
    (∃ e, groundState T A = .error e ∧ groundState T A' = .error e) ∨
    ∃ x x' p p', groundState T A = .ok (x, p) ∧ groundState T A' = .ok (x', p') ∧
      SetupTurned R x x' ∧ PassTurned R p p' := by
  unfold groundState
  rcases setup_turn hfit h hA hw hf' with ⟨e, h1, h2⟩ | ⟨x, x', h1, h2, hx, hs⟩
  · exact .inl ⟨e, by rw [h1]; rfl, by rw [h2]; rfl⟩
  · rw [h1, h2, h.plength]
    simp only [Bind.bind, Except.bind, pure, Except.pure]
    rcases getStates_turn (R := R) (fun dq => onePass_turn hfit h.orth hs hx dq) P.scc T.maxiter T.mx T.guess with
      ⟨e, h3, h4⟩ | ⟨r, r', h3, h4, h5⟩
    · exact .inl ⟨e, by rw [h3], by rw [h4]⟩
    · rw [h3, h4]
      dsimp only
      rcases h5 with ⟨h6, h7⟩ | ⟨p, p', h6, h7, h8⟩
      · rw [h6, h7]
        exact .inl ⟨_, rfl, rfl⟩
      · rw [h6, h7]
        dsimp only
        rw [mulliken_turn hfit h.orth P.wk h8.rho hx.S]
        rcases mulliken P.wk p.rho x.S P.t.blocks P.val P.charge P.tol with e | q
        · exact .inl ⟨_, rfl, rfl⟩
        · dsimp only
          rcases checkMulliken q T.Z with e | u
          · exact .inl ⟨_, rfl, rfl⟩
          · exact .inr ⟨x, x', p, p', rfl, rfl, hx, h8⟩

/-- **C125.** The energy of the moved structure is the energy of the structure; if one cannot be
calculated, neither can the other. -/
theorem c125_energy (hfit : Fits P A elements) (h : RigidlyMoved A A' R c)
    (hA : A.ctype ≠ .twistAndTurn) (hw : WellPosed T A σ) (hf' : OrbitalsFollow (P.mat A')) :
    potentialEnergy T A' = potentialEnergy T A := by
  unfold potentialEnergy
  rcases groundState_turn hfit h hA hw hf' with ⟨e, h1, h2⟩ | ⟨x, x', p, p', h1, h2, hx, hp⟩
  · rw [h1, h2]; rfl
  · rw [h1, h2, h.plength]
    simp only [Bind.bind, Except.bind, pure, Except.pure]
    rw [bandEnergy_turn hfit h.orth P.wk hp.rho hx.H0, hx.epsilon, hp.dq, h.repEnergy_moved]

/-- **C125.** The forces on the atoms of the moved structure are the forces on the atoms of the
structure, turned. -/
theorem c125_forces (hfit : Fits P A elements) (h : RigidlyMoved A A' R c)
    (hA : A.ctype ≠ .twistAndTurn) (hw : WellPosed T A σ) (hf' : OrbitalsFollow (P.mat A')) :
    atomForces T A' = (atomForces T A).map (List.map fun f => R *ᵥ f) := by
  unfold atomForces
  rcases groundState_turn hfit h hA hw hf' with ⟨e, h1, h2⟩ | ⟨x, x', p, p', h1, h2, hx, hp⟩
  · rw [h1, h2]; rfl
  · rw [h1, h2, h.plength]
    simp only [Bind.bind, Except.bind, pure, Except.pure, Except.map, List.map_map]
    congr 1
    refine List.map_congr_left fun i hi => ?_
    have hi' : i < A.atoms.length := by
      have := List.mem_range.1 hi
      simpa [Atoms.positions] using this
    have e1 := h.repForces_moved (P := P) hi'
    have e2 : corrDMatrix P.cd P.bohr P.w x'.nb = fun i j => R *ᵥ corrDMatrix P.cd P.bohr P.w x.nb i j := by
      funext i j
      rw [hx.nb, corrDMatrix_turn]
    have e3 : dcField P.gcut p'.dq (some x'.nb) = fun i => R *ᵥ dcField P.gcut p.dq (some x.nb) i := by
      funext i
      rw [hx.nb, hp.dq, dcField_turn]
    have e4 : gammaForces P.scc A.positions.length (corrDMatrix P.cd P.bohr P.w x'.nb) P.bohr
        (dcField P.gcut p'.dq (some x'.nb)) (chg p'.dq) i
        = R *ᵥ gammaForces P.scc A.positions.length (corrDMatrix P.cd P.bohr P.w x.nb) P.bohr
          (dcField P.gcut p.dq (some x.nb)) (chg p.dq) i := by
      rw [e2, e3, hp.dq, gammaForces_turn]
    funext b
    simp only [Function.comp]
    rw [bandForces_turn hfit h.orth hx hp i b, e1, e4]
    simp only [mulVec, dotProduct, Fin.sum_univ_three]
    ring

/-- **C125.** Charges, energies of the states and chemical potential do not change. -/
theorem c125_states (hfit : Fits P A elements) (h : RigidlyMoved A A' R c)
    (hA : A.ctype ≠ .twistAndTurn) (hw : WellPosed T A σ) (hf' : OrbitalsFollow (P.mat A')) :
    ((groundState T A').map fun g => (g.2.e, g.2.mu, g.2.dq))
      = (groundState T A).map fun g => (g.2.e, g.2.mu, g.2.dq) := by
  rcases groundState_turn hfit h hA hw hf' with ⟨e, h1, h2⟩ | ⟨x, x', p, p', h1, h2, hx, hp⟩
  · rw [h1, h2]
  · rw [h1, h2]
    simp only [Except.map, hp.e, hp.mu, hp.dq]

/-! ### Which motions are possible -/

/-- The atoms moved, the container unchanged. -/
noncomputable def moveAtoms (A : Atoms) (R : Mat) (c : Vec) : Atoms :=
  { A with atoms := A.atoms.map fun a => (a.1, R *ᵥ a.2 + c) }

/-- Atoms and cell vectors turned, and the atoms shifted. -/
noncomputable def moveCell (A : Atoms) (R : Mat) (c : Vec) : Atoms :=
  { moveAtoms A R c with cell := Matrix.of fun i => R *ᵥ A.cell i }

/-- Molecules and crystals can be turned, reflected and shifted at will. -/
theorem c125_bravais (A : Atoms) (hA : A.ctype = .bravais) (R : Mat) (hR : Rᵀ * R = 1) (c : Vec) :
    RigidlyMoved A (moveCell A R c) R c where
  orth := hR
  ctype := rfl
  ranges := by simp [Atoms.ranges, moveCell, moveAtoms, hA]
  atoms := rfl
  images x n := by
    have e : ∀ i, (moveCell A R c).cell i = R *ᵥ A.cell i := fun i => rfl
    have ht : (moveCell A R c).ctype = .bravais := hA
    unfold Atoms.rawTransform
    rw [ht, hA]
    simp only [e]
    rw [mulVec_add, mulVec_add, mulVec_add, mulVec_smul, mulVec_smul, mulVec_smul]
    abel
  rotations n := by
    have ht : (moveCell A R c).ctype = .bravais := hA
    unfold Atoms.rawRotation
    rw [ht, hA]
    simp only
    rw [Matrix.mul_one, mul_eq_one_comm.1 hR]

theorem rotZ_comm (a b : ℝ) : rotZ a * rotZ b * (rotZ a)ᵀ = rotZ b := by
  rw [rotZ_transpose, ← rotZ_add, ← rotZ_add]
  congr 1
  ring

theorem rotY_comm (a b : ℝ) : rotY a * rotY b * (rotY a)ᵀ = rotY b := by
  rw [rotY_transpose, ← rotY_add, ← rotY_add]
  congr 1
  ring

/-- Wedge, chiral and doubly chiral structures and the like can be turned about the z axis and shifted
along it. -/
theorem c125_axis (A : Atoms) (hA : A.ctype = .wedge ∨ A.ctype = .chiral ∨ A.ctype = .doubleChiral ∨
    A.ctype = .chiralWedge ∨ A.ctype = .chiralGeneral) (φ z : ℝ) :
    RigidlyMoved A (moveAtoms A (rotZ φ) ![0, 0, z]) (rotZ φ) ![0, 0, z] := by
  have hrot : ∃ θ : Op → ℝ, ∀ n, A.rawRotation n = rotZ (θ n) := by
    rcases hA with h | h | h | h | h <;> exact ⟨_, fun n => by simp only [Atoms.rawRotation, h]; rfl⟩
  obtain ⟨θ, hθ⟩ := hrot
  have htr : ∃ w : Op → ℝ, ∀ (B : Atoms), B.ctype = A.ctype → B.cell = A.cell → B.pbc = A.pbc → ∀ x n,
      B.rawTransform x n = rotZ (θ n) *ᵥ x + ![0, 0, w n] := by
    have hB : ∀ (B : Atoms), B.ctype = A.ctype → B.cell = A.cell → ∀ n, B.rawRotation n = rotZ (θ n) := by
      intro B h1 h2 n
      rw [← hθ n]
      rcases hA with h | h | h | h | h <;> simp only [Atoms.rawRotation, h1, h, h2, Atoms.wedgeAngle]
    rcases hA with h | h | h | h | h
    · refine ⟨fun n => if A.wedgePbcz then n 2 * A.wedgeHeight else 0, fun B h1 h2 h3 x n => ?_⟩
      have e := hB B h1 h2 n
      unfold Atoms.rawTransform
      rw [h1, h]
      simp only [e, Atoms.wedgePbcz, Atoms.wedgeHeight, h2, h3]
      congr 1
      by_cases hz : A.pbc 2 = true <;> (ext i; fin_cases i <;> simp [hz])
    · refine ⟨fun n => n 2 * A.cell 1 0, fun B h1 h2 h3 x n => ?_⟩
      have e := hB B h1 h2 n
      unfold Atoms.rawTransform
      rw [h1, h]
      simp only [e, h2]
    · refine ⟨fun n => (n 2 + n 0 * A.cell 0 1) * A.cell 2 0, fun B h1 h2 h3 x n => ?_⟩
      have e := hB B h1 h2 n
      unfold Atoms.rawTransform
      rw [h1, h]
      simp only [e, h2]
    · refine ⟨fun n => n 2 * A.cell 1 0, fun B h1 h2 h3 x n => ?_⟩
      have e := hB B h1 h2 n
      unfold Atoms.rawTransform
      rw [h1, h]
      simp only [e, h2]
      congr 1
      ext i; fin_cases i <;> simp
    · refine ⟨fun n => n 0 * A.cell 1 0 + n 1 * A.cell 0 1, fun B h1 h2 h3 x n => ?_⟩
      have e := hB B h1 h2 n
      unfold Atoms.rawTransform
      rw [h1, h]
      simp only [e, h2]
      congr 1
      ext i; fin_cases i <;> simp
  obtain ⟨w, hw⟩ := htr
  refine ⟨rotZ_orth φ, rfl, rfl, rfl, fun x n => ?_, fun n => ?_⟩
  · rw [hw (moveAtoms A (rotZ φ) ![0, 0, z]) rfl rfl rfl, hw A rfl rfl rfl, mulVec_add, mulVec_add,
      rotZ_mulVec_z, rotZ_mulVec_z, mulVec_mulVec, mulVec_mulVec, ← rotZ_add, ← rotZ_add, add_comm φ]
    abel
  · have e : (moveAtoms A (rotZ φ) ![0, 0, z]).rawRotation n = A.rawRotation n := rfl
    rw [e, hθ, rotZ_comm]

/-- Wedges about the y axis can be turned about it and shifted along it. -/
theorem c125_yaxis (A : Atoms) (hA : A.ctype = .wedgeYAxis) (φ y : ℝ) :
    RigidlyMoved A (moveAtoms A (rotY φ) ![0, y, 0]) (rotY φ) ![0, y, 0] := by
  have hrot : ∀ n, A.rawRotation n = rotY (n 0 * A.wedgeAngle) := fun n => by
    simp only [Atoms.rawRotation, hA]
  have htr : ∀ x n, A.rawTransform x n = rotY (n 0 * A.wedgeAngle) *ᵥ x
      + ![0, if A.wedgeYPbc then n 1 * A.wedgeHeight else 0, 0] := by
    intro x n
    unfold Atoms.rawTransform
    rw [hA]
    simp only [hrot]
    congr 1
    split <;> (ext i; fin_cases i <;> simp)
  refine ⟨rotY_orth φ, rfl, rfl, rfl, fun x n => ?_, fun n => ?_⟩
  · have e : (moveAtoms A (rotY φ) ![0, y, 0]).rawTransform (rotY φ *ᵥ x + ![0, y, 0]) n
        = A.rawTransform (rotY φ *ᵥ x + ![0, y, 0]) n := by
      unfold Atoms.rawTransform
      rw [show (moveAtoms A (rotY φ) ![0, y, 0]).ctype = A.ctype from rfl, hA]
      rfl
    rw [e, htr, htr, mulVec_add, mulVec_add,
      rotY_mulVec_y, rotY_mulVec_y, mulVec_mulVec, mulVec_mulVec, ← rotY_add, ← rotY_add, add_comm φ]
    abel
  · have e : (moveAtoms A (rotY φ) ![0, y, 0]).rawRotation n = A.rawRotation n := rfl
    rw [e, hrot, rotY_comm]

/-- Slabs can be turned about the z axis together with their cell, and shifted in the plane. -/
theorem c125_slab (A : Atoms) (hA : A.ctype = .slab) (φ x y : ℝ) :
    RigidlyMoved A (moveCell A (rotZ φ) ![x, y, 0]) (rotZ φ) ![x, y, 0] := by
  have ht : (moveCell A (rotZ φ) ![x, y, 0]).ctype = .slab := hA
  refine ⟨rotZ_orth φ, rfl, ?_, rfl, fun r n => ?_, fun n => ?_⟩
  · unfold Atoms.ranges
    rw [ht, hA]
  · have e : ∀ i, (moveCell A (rotZ φ) ![x, y, 0]).cell i = rotZ φ *ᵥ A.cell i := fun i => rfl
    have e2 : (moveCell A (rotZ φ) ![x, y, 0]).slabX = A.slabX := rfl
    unfold Atoms.rawTransform
    rw [ht, hA]
    simp only [slabTransform, e, e2]
    split
    · ext i
      fin_cases i <;> simp [rotZ, mulVec, dotProduct, Fin.sum_univ_three] <;> ring
    · ext i
      fin_cases i <;> simp [rotZ, mulVec, dotProduct, Fin.sum_univ_three] <;> ring
  · unfold Atoms.rawRotation
    rw [ht, hA]
    simp only
    split
    · rw [Matrix.mul_one, mul_eq_one_comm.1 (rotZ_orth φ)]
    · have := Real.cos_sq_add_sin_sq φ
      rw [rotZ_transpose]
      ext i j
      fin_cases i <;> fin_cases j <;> simp [rotZ, Matrix.mul_apply, Fin.sum_univ_three] <;> nlinarith

/-- The orbitals follow the rotations of the moved structure if they did before and the rotations of the
container are the same. -/
theorem follow_moved (h : RigidlyMoved A A' R c)
    (hrot : A'.rawRotation = A.rawRotation) (hang : A'.rawAngles = A.rawAngles)
    (hf : OrbitalsFollow (P.mat A)) : OrbitalsFollow (P.mat A') := by
  have hnt : (P.mat A').ntuples = (P.mat A).ntuples := h.select P.bohr P.cut P.scan
  have hD : HasD (P.mat A') ↔ HasD (P.mat A) := by
    unfold HasD
    rw [show (P.mat A').N = (P.mat A).N from h.length]
    rfl
  intro n hn
  rw [hnt] at hn
  obtain ⟨D, h1, h2⟩ := hf n hn
  have e1 : (P.mat A').rot n = (P.mat A).rot n := congrFun hrot n
  have e2 : (P.mat A').angles n = (P.mat A).angles n := by
    show (A'.rawAngles n).getD _ = (A.rawAngles n).getD _
    rw [hang]
  refine ⟨D, ?_, fun a b hab => ?_⟩
  · rw [e1, e2, propext hD]
    exact h1
  · rw [e1]
    exact h2 a b (by rwa [hD] at hab)

/-- **C125.** Turning a structure with an axis about it and shifting it along the axis leaves the energy
as it is and turns the forces. -/
theorem c125_about_axis (hfit : Fits P A elements) (hA : A.ctype = .wedge ∨ A.ctype = .chiral ∨
    A.ctype = .doubleChiral ∨ A.ctype = .chiralWedge ∨ A.ctype = .chiralGeneral) (hw : WellPosed T A σ)
    (φ z : ℝ) :
    potentialEnergy T (moveAtoms A (rotZ φ) ![0, 0, z]) = potentialEnergy T A ∧
    atomForces T (moveAtoms A (rotZ φ) ![0, 0, z]) = (atomForces T A).map (List.map fun f => rotZ φ *ᵥ f) := by
  have hm := c125_axis A hA φ z
  have ht : A.ctype ≠ .twistAndTurn := by rcases hA with h | h | h | h | h <;> rw [h] <;> simp
  have hf := follow_moved (P := P) hm rfl rfl hw.follow
  exact ⟨c125_energy hfit hm ht hw hf, c125_forces hfit hm ht hw hf⟩

/-- The same for wedges about the y axis. -/
theorem c125_about_yaxis (hfit : Fits P A elements) (hA : A.ctype = .wedgeYAxis) (hw : WellPosed T A σ)
    (φ y : ℝ) :
    potentialEnergy T (moveAtoms A (rotY φ) ![0, y, 0]) = potentialEnergy T A ∧
    atomForces T (moveAtoms A (rotY φ) ![0, y, 0]) = (atomForces T A).map (List.map fun f => rotY φ *ᵥ f) := by
  have hm := c125_yaxis A hA φ y
  have ht : A.ctype ≠ .twistAndTurn := by rw [hA]; simp
  have hf := follow_moved (P := P) hm rfl rfl hw.follow
  exact ⟨c125_energy hfit hm ht hw hf, c125_forces hfit hm ht hw hf⟩

/-- The images of molecules and crystals come in pairs, and their orbitals follow. -/
theorem wellPosed_bravais_images (hA : A.ctype = .bravais) {m : Fin 3 → ℕ} (hscan : P.scan = boxOps m)
    (hcut : ∀ i j, P.cut i j = P.cut j i) :
    OrbitalsFollow (P.mat A) ∧ ∀ k, InversePairs (P.mat A) (P.kpt k) (undoOp 0) := by
  have hc : Commuting A.ctype := by rw [hA]; trivial
  have hr : ∀ n, A.rawRotation n = 1 := fun n => by simp only [Atoms.rawRotation, hA]
  have hu : ∀ n : Op, undoOp 0 n = -n := fun n => by unfold undoOp; split <;> simp
  refine ⟨orbitalsFollow_ofAtoms A hc _ _ _ _ _ _ _ _
    (fun n _ => ⟨fun _ => hr n, by rw [hA]; intro h; cases h⟩), fun k =>
    (c29_inverse_pairs A hc P.bohr (P.kpt k) P.no P.eps P.seps P.tab P.J 0 P.cut P.scan hcut
      (by rw [hscan]; exact nodup_boxOps m) ?_ (Or.inr rfl)
      ⟨rawTransform_zero A hc, hr 0, blochPhase_zero _⟩ (by rw [hu]; simp)).2⟩
  intro n hn
  rw [hscan, mem_boxOps] at hn
  rw [hscan, hu, mem_boxOps]
  intro c
  have := hn c
  simp only [Pi.neg_apply]
  omega

/-- The conditions on the images, from the operations of the container (C29): `e` is an operation that
does nothing, such as the full turn of a wedge. -/
theorem wellPosed_container (hA : Commuting A.ctype) (e : Op) (hcut : ∀ i j, P.cut i j = P.cut j i)
    (hnd : P.scan.Nodup) (hscan : ∀ n ∈ P.scan, undoOp e n ∈ P.scan)
    (he0 : (∀ n ∈ P.scan, 2 * n 0 ≠ - e 0) ∨ e 0 = 0) (he : ∀ k, TrivialOp A (P.kpt k) e)
    (hinv0 : undoOp e 0 = 0) (hres : RotationsResolved A (HasD (P.mat A)) P.scan)
    (hpar : ∀ s, ParityTable SkTable.h (P.tab s s) ∧ ParityTable SkTable.s (P.tab s s))
    (hsh : ∀ i < A.atoms.length, ∀ a b : Fin 9, a.val < P.no i → b.val < P.no i → orbL a = orbL b →
      P.eps i a = P.eps i b) (horb : 2 ≤ P.t.norb) (hL : T.L.Ok) (htol : 0 ≤ T.tolNorm)
    (hS : ∀ k st, getMatrices (P.mat A) (P.kpt k) = .ok st → (P.t.flat st.S).PosDef) :
    WellPosed T A (undoOp e) :=
  ⟨orbitalsFollow_ofAtoms A hA _ _ _ _ _ _ _ _ hres,
    fun k => (c29_inverse_pairs A hA P.bohr (P.kpt k) P.no P.eps P.seps P.tab P.J e P.cut P.scan hcut hnd
      hscan he0 (he k) hinv0).2, fun _ _ => hpar _, hsh, horb, hL, htol, hS⟩

/-- Molecules and crystals meet the conditions on the images. -/
theorem wellPosed_bravais (hA : A.ctype = .bravais) {m : Fin 3 → ℕ} (hscan : P.scan = boxOps m)
    (hcut : ∀ i j, P.cut i j = P.cut j i)
    (hpar : ∀ s, ParityTable SkTable.h (P.tab s s) ∧ ParityTable SkTable.s (P.tab s s))
    (hsh : ∀ i < A.atoms.length, ∀ a b : Fin 9, a.val < P.no i → b.val < P.no i → orbL a = orbL b →
      P.eps i a = P.eps i b) (horb : 2 ≤ P.t.norb) (hL : T.L.Ok) (htol : 0 ≤ T.tolNorm)
    (hS : ∀ k st, getMatrices (P.mat A) (P.kpt k) = .ok st → (P.t.flat st.S).PosDef) :
    WellPosed T A (undoOp 0) := by
  have h := wellPosed_bravais_images (P := P) hA hscan hcut
  exact ⟨h.1, h.2, fun _ _ => hpar _, hsh, horb, hL, htol, hS⟩

/-- **C125 (molecules and crystals).** Whatever the cell and the boundary conditions: turning,
reflecting and shifting the structure leaves the energy as it is and turns the forces. -/
theorem c125_crystal (hfit : Fits P A elements) (hA : A.ctype = .bravais) {m : Fin 3 → ℕ}
    (hscan : P.scan = boxOps m) (hcut : ∀ i j, P.cut i j = P.cut j i)
    (hpar : ∀ s, ParityTable SkTable.h (P.tab s s) ∧ ParityTable SkTable.s (P.tab s s))
    (hsh : ∀ i < A.atoms.length, ∀ a b : Fin 9, a.val < P.no i → b.val < P.no i → orbL a = orbL b →
      P.eps i a = P.eps i b) (horb : 2 ≤ P.t.norb) (hL : T.L.Ok) (htol : 0 ≤ T.tolNorm)
    (hS : ∀ k st, getMatrices (P.mat A) (P.kpt k) = .ok st → (P.t.flat st.S).PosDef)
    (R : Mat) (hR : Rᵀ * R = 1) (c : Vec) :
    potentialEnergy T (moveCell A R c) = potentialEnergy T A ∧
    atomForces T (moveCell A R c) = (atomForces T A).map (List.map fun f => R *ᵥ f) := by
  have hw : WellPosed T A (undoOp 0) := wellPosed_bravais hA hscan hcut hpar hsh horb hL htol hS
  have hm := c125_bravais A hA R hR c
  have ht : A.ctype ≠ .twistAndTurn := by rw [hA]; simp
  have hr : (moveCell A R c).rawRotation = A.rawRotation := by
    funext n
    simp only [Atoms.rawRotation, hA, show (moveCell A R c).ctype = .bravais from hA]
  have ha : (moveCell A R c).rawAngles = A.rawAngles := by
    funext n
    simp only [Atoms.rawAngles, hA, show (moveCell A R c).ctype = .bravais from hA]
  have hf := follow_moved (P := P) hm hr ha hw.follow
  exact ⟨c125_energy hfit hm ht hw hf, c125_forces hfit hm ht hw hf⟩

/-- Without overlap between atoms the overlap matrix is the unit matrix. -/
theorem overlap_one (hfit : Fits P A elements) (hf : OrbitalsFollow (P.mat A)) (hseps : P.seps = 0)
    (hs : ∀ a b d m, (P.tab a b).s d m = 0) {k : Vec} {st : MatSt} {σ : Op → Op}
    (hp : InversePairs (P.mat A) k σ)
    (hpar : ∀ i < (P.mat A).N, ParityTable SkTable.h (P.tab ((P.mat A).sym i) ((P.mat A).sym i)) ∧
      ParityTable SkTable.s (P.tab ((P.mat A).sym i) ((P.mat A).sym i)))
    (h : getMatrices (P.mat A) k = .ok st) : P.t.flat st.S = 1 := by
  have hN : A.positions.length = (P.mat A).N := by simp [Atoms.positions]; rfl
  have hid := mat_idFirst P A
  have hb : ∀ i j p q, blochSum (P.mat A) SkTable.s k i j p q = 0 := by
    intro i j p q
    unfold blochSum
    refine List.sum_eq_zero fun x hx => ?_
    obtain ⟨n, -, rfl⟩ := List.mem_map.1 hx
    split
    · have : imageElem (P.mat A) SkTable.s i j n p q = 0 := by
        unfold imageElem
        have e : ∀ a b d m, ((P.mat A).tab a b).s d m = 0 := hs
        simp only [e]
        refine Finset.sum_eq_zero fun y _ => ?_
        unfold skSpec
        simp
      rw [this]; simp
    · rfl
  have up : ∀ x y : Fin P.t.norb, P.t.atomAt x ≤ P.t.atomAt y →
      st.S (P.t.atomAt x) (P.t.atomAt y) (P.t.numAt x) (P.t.numAt y) = if x = y then 1 else 0 := by
    intro x y hxy
    have hx := hfit.numAt x
    have hy := hfit.numAt y
    have := (c29_elements h hid hf hxy (by rw [← hN]; exact hy.1) hx.2.1 hy.2.1).2
    rw [this, hb, show (P.mat A).seps = 0 from hseps, add_zero]
    by_cases e : x = y
    · rw [if_pos e, if_pos ⟨by rw [e], by rw [e]⟩]; simp
    · rw [if_neg e, if_neg fun h => e (hfit.lay.inj x y h.1 h.2)]
  ext x y
  rw [Matrix.one_apply]
  show st.S (P.t.atomAt x) (P.t.atomAt y) (P.t.numAt x) (P.t.numAt y) = _
  rcases le_total (P.t.atomAt x) (P.t.atomAt y) with hxy | hxy
  · exact up x y hxy
  · have hx := hfit.numAt x
    have hy := hfit.numAt y
    have := (c29_hermitian h hid hf hp hpar (by rw [← hN]; exact hy.1) (by rw [← hN]; exact hx.1)
      hy.2.1 hx.2.1).2
    rw [this, up y x hxy]
    by_cases e : y = x
    · rw [if_pos e, if_pos e.symm]; simp
    · rw [if_neg e, if_neg fun h => e h.symm]; simp

/-! ### Examples with s and p orbitals -/

/-- One s and three p orbitals. -/
def exSpElements : String → Option ElementData := fun s =>
  if s = "C" then some ⟨["s", "px", "py", "pz"], [-2, -1, -1, -1], 1, 1, 0⟩ else none

/-- The orbitals of two such atoms. -/
def exSpTables : OrbTables :=
  { orb := [⟨0, "C", "s", 0, 0, -2, 0⟩, ⟨0, "C", "px", 1, 1, -1, 1⟩, ⟨0, "C", "py", 1, 2, -1, 2⟩,
      ⟨0, "C", "pz", 1, 3, -1, 3⟩, ⟨1, "C", "s", 0, 4, -2, 0⟩, ⟨1, "C", "px", 1, 5, -1, 1⟩,
      ⟨1, "C", "py", 1, 6, -1, 2⟩, ⟨1, "C", "pz", 1, 7, -1, 3⟩]
    atomorb := [[⟨0, "C", "s", 0, 0, -2, 0⟩, ⟨0, "C", "px", 1, 1, -1, 1⟩, ⟨0, "C", "py", 1, 2, -1, 2⟩,
      ⟨0, "C", "pz", 1, 3, -1, 3⟩], [⟨1, "C", "s", 0, 4, -2, 0⟩, ⟨1, "C", "px", 1, 5, -1, 1⟩,
      ⟨1, "C", "py", 1, 6, -1, 2⟩, ⟨1, "C", "pz", 1, 7, -1, 3⟩]]
    nrOrbitals := [4, 4]
    firstOrbitals := [0, 4]
    orbitalAtoms := [0, 0, 0, 0, 1, 1, 1, 1]
    norb := 8 }

theorem exSpTables_init : orbInit exSpElements ["C", "C"] = .ok exSpTables := by
  simp [orbInit, exSpElements, orbLoop, orbStep, atomOrbs, angmomOf, exSpTables, List.mapM_cons, bind,
    Except.bind, pure, Except.pure, List.replicate]

/-- Hopping between s and p orbitals, different for σ and π bonds; no overlap. -/
noncomputable def exSpHop : SkTable where
  r1 := 0
  r2 := 3
  h := fun d m => if m = 5 then 2 / d else if m = 6 then -1 / d else if m = 8 then 3 / d
    else if m = 13 then -3 / d else if m = 9 then -4 / d else 0
  s := 0
  dh := fun d m => if m = 5 then -2 / d ^ 2 else if m = 6 then 1 / d ^ 2 else if m = 8 then -3 / d ^ 2
    else if m = 13 then 3 / d ^ 2 else if m = 9 then 4 / d ^ 2 else 0
  ds := 0

theorem exSpHop_parity : ParityTable SkTable.h exSpHop ∧ ParityTable SkTable.s exSpHop := by
  constructor
  · intro d la hla lb hlb m hm
    simp only [exSpHop]
    interval_cases la <;> interval_cases lb <;> fin_cases m <;>
      simp_all [skIntegralIndex] <;> (try decide) <;> (try ring)
  · intro d la hla lb hlb m hm
    simp [exSpHop]

/-- The parameters, with operations to scan and one k-point. -/
noncomputable def exSpScf (J : SkJunk) (scan : List Op) (k : Vec) : ScfIn where
  bohr := 1
  hartree := 1
  scc := true
  t := exSpTables
  no := fun _ => 4
  eps := fun _ a => if a = 0 then -2 else -1
  seps := 0
  tab := fun _ _ => exSpHop
  J := J
  cut := fun _ _ => 3
  scan := scan
  nk := 1
  kpt := fun _ => k
  wk := fun _ => 1
  width := 1
  nel := 8
  charge := 0
  tol := 1
  tolIm := 1
  val := [4, 4]
  cd := .gaussian
  U := fun _ => 1
  w := fun _ => 1
  gcut := none
  V := fun _ _ n d => if n = 0 then d ^ 2 else 2 * d
  rmax := 5
  efree := 0

theorem exSp_fits (J : SkJunk) (scan : List Op) (k : Vec) (A : Atoms) (x y : Vec)
    (hA : A.atoms = [("C", x), ("C", y)]) : Fits (exSpScf J scan k) A exSpElements where
  orbitals := by
    rw [Atoms.symbols, hA]
    exact exSpTables_init
  numbers := by
    intro i hi
    rw [Atoms.positions, hA] at hi
    refine ⟨?_, Or.inr (Or.inl rfl)⟩
    have : i = 0 ∨ i = 1 := by simp at hi; omega
    rcases this with rfl | rfl <;> rfl
  valences := by rw [Atoms.positions, hA]; rfl
  units := one_pos

theorem exSp_shells (a b : Fin 9) (ha : a.val < 4) (hb : b.val < 4) (h : orbL a = orbL b) :
    (if a = 0 then (-2 : ℝ) else -1) = if b = 0 then -2 else -1 := by
  have : a = 0 ↔ b = 0 := by
    revert a b
    decide
  simp only [this]

/-- A zigzag chain of sp atoms meets all the conditions of `c125_crystal`. -/
example (J : SkJunk) {Mx : Type} (T : ScfTools (exSpScf J (boxOps ![1, 0, 0]) ![1, 0, 0]) Mx)
    (hL : T.L.Ok) (htol : 0 ≤ T.tolNorm) (R : Mat) (hR : Rᵀ * R = 1) (c : Vec) :
    let A : Atoms := { ctype := .bravais, atoms := [("C", 0), ("C", ![1, 1, 0])],
                       pbc := ![true, false, false], cell := fun i j => if i = j then 2 else 0 }
    potentialEnergy T (moveCell A R c) = potentialEnergy T A ∧
    atomForces T (moveCell A R c) = (atomForces T A).map (List.map fun f => R *ᵥ f) := by
  intro A
  have hfit : Fits (exSpScf J (boxOps ![1, 0, 0]) ![1, 0, 0]) A exSpElements :=
    exSp_fits J _ _ A 0 ![1, 1, 0] rfl
  refine c125_crystal hfit rfl (m := ![1, 0, 0]) rfl (fun _ _ => rfl)
    (fun _ => exSpHop_parity) (fun i _ a b ha hb h => exSp_shells a b ha hb h) (show 2 ≤ 8 by norm_num)
    hL htol ?_ R hR c
  intro k st h
  have hw := wellPosed_bravais_images (P := exSpScf J (boxOps ![1, 0, 0]) ![1, 0, 0]) (A := A) rfl rfl
    (fun _ _ => rfl)
  rw [overlap_one hfit hw.1 rfl (fun _ _ _ _ => rfl) (hw.2 k) (fun _ _ => exSpHop_parity) h]
  exact Matrix.PosDef.one

/-- A ring of eight sp atoms, calculated as a quarter wedge, meets all the conditions of
`c125_about_axis`. -/
example (J : SkJunk) {Mx : Type}
    (T : ScfTools (exSpScf J [![-1, 0, 0], 0, ![1, 0, 0], ![2, 0, 0]] ![Real.pi / 2, 0, 0]) Mx)
    (hL : T.L.Ok) (htol : 0 ≤ T.tolNorm) (φ z : ℝ) :
    let A : Atoms := { ctype := .wedge, atoms := [("C", ![2, 0, 0]), ("C", ![2, 1, 1])],
                       pbc := ![true, false, false],
                       cell := fun i j => if i = 2 ∧ j = 0 then Real.pi / 2 else 1 }
    potentialEnergy T (moveAtoms A (rotZ φ) ![0, 0, z]) = potentialEnergy T A ∧
    atomForces T (moveAtoms A (rotZ φ) ![0, 0, z]) = (atomForces T A).map (List.map fun f => rotZ φ *ᵥ f) := by
  intro A
  have hfit : Fits (exSpScf J [![-1, 0, 0], 0, ![1, 0, 0], ![2, 0, 0]] ![Real.pi / 2, 0, 0]) A exSpElements :=
    exSp_fits J _ _ A ![2, 0, 0] ![2, 1, 1] rfl
  have hang : A.wedgeAngle = Real.pi / 2 := by simp [A, Atoms.wedgeAngle]
  have h4 : ((4 : ℤ) : ℝ) * (Real.pi / 2) = 2 * Real.pi := by push_cast; ring
  have hrot : A.rawRotation ![4, 0, 0] = 1 := by
    show rotZ (((4 : ℤ) : ℝ) * A.wedgeAngle) = 1
    rw [hang, h4]
    ext i j
    fin_cases i <;> fin_cases j <;> simp [rotZ]
  have htriv : TrivialOp A ![Real.pi / 2, 0, 0] ![4, 0, 0] := by
    refine ⟨fun r => ?_, hrot, ?_⟩
    · show (A.rawRotation ![4, 0, 0]).mulVec r + _ = r
      rw [hrot]
      simp
    · unfold blochPhase
      rw [Complex.exp_eq_one_iff]
      refine ⟨1, ?_⟩
      simp [Fin.sum_univ_three]
      ring
  have hres : ∀ hasD, RotationsResolved A hasD [![-1, 0, 0], 0, ![1, 0, 0], ![2, 0, 0]] := by
    intro hasD n hn
    refine ⟨fun h => ?_, by simp [A]⟩
    have h0 := h 0
    have hr : A.rawRotation n = rotZ ((n 0 : ℝ) * (Real.pi / 2)) := by
      rw [← hang]; rfl
    rw [hr] at h0 ⊢
    simp only [List.mem_cons, List.not_mem_nil, or_false] at hn
    rcases hn with rfl | rfl | rfl | rfl | rfl
    · simp [rotZ_zero]
    · exfalso; simp [rotZ] at h0; norm_num at h0
    · simp [rotZ_zero]
    · exfalso; simp [rotZ] at h0; norm_num at h0
    · exfalso; simp [rotZ, mul_div_cancel₀] at h0; norm_num at h0
  have hnd : [![-1, 0, 0], 0, ![1, 0, 0], (![2, 0, 0] : Op)].Nodup := by decide
  have hun : ∀ n ∈ [![-1, 0, 0], 0, ![1, 0, 0], (![2, 0, 0] : Op)],
      undoOp ![4, 0, 0] n ∈ [![-1, 0, 0], 0, ![1, 0, 0], (![2, 0, 0] : Op)] := by decide
  have hne : ∀ n ∈ [![-1, 0, 0], 0, ![1, 0, 0], (![2, 0, 0] : Op)], 2 * n 0 ≠ - (![4, 0, 0] : Op) 0 := by
    decide
  refine c125_about_axis hfit (Or.inl rfl) (wellPosed_container (e := ![4, 0, 0]) (A := A) trivial
    (fun _ _ => rfl) hnd hun (Or.inl hne) (fun _ => htriv) (by decide) (hres _) (fun _ => exSpHop_parity)
    (fun i _ a b ha hb h => exSp_shells a b ha hb h) (show 2 ≤ 8 by norm_num) hL htol ?_) φ z
  intro k st h
  have hf : OrbitalsFollow ((exSpScf J [![-1, 0, 0], 0, ![1, 0, 0], ![2, 0, 0]] ![Real.pi / 2, 0, 0]).mat A) :=
    orbitalsFollow_ofAtoms A trivial _ _ _ _ _ _ _ _ (hres _)
  have hp := (c29_inverse_pairs A trivial 1 ![Real.pi / 2, 0, 0] (fun _ => 4)
    (fun _ a => if a = 0 then -2 else -1) 0 (fun _ _ => exSpHop) J ![4, 0, 0] (fun _ _ => 3) _
    (fun _ _ => rfl) hnd hun (Or.inl hne) htriv (by decide)).2
  rw [overlap_one hfit hf rfl (fun _ _ _ _ => rfl) hp (fun _ _ => exSpHop_parity) h]
  exact Matrix.PosDef.one

/-- There are tools as the examples ask for. -/
example (P : ScfIn) : ∃ T : ScfTools P Unit, T.L.Ok ∧ 0 ≤ T.tolNorm := by
  obtain ⟨L, hL⟩ := c121_lapack P.t.norb
  exact ⟨⟨L, 1, fun _ _ _ => .ok 0, fun m x _ => (true, x, m), (), 50, [], []⟩, hL, zero_le_one⟩

end Hotbit
