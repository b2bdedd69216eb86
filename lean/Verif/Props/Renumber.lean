import Verif.Lemmas.Renumber
import Verif.Props.CopyForces

/-!
# C136: numbering of the atoms and choice of periodic images
-/

set_option linter.unusedSimpArgs false

namespace Hotbit

open Matrix

/-- **C136.** Let `B` be the structure `A` with its atoms in another order and with other periodic images of
the atoms, and `P'` the calculation with the parameters in that order (and the k-points in any order). Then
to every self-consistent solution for `A` there is one for `B` with the same chemical potential, the same
charge on every atom, the same energies of the states at every k-point, and the same total energy. -/
theorem c136_renumber {P P' : ScfIn} {A B : Atoms} {σ : ℕ → ℕ} {m : ℕ → Op} {e : Op}
    {kf : Fin P'.nk ≃ Fin P.nk} (C : RenumberedCalc P P' A B σ m e kf)
    {elements elements' : String → Option ElementData} (hA : Fits P A elements) (hB : Fits P' B elements')
    {r : ScfRun P} (h : Converged P A r) :
    ∃ r' : ScfRun P', Converged P' B r' ∧ r'.mu = r.mu ∧
      (∀ i < A.positions.length, r'.dq.getD (σ i) 0 = r.dq.getD i 0) ∧
      (∀ k, ∃ τ : Fin P'.t.norb ≃ Fin P.t.norb, ∀ b, r'.e k b = r.e (kf k) (τ b)) ∧
      ∀ En, 0 < P'.nk → r.energy A = .ok En → r'.energy B = .ok En := by
  obtain ⟨r', h1, h2, h3, h4, h5⟩ := (C.enlarged fun i hi => (hA.numbers i hi).2).run hA hB h
  refine ⟨r', h1, h2, fun i hi => ?_, fun k => ?_, fun En hk hE => ?_⟩
  · rw [h3]
    exact copyList_get C.structures.copies one_pos hi r.dq
  · obtain ⟨τ, hτ⟩ := h4 k
    exact ⟨τ.trans (Equiv.uniqueProd _ _), fun b => hτ b⟩
  · have := h5 En hk hE
    rwa [Nat.cast_one, one_mul] at this

/-- **C136 (forces).** In that solution the force on every atom is the force on it in `A`, turned by the
symmetry operation that makes its image: not turned at all if only the order of the atoms changes or if the
operations are translations. -/
theorem c136_forces {P P' : ScfIn} {A B : Atoms} {σ : ℕ → ℕ} {m : ℕ → Op} {e : Op}
    {kf : Fin P'.nk ≃ Fin P.nk} (C : RenumberedCalc P P' A B σ m e kf) (T : MutualDerivatives P.tab)
    {elements elements' : String → Option ElementData} (hA : Fits P A elements) (hB : Fits P' B elements')
    {r : ScfRun P} (h : Converged P A r) :
    ∃ r' : ScfRun P', Converged P' B r' ∧
      (∀ En, 0 < P'.nk → r.energy A = .ok En → r'.energy B = .ok En) ∧
      (∀ i < A.positions.length, r'.force B (σ i) = A.rawRotation (m i) *ᵥ r.force A i) ∧
      (∀ i < A.positions.length, m i = 0 ∨ A.ctype = .bravais → r'.force B (σ i) = r.force A i) := by
  obtain ⟨r', h1, -, h3, -, h5, g, hg, hrho⟩ :=
    (C.enlarged fun i hi => (hA.numbers i hi).2).run_waves hA hB h
  have key : ∀ i < A.positions.length, r'.force B (σ i) = A.rawRotation (m i) *ᵥ r.force A i := fun i hi =>
    (C.enlarged fun i hi => (hA.numbers i hi).2).force hA hB T h h1 h3 hg hrho one_pos hi
  refine ⟨r', h1, fun En hk hE => ?_, key, fun i hi hm => ?_⟩
  · have := h5 En hk hE
    rwa [Nat.cast_one, one_mul] at this
  · rw [key i hi]
    rcases hm with hm | hm
    · rw [hm, rawRotation_zero A C.structures.comm, Matrix.one_mulVec]
    · rw [rotation_row hm, Matrix.one_mulVec]

/-- The chain with two atoms per cell, with the atoms exchanged and the second one taken from the next
cell. -/
noncomputable def exRow3 : Atoms := { exRow2 with atoms := [("C", ![6, 0, 0]), ("C", 0)] }

/-- Two steps in each direction. -/
def exRowScan3 : List Op := [along 0 1, along 0 (-1), along 0 2, along 0 (-2)]

/-- The same calculation, with more images. -/
noncomputable def exRowIn3 (J : SkJunk) : ScfIn := { exRowIn2 J with scan := exRowScan3 }

theorem exRow2_legal {n : Op} : Legal exRow2 n ↔ n 1 = 0 ∧ n 2 = 0 := by
  rw [← exRow_legal]
  unfold Legal
  rw [exRow_super.ranges]

theorem exRow2_transform (r : Vec) (n : Op) :
    exRow2.rawTransform r n = r + (![4 * (n 0 : ℝ), 9 * (n 1 : ℝ), 9 * (n 2 : ℝ)] : Vec) := by
  rw [exRow_super.op, exRow_transform]
  congr 1
  funext x
  fin_cases x <;> simp [stretch]
  ring

theorem exRow3_renumbered :
    Renumbered exRow2 exRow3 (fun i => 1 - i) (fun i => along 0 (i : ℤ)) where
  comm := trivial
  container := rfl
  length := rfl
  lt i hi := by
    have : i < 2 := hi
    show 1 - i < 2
    omega
  inj i hi j hj h := by
    have : i < 2 := hi
    have : j < 2 := hj
    have h' : 1 - i = 1 - j := h
    omega
  inf i _ d hd := by
    have : d = 0 := by
      by_contra hc
      exact hd (by simp [along, hc])
    rw [this, exRow_super.ranges]
    rfl
  none := exRow2_legal.2 (by simp)
  atom i s r h := by
    have hl : Legal exRow2 (along 0 (i : ℤ)) := exRow2_legal.2 (by simp [along])
    refine ⟨_, (c05_transform_guard exRow2 r _).1 hl, ?_⟩
    rw [exRow2_transform]
    have ea : exRow2.atoms = [("C", (0 : Vec)), ("C", ![2, 0, 0])] := rfl
    have eb : exRow3.atoms = [("C", (![6, 0, 0] : Vec)), ("C", 0)] := rfl
    rw [ea] at h
    rw [eb]
    match i with
    | 0 =>
      simp at h
      obtain ⟨rfl, rfl⟩ := h
      simp
      funext x
      fin_cases x <;> simp [along]
    | 1 =>
      simp at h
      obtain ⟨rfl, rfl⟩ := h
      simp [along]
      norm_num
    | k + 2 => simp at h

theorem exRow3_dist {n : Op} (hn : Legal exRow3 n) {i j : ℕ} (hi : i < 2) (hj : j < 2) :
    norm3 (imagePos exRow3 1 n j - imagePos exRow3 1 0 i) = |4 * (n 0 : ℝ) + 6 * ((i : ℝ) - j)| := by
  obtain ⟨h1, h2⟩ := exRow2_legal.1 (exRow3_renumbered.legal.1 hn)
  unfold imagePos
  rw [exRow3_renumbered.transform, exRow3_renumbered.transform, exRow2_transform, exRow2_transform]
  have p : ∀ i : ℕ, i < 2 → (exRow3.positions[i]?).getD 0 = (![6 - 6 * (i : ℝ), 0, 0] : Vec) := by
    intro i hi
    interval_cases i
    · show (![6, 0, 0] : Vec) = _
      funext x; fin_cases x <;> simp
    · show (0 : Vec) = _
      funext x; fin_cases x <;> simp
  rw [p i hi, p j hj, ← norm3_x]
  congr 1
  funext x
  fin_cases x <;> simp [h1, h2]
  ring

theorem mem_rowScan3 {n : Op} (hn : Legal exRow2 n) (h0 : n ≠ 0) (h : |n 0| ≤ 2) : n ∈ exRowScan3 := by
  have e := along_of_legal (exRow_legal.2 (exRow2_legal.1 hn))
  rw [abs_le] at h
  have hz : n 0 ≠ 0 := fun hz => h0 (by rw [e, hz]; simp [along])
  have : n 0 = 1 ∨ n 0 = -1 ∨ n 0 = 2 ∨ n 0 = -2 := by omega
  rcases this with h | h | h | h <;> rw [e, h] <;> simp [exRowScan3]

theorem rowScan3_cases {n : Op} (hn : n ∈ exRowScan3) : ∃ z : ℤ, (z = 1 ∨ z = -1 ∨ z = 2 ∨ z = -2) ∧ n = along 0 z := by
  simp [exRowScan3] at hn
  rcases hn with rfl | rfl | rfl | rfl
  · exact ⟨1, by norm_num, rfl⟩
  · exact ⟨-1, by norm_num, rfl⟩
  · exact ⟨2, by norm_num, rfl⟩
  · exact ⟨-2, by norm_num, rfl⟩

theorem exRow3_scan : InverseScan exRow2 0 exRowScan3 where
  nodup := by
    have : ∀ a b : ℤ, along 0 a = along 0 b → a = b := by
      intro a b h
      simpa [along] using congrFun h 0
    have e : exRowScan3 = [1, -1, 2, -2].map (along 0) := rfl
    rw [e]
    exact (List.nodup_map_iff fun a b h => this a b h).2 (by decide)
  legal n hn := by
    obtain ⟨z, -, rfl⟩ := rowScan3_cases hn
    exact exRow2_legal.2 (by simp [along])
  inverse n hn := by
    rw [undo_zero]
    obtain ⟨z, hz, rfl⟩ := rowScan3_cases hn
    refine mem_rowScan3 (exRow2_legal.2 (by simp [along])) ?_ ?_
    · intro h
      have := congrFun h 0
      simp [along] at this
      omega
    · simp [along]
      rw [abs_le]
      omega
  half := Or.inr rfl

theorem exRow3_images : HasAllImages exRow3 1 exRowScan3 (fun _ _ => 3) := by
  intro n hn h0 i hi j hj h
  have hi' : i < 2 := hi
  have hj' : j < 2 := hj
  rw [exRow3_dist hn hi' hj', abs_le] at h
  refine mem_rowScan3 (exRow3_renumbered.legal.1 hn) h0 ?_
  rw [abs_le]
  have a1 : (i : ℝ) ≤ 1 := by exact_mod_cast (show i ≤ 1 by omega)
  have a2 : (j : ℝ) ≤ 1 := by exact_mod_cast (show j ≤ 1 by omega)
  have a3 : (0 : ℝ) ≤ i := by positivity
  have a4 : (0 : ℝ) ≤ j := by positivity
  constructor
  · by_contra hc
    have : n 0 ≤ -3 := by omega
    have : (n 0 : ℝ) ≤ -3 := by exact_mod_cast this
    linarith [h.1]
  · by_contra hc
    have : 3 ≤ n 0 := by omega
    have : (3 : ℝ) ≤ n 0 := by exact_mod_cast this
    linarith [h.2]

theorem exRow3_coulomb {n : Op} (hn : n ∈ exRowScan3) : n ∈ scanOps exRow3 := by
  rw [mem_scanOps]
  refine ⟨exRow3_renumbered.legal.2 (exRow3_scan.legal n hn), fun k _ => ?_⟩
  obtain ⟨z, hz, rfl⟩ := rowScan3_cases hn
  rcases hz with rfl | rfl | rfl | rfl <;> fin_cases k <;> simp [along]

theorem exRow3_calc (J : SkJunk) : RenumberedCalc (exRowIn2 J) (exRowIn3 J) exRow2 exRow3
    (fun i => 1 - i) (fun i => along 0 (i : ℤ)) 0 (Equiv.refl (Fin 1)) where
  structures := exRow3_renumbered
  nothing := trivialOp_zero (A := exRow2) trivial _
  phases _ := blochPhase_zero _
  start := by rw [undo_zero, neg_zero]
  scanA :=
    { nodup := (exRow_scan exRow_super.ranges).nodup
      legal := (exRow_scan exRow_super.ranges).legal
      inverse := fun n hn => by rw [undo_zero]; exact (exRow_scan exRow_super.ranges).neg n hn
      half := Or.inr rfl }
  scanB := exRow3_scan
  cutSymm := ⟨fun _ _ => rfl, fun _ _ => rfl⟩
  atoms i hi := by
    have hi' : i < 2 := hi
    refine ⟨rfl, rfl, rfl, rfl, ?_⟩
    interval_cases i <;> rfl
  cuts _ _ _ _ := rfl
  reach _ _ _ _ := ⟨le_refl (3 : ℝ), le_refl (3 : ℝ), show (0.1 : ℝ) ≤ 3 by norm_num⟩
  imagesA := exRow2_images J
  imagesB := exRow3_images
  shell i _ := by
    unfold ShellDiag
    simp [exRowIn, exRowIn2]
  followA := follow_row rfl _
  followB := follow_row rfl _
  tables := exRow_pairTables
  kpoints _ := rfl
  weight _ := rfl
  symV _ _ := rfl
  same := ⟨rfl, rfl, rfl, rfl, rfl, rfl, rfl, rfl, rfl, rfl⟩
  count := by
    refine ⟨?_, rfl, rfl, rfl⟩
    show (2 : ℝ) = [1, 1].sum - 0
    norm_num
  tols := ⟨zero_le_one, one_pos⟩
  coulomb _ := Or.inr ⟨3, rfl,
    fun n hn h0 i hi j hj h => scan_of_row exRow_super.ranges (exRow2_images J n hn h0 i hi j hj h),
    fun n hn h0 i hi j hj h => exRow3_coulomb (exRow3_images n hn h0 i hi j hj h)⟩

theorem exRow3_fits (J : SkJunk) : Fits (exRowIn3 J) exRow3 exSElements where
  orbitals := exTables_init
  numbers := by
    intro i hi
    have hi' : i < 2 := hi
    refine ⟨?_, Or.inl rfl⟩
    have : i = 0 ∨ i = 1 := by omega
    rcases this with rfl | rfl <;> rfl
  valences := rfl
  units := one_pos

/-- Hypotheses of `c136_renumber` and `c136_forces`: the chain with two atoms per cell has a self-consistent
solution with an energy; exchanging the atoms and taking one of them from the next cell gives the same
energy, and the forces exchange. -/
example (J : SkJunk) : ∃ (r : ScfRun (exRowIn2 J)) (r' : ScfRun (exRowIn3 J)) (E : ℝ),
    Converged (exRowIn2 J) exRow2 r ∧ Converged (exRowIn3 J) exRow3 r' ∧
    r.energy exRow2 = .ok E ∧ r'.energy exRow3 = .ok E ∧
    r'.force exRow3 1 = r.force exRow2 0 ∧ r'.force exRow3 0 = r.force exRow2 1 := by
  obtain ⟨r0, hr0, -, -, E, hE⟩ := exRow_converged J
  obtain ⟨r, h1, -, -, -, h5⟩ := c133_supercell (exRow_calc J) (exRow_fits J) (exRow2_fits J) hr0
  have hE2 := h5 E (show 0 < 1 by norm_num) hE
  obtain ⟨r', g1, g2, -, g3⟩ := c136_forces (exRow3_calc J) exRow_derivatives (exRow2_fits J) (exRow3_fits J) h1
  exact ⟨r, r', _, h1, g1, hE2, g2 _ (show 0 < 1 by norm_num) hE2,
    g3 0 (show 0 < 2 by norm_num) (Or.inr rfl), g3 1 (show 1 < 2 by norm_num) (Or.inr rfl)⟩

end Hotbit
