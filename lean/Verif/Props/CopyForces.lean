import Verif.Lemmas.CopyForces
import Verif.Props.SectorExample

/-!
# C135: forces on the copies of an atom

The forces do not depend on the cell or the sector with which a structure is written.
-/

namespace Hotbit

open Matrix

/-- **C135 (cells).** Let `P'`, `B` be the calculation `P`, `A` with a cell that is `M` times as large in
one direction. To every self-consistent solution for `A` there is one for `B` with `M` times the energy in
which the force on copy `u` of an atom is the force on the atom in `A`, turned by the symmetry operation that
makes the copy (not turned at all for translations). -/
theorem c135_supercell {P P' : ScfIn} {A B : Atoms} {d : Fin 3} {M : ℕ}
    {kf : Fin P'.nk × Fin M ≃ Fin P.nk} (C : SupercellCalc P P' A B d M kf) (T : MutualDerivatives P.tab)
    {elements elements' : String → Option ElementData} (hA : Fits P A elements) (hB : Fits P' B elements')
    {r : ScfRun P} (h : Converged P A r) :
    ∃ r' : ScfRun P', Converged P' B r' ∧
      (∀ En, 0 < P'.nk → r.energy A = .ok En → r'.energy B = .ok (M * En)) ∧
      ∀ u < M, ∀ i < A.positions.length,
        r'.force B (u * A.positions.length + i) = A.rawRotation (along d u) *ᵥ r.force A i := by
  obtain ⟨r', h1, -, h3, -, h5, g, hg, hrho⟩ :=
    (C.enlarged fun i hi => (hA.numbers i hi).2).run_waves hA hB h
  exact ⟨r', h1, h5, fun u hu i hi =>
    (C.enlarged fun i hi => (hA.numbers i hi).2).force hA hB T h h1 h3 hg hrho hu hi⟩

/-- **C135 (sectors).** Let `A` be one of `M` equal sectors of the structure `B`. To every self-consistent
solution for the sector there is one for the whole structure with `M` times the energy in which the force on
copy `u` of an atom is the force on the atom in `A`, turned by the rotation that makes the copy. -/
theorem c135_sector {P P' : ScfIn} {A B : Atoms} {M : ℕ}
    {kf : Fin P'.nk × Fin M ≃ Fin P.nk} (C : SectorCalc P P' A B M kf) (T : MutualDerivatives P.tab)
    {elements elements' : String → Option ElementData} (hA : Fits P A elements) (hB : Fits P' B elements')
    {r : ScfRun P} (h : Converged P A r) :
    ∃ r' : ScfRun P', Converged P' B r' ∧
      (∀ En, 0 < P'.nk → r.energy A = .ok En → r'.energy B = .ok (M * En)) ∧
      ∀ u < M, ∀ i < A.positions.length,
        r'.force B (u * A.positions.length + i)
          = A.rawRotation (along 0 (firstSector M + u)) *ᵥ r.force A i := by
  obtain ⟨r', h1, -, h3, -, h5, g, hg, hrho⟩ :=
    (C.enlarged fun i hi => (hA.numbers i hi).2).run_waves hA hB h
  exact ⟨r', h1, h5, fun u hu i hi =>
    (C.enlarged fun i hi => (hA.numbers i hi).2).force hA hB T h h1 h3 hg hrho hu hi⟩

/-- The tables of the examples. -/
theorem exRow_derivatives : MutualDerivatives fun _ _ => exRowHop where
  dh := by
    intro a b d la hla lb hlb m hm
    simp only [exRowHop]
    interval_cases la <;> interval_cases lb <;> fin_cases m <;>
      simp_all [skIntegralIndex] <;> (try (intro h; exact absurd h (by decide)))
  ds := by
    intro a b d la hla lb hlb m hm
    simp [exRowHop]

/-- Hypotheses of `c135_supercell`: in the chain with two atoms per cell both feel the force of the atom in
the chain with one atom per cell. -/
example (J : SkJunk) : ∃ (r : ScfRun (exRowIn J)) (r' : ScfRun (exRowIn2 J)),
    Converged (exRowIn J) exRow r ∧ Converged (exRowIn2 J) exRow2 r' ∧
    r'.force exRow2 0 = r.force exRow 0 ∧ r'.force exRow2 1 = r.force exRow 0 := by
  obtain ⟨r, hr, -⟩ := exRow_converged J
  obtain ⟨r', h1, -, h2⟩ := c135_supercell (exRow_calc J) exRow_derivatives (exRow_fits J) (exRow2_fits J) hr
  refine ⟨r, r', hr, h1, ?_, ?_⟩
  · have := h2 0 (by norm_num) 0 (show 0 < 1 by norm_num)
    rwa [rotation_row rfl, Matrix.one_mulVec] at this
  · have := h2 1 (by norm_num) 0 (show 0 < 1 by norm_num)
    rwa [rotation_row rfl, Matrix.one_mulVec] at this

/-- Hypotheses of `c135_sector`: in the molecule the second atom feels the opposite of the force in the plane
that was calculated for the atom in the wedge. -/
example (J : SkJunk) : ∃ (r : ScfRun (exOppIn J)) (r' : ScfRun (exOppIn2 J)),
    Converged (exOppIn J) exOpp r ∧ Converged (exOppIn2 J) exOpp2 r' ∧
    r'.force exOpp2 1 0 = - r.force exOpp 0 0 := by
  obtain ⟨r, hr, -⟩ := exOpp_converged J
  obtain ⟨r', h1, -, h2⟩ := c135_sector (exOpp_calc J) exRow_derivatives (exOpp_fits J) (exOpp2_fits J) hr
  refine ⟨r, r', hr, h1, ?_⟩
  have := congrFun (h2 1 (by norm_num) 0 (show 0 < 1 by norm_num)) 0
  have f0 : firstSector 2 + ((1 : ℕ) : ℤ) = 1 := by rfl
  rw [f0, exOpp_turn] at this
  refine Eq.trans this ?_
  simp [Matrix.mulVec, dotProduct, Fin.sum_univ_three]

end Hotbit
