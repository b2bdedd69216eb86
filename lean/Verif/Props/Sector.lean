import Verif.Lemmas.Sector

/-!
# C134: calculations with one sector of a symmetric structure

A structure that is mapped to itself by a rotation through `2π/M` can be calculated with one of its `M`
sectors in a wedge container, or as a whole without the symmetry.
-/

set_option linter.unusedSimpArgs false

namespace Hotbit

open Matrix

theorem rotZ_full : rotZ (2 * Real.pi) = 1 := by
  have := rotZ_periodic 0 1
  rw [← rotZ_zero, ← this]
  congr 1
  simp

theorem rotZ_full_neg : rotZ (-(2 * Real.pi)) = 1 := by
  have := rotZ_periodic 0 (-1)
  rw [← rotZ_zero, ← this]
  congr 1
  simp

theorem rotY_full : rotY (2 * Real.pi) = 1 := by
  have := rotY_periodic 0 1
  rw [← rotY_zero, ← this]
  congr 1
  simp

/-- **C134 (structures).** Let `A` be a wedge, a wedge around the y axis or a chiral wedge whose angle is
`2π/M` (for chiral wedges also `-2π/M`). The atoms that `extended_copy` gives for all `M` angular
operations, in the container without the rotations, are the same structure. -/
theorem c134_cell (A : Atoms) (M : ℕ) (hM : 0 < M)
    (hA : A.ctype = .wedge ∨ A.ctype = .wedgeYAxis ∨ A.ctype = .chiralWedge)
    (ha : A.wedgeAngle = 2 * Real.pi / M ∨ (A.ctype = .chiralWedge ∧ A.wedgeAngle = -(2 * Real.pi / M)))
    (out : List (String × Vec))
    (ho : A.extendedCopy (.list ((List.range M).map fun u : ℕ => along 0 (firstSector M + u))) = .ok out) :
    AllSectors A (allSectors A out) M := by
  have hM' : (0 : ℝ) < M := by exact_mod_cast hM
  have hpi := Real.pi_pos
  have hw : wedgeM (2 * Real.pi / M) = M := by
    unfold wedgeM
    rw [show 2 * Real.pi / (2 * Real.pi / (M : ℝ)) = ((M : ℤ) : ℝ) by push_cast; field_simp, pyRound_intCast]
  have habs : |A.wedgeAngle| = 2 * Real.pi / M := by
    rcases ha with h | ⟨-, h⟩ <;> rw [h]
    · exact abs_of_pos (by positivity)
    · rw [abs_neg]; exact abs_of_pos (by positivity)
  have e0 : (M : ℝ) * (2 * Real.pi / M) = 2 * Real.pi := by field_simp
  have e1 : (M : ℝ) * -(2 * Real.pi / M) = -(2 * Real.pi) := by rw [mul_neg, e0]
  have a0 : ((along 0 (M : ℤ) : Op) 0 : ℝ) = M := by simp [along]
  have a1 : ((along 0 (M : ℤ) : Op) 1 : ℝ) = 0 := by simp [along]
  have a2 : ((along 0 (M : ℤ) : Op) 2 : ℝ) = 0 := by simp [along]
  have zero : ∀ {X : Atoms} {n : Op} (i : Fin 3), Legal X n → X.ranges i = rangeZero → n i = 0 := by
    intro X n i hn hr
    have h := hn i
    rw [hr] at h
    simp only [rangeZero, Bound.toEReal] at h
    have b1 := h.1; have b2 := h.2
    norm_cast at b1 b2
    exact le_antisymm b2 b1
  rcases hA with h | h | h
  · have hang : A.wedgeAngle = 2 * Real.pi / M := by
      rcases ha with h' | ⟨h', -⟩
      · exact h'
      · rw [h] at h'; cases h'
    have hB : allSectors A out = { A with ctype := .bravais, atoms := out, cell := !![0, 0, 0; 0, 0, 0; 0, 0, A.wedgeHeight], pbc := ![false, false, A.wedgePbcz] } := by
      unfold allSectors; rw [h]
    have hBr : ∀ i, (allSectors A out).ranges i = if (![false, false, A.wedgePbcz] : Fin 3 → Bool) i then rangeInf else rangeZero := by
      intro i; rw [hB]; rfl
    have hAr : A.ranges = ![rangeOf (angularRange (wedgeM A.wedgeAngle)), rangeZero,
        if A.wedgePbcz then rangeInf else rangeZero] := by unfold Atoms.ranges; rw [h]
    have hrot : ∀ n, A.rawRotation n = rotZ (n 0 * A.wedgeAngle) := by intro n; unfold Atoms.rawRotation; rw [h]
    have htr : ∀ r n, A.rawTransform r n = (A.rawRotation n).mulVec r +
        (if A.wedgePbcz then (n 2 : ℝ) • ![0, 0, A.wedgeHeight] else 0) := by
      intro r n; unfold Atoms.rawTransform; rw [h]
    have hfull : A.rawRotation (along 0 M) = 1 := by rw [hrot, a0, hang, e0, rotZ_full]
    refine ⟨hM, by rw [h]; trivial, by rw [hB]; trivial, by rw [hAr, hang, hw]; rfl, by rw [hBr]; rfl, ⟨?_, ?_⟩,
      ⟨fun r => ?_, hfull⟩, by rw [ho, hB], fun n hn => ?_⟩
    · rw [hBr, hAr]; rfl
    · rw [hBr, hAr]; rfl
    · rw [htr, hfull, Matrix.one_mulVec, a2, zero_smul]; simp
    · have n0 : n 0 = 0 := zero 0 hn (by rw [hBr]; rfl)
      have r1 : A.rawRotation n = 1 := by rw [hrot, n0]; simp [rotZ_zero]
      refine ⟨fun r => ?_, ?_⟩
      · rw [htr, r1, Matrix.one_mulVec, hB]
        unfold Atoms.rawTransform
        by_cases hp : A.wedgePbcz = true
        · rw [if_pos hp]
          funext x
          fin_cases x <;> simp
        · have n2 : n 2 = 0 := zero 2 hn (by rw [hBr]; simp [hp])
          rw [if_neg hp]
          funext x
          fin_cases x <;> simp [n2]
      · rw [r1, hB]; rfl
  · have hang : A.wedgeAngle = 2 * Real.pi / M := by
      rcases ha with h' | ⟨h', -⟩
      · exact h'
      · rw [h] at h'; cases h'
    have hB : allSectors A out = { A with ctype := .bravais, atoms := out, cell := !![0, 0, 0; 0, A.wedgeHeight, 0; 0, 0, 0], pbc := ![false, A.wedgeYPbc, false] } := by
      unfold allSectors; rw [h]
    have hBr : ∀ i, (allSectors A out).ranges i = if (![false, A.wedgeYPbc, false] : Fin 3 → Bool) i then rangeInf else rangeZero := by
      intro i; rw [hB]; rfl
    have hAr : A.ranges = ![rangeOf (angularRange (wedgeM A.wedgeAngle)),
        if A.wedgeYPbc then rangeInf else rangeZero, rangeZero] := by unfold Atoms.ranges; rw [h]
    have hrot : ∀ n, A.rawRotation n = rotY (n 0 * A.wedgeAngle) := by intro n; unfold Atoms.rawRotation; rw [h]
    have htr : ∀ r n, A.rawTransform r n = (A.rawRotation n).mulVec r +
        (if A.wedgeYPbc then (n 1 : ℝ) • ![0, A.wedgeHeight, 0] else 0) := by
      intro r n; unfold Atoms.rawTransform; rw [h]
    have hfull : A.rawRotation (along 0 M) = 1 := by rw [hrot, a0, hang, e0, rotY_full]
    refine ⟨hM, by rw [h]; trivial, by rw [hB]; trivial, by rw [hAr, hang, hw]; rfl, by rw [hBr]; rfl, ⟨?_, ?_⟩,
      ⟨fun r => ?_, hfull⟩, by rw [ho, hB], fun n hn => ?_⟩
    · rw [hBr, hAr]; rfl
    · rw [hBr, hAr]; rfl
    · rw [htr, hfull, Matrix.one_mulVec, a1, zero_smul]; simp
    · have n0 : n 0 = 0 := zero 0 hn (by rw [hBr]; rfl)
      have r1 : A.rawRotation n = 1 := by rw [hrot, n0]; simp [rotY_zero]
      refine ⟨fun r => ?_, ?_⟩
      · rw [htr, r1, Matrix.one_mulVec, hB]
        unfold Atoms.rawTransform
        by_cases hp : A.wedgeYPbc = true
        · rw [if_pos hp]
          funext x
          fin_cases x <;> simp
        · have n2 : n 1 = 0 := zero 1 hn (by rw [hBr]; simp [hp])
          rw [if_neg hp]
          funext x
          fin_cases x <;> simp [n2]
      · rw [r1, hB]; rfl
  · have hB : allSectors A out = { A with ctype := .chiral, atoms := out, cell := !![0, 0, 0; A.cell 1 0, 0, 0; A.cell 0 1, 0, 0] } := by
      unfold allSectors; rw [h]
    have hBr : (allSectors A out).ranges = ![rangeZero, rangeZero, rangeInf] := by
      rw [hB]; rfl
    have hAr : A.ranges = ![rangeOf (angularRange (wedgeM |A.wedgeAngle|)), rangeZero, rangeInf] := by
      unfold Atoms.ranges; rw [h]
    have hrot : ∀ n, A.rawRotation n = rotZ (n 0 * A.wedgeAngle + n 2 * A.cell 0 1) := by
      intro n; unfold Atoms.rawRotation Atoms.wedgeAngle; rw [h]
    have htr : ∀ r n, A.rawTransform r n = (A.rawRotation n).mulVec r + (n 2 : ℝ) • ![0, 0, A.cell 1 0] := by
      intro r n; unfold Atoms.rawTransform; rw [h]
    have hfull : A.rawRotation (along 0 M) = 1 := by
      rw [hrot, a0, a2, zero_mul, add_zero]
      rcases ha with h' | ⟨-, h'⟩
      · rw [h', e0, rotZ_full]
      · rw [h', e1, rotZ_full_neg]
    refine ⟨hM, by rw [h]; trivial, by rw [hB]; trivial, by rw [hAr, habs, hw]; rfl, by rw [hBr]; rfl, ⟨?_, ?_⟩,
      ⟨fun r => ?_, hfull⟩, by rw [ho, hB], fun n hn => ?_⟩
    · rw [hBr, hAr]; rfl
    · rw [hBr, hAr]; rfl
    · rw [htr, hfull, Matrix.one_mulVec, a2, zero_smul]; simp
    · have n0 : n 0 = 0 := zero 0 hn (by rw [hBr]; rfl)
      have r1 : A.rawRotation n = rotZ (n 2 * A.cell 0 1) := by rw [hrot, n0]; simp
      have r2 : (allSectors A out).rawRotation n = rotZ (n 2 * A.cell 0 1) := by rw [hB]; rfl
      refine ⟨fun r => ?_, by rw [r1, r2]⟩
      rw [htr, r1, ← r2, hB]
      show _ + _ = _ + _
      congr 1
      funext x
      fin_cases x <;> simp

/-- **C134.** Let `A` be one of `M` equal sectors of the structure `B`, and let the k-points of `A` be those
of `B` with all `M` angular momenta. Then to every self-consistent solution for the sector there is one
for the whole structure with the same chemical potential and the same charges on all copies of an atom.
Its energies at a k-point are the energies of `A` at the `M` angular momenta, and its total energy is `M`
times that of the sector. -/
theorem c134_sector {P P' : ScfIn} {A B : Atoms} {M : ℕ}
    {kf : Fin P'.nk × Fin M ≃ Fin P.nk} (C : SectorCalc P P' A B M kf)
    {elements elements' : String → Option ElementData} (hA : Fits P A elements) (hB : Fits P' B elements')
    {r : ScfRun P} (h : Converged P A r) :
    ∃ r' : ScfRun P', Converged P' B r' ∧ r'.mu = r.mu ∧
      (∀ u < M, ∀ i < A.positions.length,
        r'.dq.getD (u * A.positions.length + i) 0 = r.dq.getD i 0) ∧
      (∀ k, ∃ τ : Fin P'.t.norb ≃ Fin M × Fin P.t.norb, ∀ b, r'.e k b = r.e (kf (k, (τ b).1)) (τ b).2) ∧
      ∀ En, 0 < P'.nk → r.energy A = .ok En → r'.energy B = .ok (M * En) := by
  obtain ⟨r', h1, h2, h3, h4⟩ := (C.enlarged fun i hi => (hA.numbers i hi).2).run hA hB h
  refine ⟨r', h1, h2, fun u hu i hi => ?_, h4⟩
  rw [h3]
  exact copyList_get (copies_block M _) hu hi r.dq

end Hotbit
