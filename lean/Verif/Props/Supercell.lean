import Verif.Lemmas.Supercell

/-!
# C133: calculations with a larger cell

A structure with infinitely repeated cells can be calculated with a larger cell and fewer k-points.
-/

set_option linter.unusedSimpArgs false

namespace Hotbit

open Matrix

/-- **C133 (cells).** For the containers with translations or screw operations: the atoms that
`extended_copy` gives for `M` consecutive cells, in the container with `M` times the lattice vector (or
`M` times the height and the twist angle), are the same structure. -/
theorem c133_cell (A : Atoms) (d : Fin 3) (M : ℕ) (hM : 0 < M) (hA : Commuting A.ctype)
    (hd : A.ctype ≠ .doubleChiral) (hinf : A.ranges d = rangeInf) (out : List (String × Vec))
    (ho : A.extendedCopy (.list ((List.range M).map fun u : ℕ => along d u)) = .ok out) :
    Supercell A (enlarge A d M out) d M := by
  have hne : rangeZero ≠ rangeInf := by simp [rangeZero, rangeInf]
  have hof : ∀ p, rangeOf p ≠ rangeInf := by intro p; simp [rangeOf, rangeInf]
  have em : ∀ z x : ℝ, z * ((M : ℝ) * x) = (M : ℝ) * z * x := fun z x => by ring
  have key : (enlarge A d M out).ranges = A.ranges ∧
      (∀ n, (enlarge A d M out).rawRotation n = A.rawRotation (stretch d M n)) ∧
      ∀ r n, (enlarge A d M out).rawTransform r n = A.rawTransform r (stretch d M n) := by
    unfold Atoms.ranges at hinf ⊢
    unfold Atoms.rawTransform Atoms.rawRotation
    have hc : (enlarge A d M out).ctype = A.ctype := rfl
    rw [hc]
    cases h : A.ctype <;> rw [h] at hA hd hinf <;> simp only [Commuting] at hA <;>
      (try exact absurd rfl hd)
    case bravais =>
      refine ⟨rfl, fun _ => rfl, fun r n => ?_⟩
      funext y
      fin_cases d <;> simp [enlarge, h, Grows, stretch, Matrix.one_apply] <;> ring
    all_goals
      fin_cases d <;> simp [hne, hof] at hinf
    all_goals
      simp [enlarge, h, Grows, stretch, Atoms.wedgeAngle, Atoms.wedgeHeight, Atoms.wedgePbcz,
        Atoms.wedgeYPbc, em]
    all_goals congr
  exact ⟨hM, hA, hA, hinf, key.1, ho, key.2.2, key.2.1⟩

/-- **C133.** Let `P'`, `B` be the calculation `P`, `A` with a cell that is `M` times as large in one
direction, and let the k-points of `A` be those that fold to the k-points of `B`. Then to every
self-consistent solution for `A` there is one for `B` with the same chemical potential and the same
charges on all copies of an atom. Its energies at a k-point are the energies of `A` at the `M` k-points
that fold there, and its total energy is `M` times that of `A`. -/
theorem c133_supercell {P P' : ScfIn} {A B : Atoms} {d : Fin 3} {M : ℕ}
    {kf : Fin P'.nk × Fin M ≃ Fin P.nk} (C : SupercellCalc P P' A B d M kf)
    {elements elements' : String → Option ElementData} (hA : Fits P A elements) (hB : Fits P' B elements')
    {r : ScfRun P} (h : Converged P A r) :
    ∃ r' : ScfRun P', Converged P' B r' ∧ r'.mu = r.mu ∧
      (∀ u < M, ∀ i < A.positions.length,
        r'.dq.getD (u * A.positions.length + i) 0 = r.dq.getD i 0) ∧
      (∀ k, ∃ τ : Fin P'.t.norb ≃ Fin M × Fin P.t.norb, ∀ b, r'.e k b = r.e (kf (k, (τ b).1)) (τ b).2) ∧
      ∀ En, 0 < P'.nk → r.energy A = .ok En → r'.energy B = .ok (M * En) := by
  obtain ⟨r', h1, h2, h3, h4⟩ := (C.enlarged fun i hi => (hA.numbers i hi).2).run hA hB h
  refine ⟨r', h1, h2, fun u hu i hi => ?_, h4⟩
  rw [h3]
  exact copyList_get (copies_block M _) hu hi r.dq

end Hotbit
