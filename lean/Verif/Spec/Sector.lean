import Verif.Spec.Supercell

/-!
# Specification of calculations with one sector of a symmetric structure

`A` holds one of `M` equal sectors around an axis (a wedge); `B` holds all the atoms, without the symmetry.
-/

namespace Hotbit

/-- The first angular operation of a wedge with `M` sectors. -/
def firstSector (M : ℕ) : ℤ := (angularRange M).1

/-- The angular operation of the wedge that turns by `z` sectors. -/
def sectorOp (M : ℕ) (z : ℤ) : ℤ := firstSector M + (z - firstSector M) % M

/-- `B` is the structure of which `A` is a sector: its atoms are those of all `M` sectors, its operations
those of `A` that do not turn by whole sectors. -/
structure AllSectors (A B : Atoms) (M : ℕ) : Prop where
  pos : 0 < M
  commA : Commuting A.ctype
  commB : Commuting B.ctype
  sectors : A.ranges 0 = rangeOf (angularRange M)
  none : B.ranges 0 = rangeZero
  ranges : B.ranges 1 = A.ranges 1 ∧ B.ranges 2 = A.ranges 2
  full : (∀ r, A.rawTransform r (along 0 M) = r) ∧ A.rawRotation (along 0 M) = 1
  copies : A.extendedCopy (.list ((List.range M).map fun u : ℕ => along 0 (firstSector M + u))) = .ok B.atoms
  op : ∀ n, Legal B n → (∀ r, B.rawTransform r n = A.rawTransform r n) ∧ B.rawRotation n = A.rawRotation n

/-- The container for all sectors of a wedge: a molecule or wire, or a helix. -/
noncomputable def allSectors (A : Atoms) (out : List (String × Vec)) : Atoms :=
  match A.ctype with
  | .chiralWedge => { A with ctype := .chiral, atoms := out, cell := !![0, 0, 0; A.cell 1 0, 0, 0; A.cell 0 1, 0, 0] }
  | .wedgeYAxis => { A with ctype := .bravais, atoms := out, cell := !![0, 0, 0; 0, A.wedgeHeight, 0; 0, 0, 0],
                            pbc := ![false, A.wedgeYPbc, false] }
  | _ => { A with ctype := .bravais, atoms := out, cell := !![0, 0, 0; 0, 0, 0; 0, 0, A.wedgeHeight],
                  pbc := ![false, false, A.wedgePbcz] }

/-- The operations that are scanned are legal and come with their inverses (half a turn is its own
inverse). -/
structure SectorScan (A : Atoms) (M : ℕ) (ops : List Op) : Prop where
  nodup : ops.Nodup
  legal : ∀ n ∈ ops, Legal A n
  inverse : ∀ n ∈ ops, undoOp (along 0 M) n ∈ ops

/-- The calculation of all atoms that belongs to the calculation of one sector: equal parameters for the
copies of an atom; the k-points of `A` are those of `B`, each with the `M` angular momenta. -/
structure SectorCalc (P P' : ScfIn) (A B : Atoms) (M : ℕ)
    (kf : Fin P'.nk × Fin M ≃ Fin P.nk) : Prop extends CopiedCalc P P' A B M kf where
  cell : AllSectors A B M
  scanA : SectorScan A M P.scan
  scanB : ScanList B P'.scan
  kpoints : ∀ k (c : Fin M), P.kpt (kf (k, c)) = Function.update (P'.kpt k) 0 (2 * Real.pi * c / M)
  coulomb : P.scc = true → (P.gcut = none ∧ B.isCluster = true) ∨ ∃ c, P.gcut = some c ∧
    HasAllImages A 1 (scanOps A) (fun _ _ => c) ∧ HasAllImages B 1 (scanOps B) (fun _ _ => c)

end Hotbit
