import Verif.Spec.Unfold
import Verif.Props.Atoms
import Verif.Props.MatricesContainers

/-!
# Specification of calculations with a larger cell

`B` is the structure `A` written with a cell that is `M` times as long in direction `d`: its atoms are
those that `extended_copy` returns for `M` consecutive cells, its operation `n` moves by `M` cells for
each step in direction `d`.
-/

namespace Hotbit

/-- The operation of `z` steps in direction `d`. -/
def along (d : Fin 3) (z : ℤ) : Op := Pi.single d z

/-- Steps in direction `d` are `M` times as long. -/
def stretch (d : Fin 3) (M : ℕ) (n : Op) : Op := Function.update n d (M * n d)

/-- The structure `A` written with a larger cell. -/
structure Supercell (A B : Atoms) (d : Fin 3) (M : ℕ) : Prop where
  pos : 0 < M
  commA : Commuting A.ctype
  commB : Commuting B.ctype
  inf : A.ranges d = rangeInf
  ranges : B.ranges = A.ranges
  copies : A.extendedCopy (.list ((List.range M).map fun u : ℕ => along d u)) = .ok B.atoms
  op : ∀ r n, B.rawTransform r n = A.rawTransform r (stretch d M n)
  rot : ∀ n, B.rawRotation n = A.rawRotation (stretch d M n)

/-- The cell parameters that grow with the unit in direction `d`: the lattice vector, or the height and
the twist angle of the helical containers. -/
def Grows : CType → (d x y : Fin 3) → Prop
  | .bravais, d, x, _ => x = d
  | .chiral, _, x, y => (x, y) = (1, 0) ∨ (x, y) = (2, 0)
  | .wedge, _, x, y | .wedgeYAxis, _, x, y => (x, y) = (1, 0)
  | .chiralWedge, _, x, y => (x, y) = (1, 0) ∨ (x, y) = (0, 1)
  | .chiralGeneral, d, x, y => if d = 0 then (x, y) = (1, 0) ∨ (x, y) = (2, 0)
      else (x, y) = (0, 1) ∨ (x, y) = (1, 1)
  | _, _, _, _ => False

open Classical in
/-- The structure with `M` times the cell in direction `d`. -/
noncomputable def enlarge (A : Atoms) (d : Fin 3) (M : ℕ) (out : List (String × Vec)) : Atoms :=
  { A with atoms := out, cell := fun x y => if Grows A.ctype d x y then M * A.cell x y else A.cell x y }

/-- The list of operations contains all that bring an atom within range of another (cells that are not
too small). -/
def HasAllImages (A : Atoms) (bohr : ℝ) (ops : List Op) (rng : ℕ → ℕ → ℝ) : Prop :=
  ∀ n, Legal A n → n ≠ 0 → ∀ i < A.positions.length, ∀ j < A.positions.length,
    norm3 (imagePos A bohr n j - imagePos A bohr 0 i) ≤ rng i j → n ∈ ops

/-- The operations that are scanned are legal and come with their inverses. -/
structure ScanList (A : Atoms) (ops : List Op) : Prop where
  nodup : ops.Nodup
  legal : ∀ n ∈ ops, Legal A n
  neg : ∀ n ∈ ops, -n ∈ ops

/-- The same parameters for the copies of an atom, and weights of the k-points of `A` that add up to those
of `B`. -/
structure CopiedCalc (P P' : ScfIn) (A B : Atoms) (M : ℕ) (kf : Fin P'.nk × Fin M ≃ Fin P.nk) : Prop where
  cutSymm : (∀ i j, P.cut i j = P.cut j i) ∧ ∀ i j, P'.cut i j = P'.cut j i
  atoms : ∀ u < M, ∀ i < A.positions.length,
    P'.no (u * A.positions.length + i) = P.no i ∧ P'.eps (u * A.positions.length + i) = P.eps i ∧
    P'.U (u * A.positions.length + i) = P.U i ∧ P'.w (u * A.positions.length + i) = P.w i ∧
    P'.val.getD (u * A.positions.length + i) 0 = P.val.getD i 0
  cuts : ∀ u < M, ∀ v < M, ∀ i < A.positions.length, ∀ j < A.positions.length,
    P'.cut (u * A.positions.length + i) (v * A.positions.length + j) = P.cut i j
  reach : ∀ i < A.positions.length, ∀ j < A.positions.length,
    (P.tab ((P.mat A).sym i) ((P.mat A).sym j)).r2 ≤ P.cut i j ∧ P.rmax ≤ P.cut i j ∧ 0.1 ≤ P.cut i j
  imagesA : HasAllImages A P.bohr P.scan P.cut
  imagesB : HasAllImages B P'.bohr P'.scan P'.cut
  shell : ∀ i < A.positions.length, ShellDiag (P.eps i) (P.no i)
  followA : OrbitalsFollow (P.mat A)
  followB : OrbitalsFollow (P'.mat B)
  tables : MutualTables P.tab
  weight : ∀ k c, P'.wk k = M * P.wk (kf (k, c))
  symV : ∀ a b, P.V a b = P.V b a
  same : P'.bohr = P.bohr ∧ P'.hartree = P.hartree ∧ P'.scc = P.scc ∧ P'.seps = P.seps ∧ P'.tab = P.tab ∧
    P'.width = P.width ∧ P'.cd = P.cd ∧ P'.gcut = P.gcut ∧ P'.V = P.V ∧ P'.rmax = P.rmax
  count : P.nel = P.val.sum - P.charge ∧ P'.nel = M * P.nel ∧ P'.charge = M * P.charge ∧
    P'.efree = M * P.efree
  tols : 0 ≤ P'.tol ∧ 0 < P'.tolIm

/-- The same calculation with the larger cell: equal parameters for the copies of an atom, and k-points
of `A` that fold to those of `B`. -/
structure SupercellCalc (P P' : ScfIn) (A B : Atoms) (d : Fin 3) (M : ℕ)
    (kf : Fin P'.nk × Fin M ≃ Fin P.nk) : Prop extends CopiedCalc P P' A B M kf where
  cell : Supercell A B d M
  scanA : ScanList A P.scan
  scanB : ScanList B P'.scan
  kpoints : ∀ k (c : Fin M), P.kpt (kf (k, c))
    = Function.update (P'.kpt k) d ((P'.kpt k d + 2 * Real.pi * c) / M)
  coulomb : P.scc = true → ∃ c, P.gcut = some c ∧
    HasAllImages A 1 (scanOps A) (fun _ _ => c) ∧ HasAllImages B 1 (scanOps B) (fun _ _ => c)

end Hotbit
