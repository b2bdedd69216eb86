import Verif.Spec.Supercell

/-!
# Specification of a renumbered structure

The same structure with its atoms in another order, and with other periodic images of the atoms in the
cell.
-/

namespace Hotbit

/-- `B` is `A` with the same container, in which atom `i` has the number `σ i` and is replaced by its image
under the symmetry operation `m i`. The operations are those of the directions without ends. -/
structure Renumbered (A B : Atoms) (σ : ℕ → ℕ) (m : ℕ → Op) : Prop where
  comm : Commuting A.ctype
  container : B = { A with atoms := B.atoms }
  length : B.positions.length = A.positions.length
  lt : ∀ i < A.positions.length, σ i < A.positions.length
  inj : ∀ i < A.positions.length, ∀ j < A.positions.length, σ i = σ j → i = j
  inf : ∀ i < A.positions.length, ∀ d, m i d ≠ 0 → A.ranges d = rangeInf
  none : Legal A 0
  atom : ∀ i s r, A.atoms[i]? = some (s, r) → ∃ x, A.transform r (m i) = .ok x ∧ B.atoms[σ i]? = some (s, x)

/-- The operations that are scanned are legal and come with their inverses. `e` is an operation that does
nothing: `0`, or the full turn of a wedge. -/
structure InverseScan (A : Atoms) (e : Op) (ops : List Op) : Prop where
  nodup : ops.Nodup
  legal : ∀ n ∈ ops, Legal A n
  inverse : ∀ n ∈ ops, undoOp e n ∈ ops
  half : (∀ n ∈ ops, 2 * n 0 ≠ - e 0) ∨ e 0 = 0

/-- The same calculation for the renumbered structure: the parameters belong to the atoms, and the k-points
are the same, possibly in another order. -/
structure RenumberedCalc (P P' : ScfIn) (A B : Atoms) (σ : ℕ → ℕ) (m : ℕ → Op) (e : Op)
    (kf : Fin P'.nk ≃ Fin P.nk) : Prop where
  structures : Renumbered A B σ m
  nothing : TrivialOp A 0 e
  phases : ∀ k, blochPhase (P.kpt k) e = 1
  start : undoOp e 0 = 0
  scanA : InverseScan A e P.scan
  scanB : InverseScan A e P'.scan
  cutSymm : (∀ i j, P.cut i j = P.cut j i) ∧ ∀ i j, P'.cut i j = P'.cut j i
  atoms : ∀ i < A.positions.length, P'.no (σ i) = P.no i ∧ P'.eps (σ i) = P.eps i ∧
    P'.U (σ i) = P.U i ∧ P'.w (σ i) = P.w i ∧ P'.val.getD (σ i) 0 = P.val.getD i 0
  cuts : ∀ i < A.positions.length, ∀ j < A.positions.length, P'.cut (σ i) (σ j) = P.cut i j
  reach : ∀ i < A.positions.length, ∀ j < A.positions.length,
    (P.tab ((P.mat A).sym i) ((P.mat A).sym j)).r2 ≤ P.cut i j ∧ P.rmax ≤ P.cut i j ∧ 0.1 ≤ P.cut i j
  imagesA : HasAllImages A P.bohr P.scan P.cut
  imagesB : HasAllImages B P'.bohr P'.scan P'.cut
  shell : ∀ i < A.positions.length, ShellDiag (P.eps i) (P.no i)
  followA : OrbitalsFollow (P.mat A)
  followB : OrbitalsFollow (P'.mat B)
  tables : MutualTables P.tab
  kpoints : ∀ k, P.kpt (kf k) = P'.kpt k
  weight : ∀ k, P'.wk k = P.wk (kf k)
  symV : ∀ a b, P.V a b = P.V b a
  same : P'.bohr = P.bohr ∧ P'.hartree = P.hartree ∧ P'.scc = P.scc ∧ P'.seps = P.seps ∧ P'.tab = P.tab ∧
    P'.width = P.width ∧ P'.cd = P.cd ∧ P'.gcut = P.gcut ∧ P'.V = P.V ∧ P'.rmax = P.rmax
  count : P.nel = P.val.sum - P.charge ∧ P'.nel = P.nel ∧ P'.charge = P.charge ∧ P'.efree = P.efree
  tols : 0 ≤ P'.tol ∧ 0 < P'.tolIm
  coulomb : P.scc = true → (P.gcut = none ∧ A.isCluster = true) ∨ ∃ c, P.gcut = some c ∧
    HasAllImages A 1 (scanOps A) (fun _ _ => c) ∧ HasAllImages B 1 (scanOps B) (fun _ _ => c)

end Hotbit
