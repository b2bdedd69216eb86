import Verif.Spec.Renumber

/-!
# Specification of structures that are far apart

Several structures in one container, none of them within the range of any interaction with another.
-/

namespace Hotbit

/-- A numbering of the atoms of `m` structures with `N c` atoms each: `ix c i` is the number of atom `i` of
structure `c` among all `N'` atoms. -/
structure Parts (N' : ℕ) {m : ℕ} (N : Fin m → ℕ) (ix : Fin m → ℕ → ℕ) : Prop where
  total : N' = ∑ c, N c
  lt : ∀ c, ∀ i < N c, ix c i < N'
  inj : ∀ c, ∀ i < N c, ∀ d, ∀ j < N d, ix c i = ix d j → c = d ∧ i = j

/-- The atoms of `B` are the atoms of the structures `A c`, which have the container of `B`. -/
structure Fragments {m : ℕ} (A : Fin m → Atoms) (B : Atoms) (ix : Fin m → ℕ → ℕ) : Prop where
  comm : Commuting B.ctype
  none : Legal B 0
  container : ∀ c, A c = { B with atoms := (A c).atoms }
  parts : Parts B.positions.length (fun c => (A c).positions.length) ix
  atom : ∀ c, ∀ i < (A c).positions.length, B.atoms[ix c i]? = (A c).atoms[i]?

/-- The distance of image `n` of atom `j` from atom `i`, in the units of the calculation. -/
noncomputable def imageDist (A : Atoms) (bohr : ℝ) (i j : ℕ) (n : Op) : ℝ :=
  norm3 (imagePos A bohr n j - imagePos A bohr 0 i)

/-- The symbol of an atom. -/
def Atoms.symbolAt (A : Atoms) (i : ℕ) : String := ((A.atoms[i]?).map Prod.fst).getD ""

/-- All atoms of different structures, with all images, are farther from each other than the tables, the
repulsion and, with SCC, the Coulomb interaction reach. -/
def BeyondReach {m : ℕ} (P' : ScfIn) (N : Fin m → ℕ) (B : Atoms) (ix : Fin m → ℕ → ℕ) : Prop :=
  ∀ c d, c ≠ d → ∀ i < N c, ∀ j < N d, ∀ n, Legal B n →
    (P'.tab (B.symbolAt (ix c i)) (B.symbolAt (ix d j))).r2 < imageDist B P'.bohr (ix c i) (ix d j) n ∧
    P'.rmax < imageDist B P'.bohr (ix c i) (ix d j) n ∧ 0.1 < imageDist B P'.bohr (ix c i) (ix d j) n ∧
    (P'.scc = true → ∃ g, P'.gcut = some g ∧ g ≤ imageDist B 1 (ix c i) (ix d j) n)

/-- The calculation `P'` for all structures together and the calculations `P c` for each of them: the
parameters belong to the atoms, k-points and units are the same, and the structures share their electrons.
`e` is an operation that does nothing: `0`, or the full turn of a wedge. -/
structure ApartCalc {m : ℕ} (P : Fin m → ScfIn) (P' : ScfIn) (A : Fin m → Atoms) (B : Atoms)
    (ix : Fin m → ℕ → ℕ) (e : Op) (kf : ∀ c, Fin P'.nk ≃ Fin (P c).nk) : Prop where
  fragments : Fragments A B ix
  apart : BeyondReach P' (fun c => (A c).positions.length) B ix
  nothing : TrivialOp B 0 e
  phases : ∀ k, blochPhase (P'.kpt k) e = 1
  start : undoOp e 0 = 0
  scans : ∀ c, InverseScan B e (P c).scan
  scan : InverseScan B e P'.scan
  cutSymm : (∀ c i j, (P c).cut i j = (P c).cut j i) ∧ ∀ i j, P'.cut i j = P'.cut j i
  atoms : ∀ c, ∀ i < (A c).positions.length, P'.no (ix c i) = (P c).no i ∧ P'.eps (ix c i) = (P c).eps i ∧
    P'.U (ix c i) = (P c).U i ∧ P'.w (ix c i) = (P c).w i ∧ P'.val.getD (ix c i) 0 = (P c).val.getD i 0
  cuts : ∀ c, ∀ i < (A c).positions.length, ∀ j < (A c).positions.length,
    P'.cut (ix c i) (ix c j) = (P c).cut i j
  reach : ∀ c, ∀ i < (A c).positions.length, ∀ j < (A c).positions.length,
    (P'.tab ((A c).symbolAt i) ((A c).symbolAt j)).r2 ≤ (P c).cut i j ∧ P'.rmax ≤ (P c).cut i j ∧
    0.1 ≤ (P c).cut i j
  images : ∀ c, ∀ i < (A c).positions.length, ∀ j < (A c).positions.length, ∀ n, n ≠ 0 →
    imageDist (A c) P'.bohr i j n ≤ (P c).cut i j → (n ∈ (P c).scan ↔ n ∈ P'.scan)
  follows : ∀ c, OrbitalsFollow ((P c).mat (A c))
  follow : OrbitalsFollow (P'.mat B)
  tables : MutualTables P'.tab
  kpoints : ∀ c k, (P c).kpt (kf c k) = P'.kpt k ∧ (P c).wk (kf c k) = P'.wk k
  symV : ∀ a b, P'.V a b = P'.V b a
  same : ∀ c, (P c).bohr = P'.bohr ∧ (P c).hartree = P'.hartree ∧ (P c).scc = P'.scc ∧
    (P c).seps = P'.seps ∧ (P c).tab = P'.tab ∧ (P c).width = P'.width ∧ (P c).cd = P'.cd ∧
    (P c).gcut = P'.gcut ∧ (P c).V = P'.V ∧ (P c).rmax = P'.rmax
  count : (∀ c, (P c).nel = (P c).val.sum - (P c).charge) ∧ P'.nel = ∑ c, (P c).nel ∧
    P'.charge = ∑ c, (P c).charge ∧ P'.efree = ∑ c, (P c).efree
  tols : 0 ≤ P'.tol ∧ 0 < P'.tolIm
  coulomb : P'.scc = true → P'.gcut.isSome ∨ B.isCluster = true

end Hotbit
