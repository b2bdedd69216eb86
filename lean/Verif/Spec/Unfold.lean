import Verif.Spec.TotalEnergy
import Verif.Lemmas.TurnedStates

/-!
# Specification of a repeated structure

A structure with symmetry operations (cells, wedges, screw units) can also be written with a larger
unit: `M` copies of its atoms, and the operations that are left.  `Repeats` says that two geometries
are the same structure written in these two ways; it says nothing about matrices or energies.
-/

namespace Hotbit

open Matrix

/-- The geometry part of the input of `get_matrices`. -/
def MatIn.geom (I : MatIn) : Geom := ⟨I.N, I.sym, I.ntuples, I.rot, I.pos⟩

/-- A numbering of the atoms of `M` copies of `N` atoms: `ix u i` is the number of atom `i` of copy `u`. -/
structure Copies (M N : ℕ) (ix : ℕ → ℕ → ℕ) : Prop where
  lt : ∀ u < M, ∀ i < N, ix u i < M * N
  inj : ∀ u < M, ∀ i < N, ∀ v < M, ∀ j < N, ix u i = ix v j → u = v ∧ i = j

/-- `G'` is `G` written with `M` copies of the atoms: atom `ix u i` of `G'` is atom `i` of copy `u`,
which is turned by `R u i`. Operation `n` on atom `j` of copy `v`, seen from atom `i` of copy `u`, is the
operation `comb u i v j n` of `G`. Every image within the range `rng` that one of them knows, the other
knows too. -/
structure Repeats (G G' : Geom) (M : ℕ) (ix : ℕ → ℕ → ℕ) (R : ℕ → ℕ → Mat)
    (comb : ℕ → ℕ → ℕ → ℕ → Op → Op) (rng : ℕ → ℕ → ℝ) : Prop where
  N : G'.N = M * G.N
  copies : Copies M G.N ix
  sym : ∀ u < M, ∀ i < G.N, G'.sym (ix u i) = G.sym i
  nodup : G.ntuples.Nodup
  nodup' : G'.ntuples.Nodup
  orth : ∀ u < M, ∀ i < G.N, (R u i)ᵀ * R u i = 1
  rotOrth : ∀ u < M, ∀ v < M, ∀ n ∈ G'.ntuples, ∀ i < G.N, ∀ j < G.N,
    (G.rot (comb u i v j n))ᵀ * G.rot (comb u i v j n) = 1
  rij : ∀ u < M, ∀ v < M, ∀ n ∈ G'.ntuples, ∀ i < G.N, ∀ j < G.N,
    G'.rij n (ix u i) (ix v j) = R u i *ᵥ G.rij (comb u i v j n) i j
  rot : ∀ u < M, ∀ v < M, ∀ n ∈ G'.ntuples, ∀ i < G.N, ∀ j < G.N,
    G'.rot n = R u i * G.rot (comb u i v j n) * (R v j)ᵀ
  zero : ∀ u < M, ∀ v < M, ∀ n ∈ G'.ntuples, ∀ i < G.N, (comb u i v i n = 0 ↔ u = v ∧ n = 0)
  inj : ∀ u < M, ∀ v < M, ∀ w < M, ∀ n ∈ G'.ntuples, ∀ m ∈ G'.ntuples, ∀ i < G.N, ∀ j < G.N,
    comb u i v j n = comb u i w j m → v = w ∧ n = m
  into : ∀ u < M, ∀ v < M, ∀ n ∈ G'.ntuples, ∀ i < G.N, ∀ j < G.N,
    norm3 (G.rij (comb u i v j n) i j) ≤ rng i j → comb u i v j n ∈ G.ntuples
  onto : ∀ u < M, ∀ i < G.N, ∀ j < G.N, ∀ n ∈ G.ntuples, norm3 (G.rij n i j) ≤ rng i j →
    ∃ v < M, ∃ m ∈ G'.ntuples, comb u i v j m = n

/-- The copies have the orbitals and the tables of the original; on-site energies of a shell are
equal. -/
structure SameOrbitals (I J : MatIn) (M : ℕ) (ix : ℕ → ℕ → ℕ) : Prop where
  no : ∀ u < M, ∀ i < I.N, J.no (ix u i) = I.no i
  eps : ∀ u < M, ∀ i < I.N, J.eps (ix u i) = I.eps i
  seps : J.seps = I.seps
  tab : J.tab = I.tab
  valid : ∀ i < I.N, ValidNo (I.no i)
  shell : ∀ i < I.N, ShellDiag (I.eps i) (I.no i)

/-- The images come in inverse pairs, also for different atoms: from the inverse image, atom `j` sees
atom `i` as `i` sees `j`. -/
structure MirrorPairs (I : MatIn) (k : Vec) (σ : Op → Op) : Prop extends InversePairs I k σ where
  posAll : ∀ n ∈ I.ntuples, ∀ i < I.N, ∀ j < I.N,
    I.rij (σ n) j i = - (I.rot n)ᵀ *ᵥ (I.rij n i j)

/-- The tables of elements `a-b` and `b-a` describe the same integrals: exchanging the orbitals
multiplies by `(-1)^(l1+l2)`. -/
structure MutualTables (tab : String → String → SkTable) : Prop where
  r1 : ∀ a b, (tab b a).r1 = (tab a b).r1
  r2 : ∀ a b, (tab b a).r2 = (tab a b).r2
  h : ∀ a b d, ∀ la ≤ 2, ∀ lb ≤ 2, ∀ m : Fin 3, m.val ≤ min la lb →
    (tab b a).h d (skIntegralIndex lb la m) = (-1) ^ (la + lb) * (tab a b).h d (skIntegralIndex la lb m)
  s : ∀ a b d, ∀ la ≤ 2, ∀ lb ≤ 2, ∀ m : Fin 3, m.val ≤ min la lb →
    (tab b a).s d (skIntegralIndex lb la m) = (-1) ^ (la + lb) * (tab a b).s d (skIntegralIndex la lb m)

/-- `κ c` are the `M` k-points of the original that fold to the k-point `k` of the larger unit, and
`φ c u i` is the Bloch phase of atom `i` of copy `u` there: the phases are consistent with the operations,
and different characters are orthogonal. -/
structure Folds (G' : Geom) (M N : ℕ) (comb : ℕ → ℕ → ℕ → ℕ → Op → Op) (k : Vec) (κ : Fin M → Vec)
    (φ : Fin M → ℕ → ℕ → ℂ) : Prop where
  phase : ∀ c, ∀ u < M, ∀ v < M, ∀ n ∈ G'.ntuples, ∀ i < N, ∀ j < N,
    φ c v j * blochPhase k n = φ c u i * blochPhase (κ c) (comb u i v j n)
  unit : ∀ c, ∀ u < M, ∀ i < N, starRingEnd ℂ (φ c u i) * φ c u i = 1
  orth : ∀ c d, ∀ i < N,
    ∑ u ∈ Finset.range M, starRingEnd ℂ (φ c u i) * φ d u i = if c = d then (M : ℂ) else 0

/-- The images come in inverse pairs, the orbitals of all images can be turned along, and the tables are
consistent. -/
structure GoodMat (I : MatIn) (k : Vec) (σ : Op → Op) : Prop where
  id : IdFirst I
  follow : OrbitalsFollow I
  mirror : MirrorPairs I k σ
  tables : MutualTables I.tab

/-- The geometry that the neighbour list of the electrostatics sees. -/
noncomputable def nbGeom (A : Atoms) : Geom where
  N := A.positions.length
  sym i := ((A.atoms[i]?).map Prod.fst).getD ""
  ntuples := scanOps A
  rot := A.rawRotation
  pos n i := A.rawTransform (A.pos i) n

/-- Image `n` of atom `j` is on the neighbour list of atom `i`. -/
def Near (cut : Option ℝ) (G : Geom) (i j : ℕ) (n : Op) : Prop :=
  (∀ c, cut = some c → norm3 (G.rij n i j) < c) ∧ ¬ (n = 0 ∧ i = j)

/-- `B` with the parameters `P'` is `A` with the parameters `P` written with `M` copies of the atoms: the
geometry is repeated within the ranges of the tables, of the repulsion and of the Coulomb interaction,
the parameters of the atoms are repeated, and the k-points of `A` fold to those of `B`. -/
structure Enlarged (P P' : ScfIn) (A B : Atoms) (M : ℕ) where
  /-- number of atom `i` of copy `u` -/
  ix : ℕ → ℕ → ℕ
  /-- orientation of atom `i` of copy `u` -/
  R : ℕ → ℕ → Mat
  /-- operation `n` on an atom of copy `v` as seen from an atom of copy `u` -/
  comb : ℕ → ℕ → ℕ → ℕ → Op → Op
  rng : ℕ → ℕ → ℝ
  crng : ℝ
  /-- pairing of operations with their inverses -/
  σ : Op → Op
  τ : Op → Op
  /-- the k-points of `A` that fold to a k-point of `B` -/
  kf : Fin P'.nk × Fin M ≃ Fin P.nk
  /-- Bloch phases of the copies -/
  φ : Fin P'.nk → Fin M → ℕ → ℕ → ℂ
  pos : 0 < M
  commA : Commuting A.ctype
  commB : Commuting B.ctype
  geom : Repeats (P.geom A) (P'.geom B) M ix R comb rng
  orbs : SameOrbitals (P.mat A) (P'.mat B) M ix
  goodA : ∀ k, GoodMat (P.mat A) (P.kpt k) σ
  goodB : ∀ k, GoodMat (P'.mat B) (P'.kpt k) τ
  invA : (P.geom A).Inverse σ
  invB : (P'.geom B).Inverse τ
  reach : ∀ i < A.positions.length, ∀ j < A.positions.length,
    (P.tab ((P.mat A).sym i) ((P.mat A).sym j)).r2 ≤ rng i j ∧ P.rmax ≤ rng i j ∧ 0.1 ≤ rng i j
  fold : ∀ k, Folds (P'.geom B) M A.positions.length comb (P'.kpt k) (fun c => P.kpt (kf (k, c))) (φ k)
  weight : ∀ k c, P'.wk k = M * P.wk (kf (k, c))
  coul : P.scc = true → Repeats (nbGeom A) (nbGeom B) M ix R comb (fun _ _ => crng) ∧
    (∀ u < M, ∀ v < M, ∀ n ∈ (nbGeom B).ntuples, ∀ i < A.positions.length, ∀ j < A.positions.length,
      Legal A (comb u i v j n)) ∧
    (∀ n, Legal A n → ∀ i < A.positions.length, ∀ j < A.positions.length,
      Near P.gcut (nbGeom A) i j n → norm3 ((nbGeom A).rij n i j) ≤ crng) ∧
    (P.gcut.isSome ∨ B.isCluster = true)
  hubbard : ∀ u < M, ∀ i < A.positions.length, P'.U (ix u i) = P.U i ∧
    P'.w (ix u i) = P.w i ∧
    P'.val.getD (ix u i) 0 = P.val.getD i 0
  units : P'.bohr = P.bohr ∧ P'.hartree = P.hartree
  same : P'.scc = P.scc ∧ P'.width = P.width ∧ P'.cd = P.cd ∧ P'.gcut = P.gcut ∧ P'.V = P.V ∧
    P'.rmax = P.rmax
  symV : ∀ a b, P.V a b = P.V b a
  count : P.nel = P.val.sum - P.charge ∧ P'.nel = M * P.nel ∧ P'.charge = M * P.charge ∧
    P'.efree = M * P.efree
  tols : 0 ≤ P'.tol ∧ 0 < P'.tolIm

end Hotbit
