import Verif.Model.Matrices
import Verif.Spec.SlaterKoster
import Mathlib.Analysis.Calculus.Deriv.Basic

/-!
# Specification of the tight-binding matrices

The Bloch matrix between orbital `p` of atom `i` and orbital `q` of atom `j` is the on-site energy
plus the sum over the images of `j` (the atom itself excluded) that lie within the range of the
table, of the Bloch phase times the textbook two-centre element between `p` and the rotated
orbital of the image.
-/

namespace Hotbit

/-- Two-centre element between orbital `p` of atom `i` and orbital `q` of image `n` of atom `j`,
whose orbitals are rotated by `I.rot n`. -/
noncomputable def imageElem (I : MatIn) (f : SkTable → ℝ → Fin 14 → ℝ) (i j : ℕ) (n : Op)
    (p q : Fin 9) : ℝ :=
  let r := I.rij n i j
  let V : ℕ → ℕ → Fin 3 → ℝ := fun la lb k =>
    f (I.tab (I.sym i) (I.sym j)) (norm3 r) (skIntegralIndex la lb k)
  ∑ x, skSpec V ((norm3 r)⁻¹ • r) p x * orbRep (I.rot n) x q

open Classical in
/-- The Bloch sum of two-centre elements. -/
noncomputable def blochSum (I : MatIn) (f : SkTable → ℝ → Fin 14 → ℝ) (k : Vec) (i j : ℕ)
    (p q : Fin 9) : ℂ :=
  (I.ntuples.map fun n =>
    if ¬ (i = j ∧ n = 0) ∧ (I.tab (I.sym i) (I.sym j)).r1 ≤ norm3 (I.rij n i j) ∧
        norm3 (I.rij n i j) ≤ (I.tab (I.sym i) (I.sym j)).r2 then
      blochPhase k n * (imageElem I f i j n p q : ℂ)
    else 0).sum

/-- The list of images starts with the identity, which does not occur again. -/
def IdFirst (I : MatIn) : Prop := ∃ rest, I.ntuples = 0 :: rest ∧ (0 : Op) ∉ rest

/-- Some atom has d orbitals. -/
def HasD (I : MatIn) : Prop := ∃ i < I.N, 4 < I.no i

/-- The orbital rotations used are the right ones (property C71). -/
def OrbitalsFollow (I : MatIn) : Prop :=
  ∀ n ∈ I.ntuples, ∃ D, rotationTransformation (I.rot n) (I.angles n) (HasD I) = .ok D ∧
    ∀ a b : Fin 9, (HasD I ∨ (a.val < 4 ∧ b.val < 4)) → D a b = orbRep (I.rot n) a b

/-- The images come in mutually inverse pairs: `σ n` undoes `n` and has the conjugate phase. -/
structure InversePairs (I : MatIn) (k : Vec) (σ : Op → Op) : Prop where
  nodup : I.ntuples.Nodup
  mem : ∀ n ∈ I.ntuples, σ n ∈ I.ntuples
  invol : ∀ n ∈ I.ntuples, σ (σ n) = n
  zero : σ 0 = 0
  orth : ∀ n ∈ I.ntuples, (I.rot n).transpose * I.rot n = 1
  rot : ∀ n ∈ I.ntuples, I.rot (σ n) = (I.rot n).transpose
  pos : ∀ n ∈ I.ntuples, ∀ i < I.N,
    I.rij (σ n) i i = - (I.rot n).transpose.mulVec (I.rij n i i)
  phase : ∀ n ∈ I.ntuples, blochPhase k (σ n) = starRingEnd ℂ (blochPhase k n)

/-- For two atoms of the same kind, exchanging the orbitals multiplies an integral by
`(-1)^(l1+l2)`. -/
def ParityTable (f : SkTable → ℝ → Fin 14 → ℝ) (t : SkTable) : Prop :=
  ∀ d, ∀ la ≤ 2, ∀ lb ≤ 2, ∀ m : Fin 3, m.val ≤ min la lb →
    f t d (skIntegralIndex lb la m) = (-1) ^ (la + lb) * f t d (skIntegralIndex la lb m)

/-- Move atom `a` by `v`; its images move along. -/
def MatIn.displace (I : MatIn) (a : ℕ) (v : Vec) : MatIn :=
  { I with pos := fun n j => if j = a then I.pos n j + (I.rot n).mulVec v else I.pos n j }

/-- Element of the Hamiltonian (0 if the construction raises). -/
noncomputable def hamEl (I : MatIn) (k : Vec) (i j : ℕ) (p q : Fin 9) : ℂ :=
  match getMatrices I k with
  | .ok st => st.H0 i j p q
  | .error _ => 0

/-- Element of the overlap matrix (0 if the construction raises). -/
noncomputable def ovlEl (I : MatIn) (k : Vec) (i j : ℕ) (p q : Fin 9) : ℂ :=
  match getMatrices I k with
  | .ok st => st.S i j p q
  | .error _ => 0

/-- For atoms `i ≤ j` no image sits at the ends of the range of the table, and inside the range the
arrays `dh`, `ds` are the derivatives of `h`, `s`. -/
def SmoothPair (I : MatIn) (i j : ℕ) : Prop :=
  ∀ n ∈ I.ntuples, ¬ (i = j ∧ n = 0) →
    let t := I.tab (I.sym i) (I.sym j)
    let d := norm3 (I.rij n i j)
    d ≠ t.r1 ∧ d ≠ t.r2 ∧ (t.r1 ≤ d → d ≤ t.r2 → ∀ m,
      HasDerivAt (fun x => t.h x m) (t.dh d m) d ∧ HasDerivAt (fun x => t.s x m) (t.ds d m) d)

end Hotbit
