import Verif.Model.PairTerms
import Mathlib.Analysis.Calculus.Deriv.Basic
import Mathlib.Data.Matrix.Mul

/-!
# Specification of pairwise energies of a system with images

Atom `i` interacts with every image `n` of every atom `j`, itself excluded.  The energy per cell
counts every such interaction by one half for each of the two partners; the force on atom `i` is the
sum of the central forces of all its partners.
-/

namespace Hotbit

open Classical in
/-- Half of the sum over all atoms and all their partners. -/
noncomputable def cellEnergy (G : Geom) (V : ℕ → ℕ → ℝ → ℝ) : ℝ :=
  1 / 2 * ∑ i ∈ Finset.range G.N, ∑ j ∈ Finset.range G.N, (G.ntuples.map fun n =>
    if i = j ∧ n = 0 then 0 else V i j (norm3 (G.rij n i j))).sum

open Classical in
/-- Sum of central forces on atom `i`; `V'` is the derivative of the potential. -/
noncomputable def centralForce (G : Geom) (V' : ℕ → ℕ → ℝ → ℝ) (i : ℕ) : Vec :=
  ∑ j ∈ Finset.range G.N, (G.ntuples.map fun n =>
    if i = j ∧ n = 0 then 0 else (V' i j (norm3 (G.rij n i j)) / norm3 (G.rij n i j)) • G.rij n i j).sum

/-- The images come in mutually inverse pairs, by isometries; the identity comes first. -/
structure Geom.Inverse (G : Geom) (σ : Op → Op) : Prop where
  idFirst : ∃ rest, G.ntuples = 0 :: rest ∧ (0 : Op) ∉ rest
  nodup : G.ntuples.Nodup
  mem : ∀ n ∈ G.ntuples, σ n ∈ G.ntuples
  invol : ∀ n ∈ G.ntuples, σ (σ n) = n
  zero : σ 0 = 0
  orth : ∀ n ∈ G.ntuples, (G.rot n).transpose * G.rot n = 1
  rot : ∀ n ∈ G.ntuples, G.rot (σ n) = (G.rot n).transpose
  rot_zero : G.rot 0 = 1
  pos : ∀ n ∈ G.ntuples, ∀ i < G.N, ∀ j < G.N,
    G.rij (σ n) j i = - (G.rot n).transpose.mulVec (G.rij n i j)

/-- Move atom `a` by `v`; its images move along. -/
def Geom.displace (G : Geom) (a : ℕ) (v : Vec) : Geom :=
  { G with pos := fun n j => if j = a then G.pos n j + (G.rot n).mulVec v else G.pos n j }

/-- The atoms in another order. -/
def Geom.relabel (G : Geom) (π : ℕ → ℕ) : Geom :=
  { G with sym := fun i => G.sym (π i), pos := fun n j => G.pos n (π j) }

end Hotbit
