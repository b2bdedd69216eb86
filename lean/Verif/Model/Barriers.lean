import Verif.Model.FdForces

/-!
# Paths between two structures

Models the class `MEP` of `box/barriers.py:131-297`.

All images have the same number of atoms.  The images are given by a function of their number, of
which only the first `M` values matter; likewise the rows of a position array.  Numbers are real; a
distance zero, which gives NaN when divided by, is excluded in the theorems.  Creating the directory for
the pictures (`box/barriers.py:139-141`) is left out.
-/

namespace Hotbit

/-- `self.lambdas`: `None`, a Python list or a numpy array. -/
inductive Lambdas
  | none
  | list (l : List ℝ)
  | array (l : List ℝ)

/-- An object of the class `MEP`; `positions2` does not exist at first. -/
structure Mep (N : ℕ) where
  M : ℕ
  images : ℕ → Places N
  lock : Bool
  positions2 : Option (ℕ → Places N)
  lambdas : Lambdas

/-- `MEP(images,calc)`, `box/barriers.py:132-143`; `images[0]` raises `IndexError` without images. -/
def mepNew {N : ℕ} (M : ℕ) (images : ℕ → Places N) : Except Exn (Mep N) :=
  if M = 0 then .error .indexError else .ok ⟨M, images, false, none, .none⟩

/-- `interpolate()`, `box/barriers.py:157-162`. -/
noncomputable def mepInterpolate {N : ℕ} (s : Mep N) : Mep N :=
  let first := s.images 0
  let last := s.images (s.M - 1)
  { s with images := fun i =>
      if 1 ≤ i ∧ i < s.M - 1 then first + ((i : ℝ) / ((s.M : ℝ) - 1)) • (last - first) else s.images i }

/-- `lock_positions()` and `release_positions()`, `box/barriers.py:165-170`. -/
def mepLock {N : ℕ} (s : Mep N) (b : Bool) : Mep N := { s with lock := b }

/-- `set_positions(positions)`, `box/barriers.py:173-189`, for an array of `M*N` rows. -/
def mepSetPositions {N : ℕ} (s : Mep N) (p : ℕ → Vec) : Mep N :=
  if s.lock then { s with positions2 := some fun i a => p (i * N + a) }
  else { s with images := fun i => if i < s.M then fun a => p (i * N + a) else s.images i }

/-- `get_positions()`, `box/barriers.py:239-247`: row number `r`. -/
def mepGetPositions {N : ℕ} [NeZero N] (s : Mep N) (r : ℕ) : Vec := s.images (r / N) (Fin.ofNat N r)

/-- `np.linalg.norm` of the coordinates of all atoms. -/
noncomputable def placesNorm {N : ℕ} (x : Places N) : ℝ := √(∑ p : Fin N × Fin 3, x p.1 p.2 ^ 2)

/-- `get_constraint_deviations()`, `box/barriers.py:223-236`. -/
noncomputable def mepDeviations {N : ℕ} (s : Mep N) : Except Exn (List ℝ) :=
  let R := s.positions2.getD s.images
  let D := (List.range (s.M - 1)).map fun i : ℕ => placesNorm (R (i + 1) - R i)
  if s.M - 1 = 0 then .error .zeroDivisionError
  else .ok (D.map fun x => x - D.sum / ((s.M - 1 : ℕ) : ℝ))

/-- `get_max_constraint_deviation()`, `box/barriers.py:210-219`. -/
noncomputable def mepMaxDeviation {N : ℕ} (s : Mep N) : Except Exn ℝ :=
  let D := (List.range (s.M - 1)).map fun i : ℕ => placesNorm (s.images (i + 1) - s.images i)
  if s.M - 1 = 0 then .error .zeroDivisionError
  else
    let L1 := D.sum / ((s.M - 1 : ℕ) : ℝ)
    .ok ((D.map fun x => |x - L1|).foldl max 0 / L1)

/-- `get_lambda_guess()`, `box/barriers.py:191-208`; `plot` is what drawing the path ends with.  An
array compared with `None` is an array of its length, the truth of which is undefined for two or more
elements. -/
noncomputable def mepLambdaGuess {N : ℕ} (s : Mep N) (plot : Except Exn Unit) : Except Exn (List ℝ) := do
  plot
  match s.lambdas with
  | .none => .ok (List.replicate (s.M - 1) 0)
  | .list l => .ok l
  | .array l => if 2 ≤ l.length then .error .valueError else .ok l

/-- `set_lambdas(lambdas)`, `box/barriers.py:289-290`. -/
def mepSetLambdas {N : ℕ} (s : Mep N) (l : Lambdas) : Mep N := { s with lambdas := l }

/-- `get_potential_energy()`, `box/barriers.py:250-252`. -/
noncomputable def mepEnergy {N : ℕ} (E : Places N → ℝ) (s : Mep N) : ℝ := ∑ i ∈ Finset.range s.M, E (s.images i)

/-- `_get_potential_forces()`, `box/barriers.py:255-263`: the forces of the image number `k`. -/
def mepPotentialForces {N : ℕ} (f : Places N → Places N) (s : Mep N) (k : ℕ) : Places N :=
  if 1 ≤ k ∧ k < s.M - 1 then f (s.images k) else 0

/-- `d[i]`, `box/barriers.py:277-280`. -/
noncomputable def mepDir {N : ℕ} (R : ℕ → Places N) (i : ℕ) : Places N :=
  (1 / placesNorm (R (i + 1) - R i)) • (R (i + 1) - R i)

/-- `_get_constraint_forces(lambdas)`, `box/barriers.py:266-287`. -/
noncomputable def mepConstraintForces {N : ℕ} (s : Mep N) (l : List ℝ) : Except Exn (ℕ → Places N) :=
  if l.length ≠ s.M - 1 then .error .assertionError
  else if s.M - 1 = 0 then .error .zeroDivisionError
  else
    let lambda0 := l.sum / ((s.M - 1 : ℕ) : ℝ)
    .ok fun k =>
      if 1 ≤ k ∧ k < s.M - 1 then
        (l.getD (k - 1) 0 - lambda0) • mepDir s.images (k - 1) - (l.getD k 0 - lambda0) • mepDir s.images k
      else 0

/-- `get_forces()`, `box/barriers.py:292-297`; `len(None)` raises `TypeError`. -/
noncomputable def mepForces {N : ℕ} (f : Places N → Places N) (s : Mep N) : Except Exn (ℕ → Places N) := do
  let l ← match s.lambdas with
    | .none => .error .typeError
    | .list l => .ok l
    | .array l => .ok l
  let fc ← mepConstraintForces s l
  return fun k => mepPotentialForces f s k + fc k

end Hotbit
