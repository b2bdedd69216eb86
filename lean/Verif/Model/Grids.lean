import Verif.Model.Wavefunctions
import Verif.Model.KPoints
import Verif.Model.Occupations

/-!
# Orbitals and densities on a grid: `hotbit/grids.py`

Three-dimensional arrays are functions of three integer indices together with a shape.  Timers are left out.
-/

namespace Hotbit

open Real

open Classical in
/-- `Elements.get_cube()`, `elements.py:547-553`. -/
noncomputable def getCube (bohr : ℝ) (cell : Mat) : Except Exn (Fin 3 → ℝ) :=
  if |cell 0 1| > 1e-10 ∨ |cell 0 2| > 1e-10 ∨ |cell 1 2| > 1e-10 then .error .assertionError
  else .ok fun i => cell i i / bohr

/-- The numbers a `Grids` object holds. -/
structure GridData where
  /-- edges of the cell in Bohr -/
  L : Fin 3 → ℝ
  /-- number of points on each edge -/
  N : Fin 3 → ℤ
  /-- spacing in Bohr -/
  dr : Fin 3 → ℝ
  /-- cutoff of orbitals in Bohr -/
  cutoff : ℝ
  /-- number of points of the partial grid on each edge -/
  pN : Fin 3 → ℤ

/-- `Grids.__init__`, `grids.py:10-50`: the numbers of points use the argument `h` as given.  Division by `N-1 = 0`, where numpy
gives infinity, is excluded by the theorems. -/
noncomputable def gridInit (bohr : ℝ) (cell : Mat) (h cutoff : ℝ) : Except Exn GridData := do
  let cut := cutoff / bohr
  let L ← getCube bohr cell
  let N : Fin 3 → ℤ := fun i => pyRound (L i / h)
  let dr : Fin 3 → ℝ := fun i => L i / ((N i : ℝ) - 1)
  let pN : Fin 3 → ℤ := fun i =>
    let n := pyRound (cut * 2 / dr i)
    if n % 2 = 0 then n + 1 else n
  .ok { L := L, N := N, dr := dr, cutoff := cut, pN := pN }

/-- The points of one edge, `np.linspace(0,L[i],N[i])`, `grids.py:33-35`. -/
noncomputable def GridData.axis (g : GridData) (i : Fin 3) : List ℝ := linspace 0 (g.L i) (g.N i).toNat

/-- One coordinate of the partial grid, `grids.py:49,51-54`: `p*dr - pL/2` with `pL = (pN-1)*dr`. -/
noncomputable def GridData.pgrid (g : GridData) (i : Fin 3) (p : ℤ) : ℝ :=
  p * g.dr i - ((g.pN i : ℝ) - 1) * g.dr i / 2

/-- The angular part as a number; the names of orbitals are those of `angular`, so no other outcome occurs (`c102_angular`). -/
noncomputable def angularVal (r : Vec) (a : Fin 9) : ℝ :=
  match angular r (.idx a) with
  | .ok (some x) => x
  | _ => 0

open Classical in
/-- `_atomic_orbital_to_partial_grid`, `grids.py:72-111`, one element of the array: `R` is the radial function, `rrange` its range. -/
noncomputable def GridData.atomic (g : GridData) (R : ℝ → ℝ) (rrange : ℝ) (a : Fin 9) (i j k : ℤ) : ℝ :=
  let r : Vec := ![g.pgrid 0 i, g.pgrid 1 j, g.pgrid 2 k]
  let d := √(r 0 ^ 2 + r 1 ^ 2 + r 2 ^ 2)
  if d > g.cutoff ∨ d > rrange then 0
  else
    let rnl := R d
    if |rnl| > 1e-7 then rnl * angularVal r a else 0

/-- An array of a given shape. -/
structure Arr3 where
  shape : Fin 3 → ℤ
  val : ℤ → ℤ → ℤ → ℂ

open Classical in
/-- `ndarray.clip(-clip, clip)` of a number, `clip = 100.0` (`grids.py:25`). -/
noncomputable def clip100 (x : ℝ) : ℝ := if x < -100 then -100 else if x > 100 then 100 else x

/-- The complex number clipped in both parts, `grids.py:63`. -/
noncomputable def clipC (z : ℂ) : ℂ := ⟨clip100 z.re, clip100 z.im⟩

open Classical in
/-- `_return_array(a, pad)`, `grids.py:61-69`. -/
noncomputable def returnArray (a : Arr3) (pad : Bool) : Arr3 :=
  let c : ℤ → ℤ → ℤ → ℂ := fun i j k => clipC (a.val i j k)
  let isReal : Prop := ∀ i j k, 0 ≤ i ∧ i < a.shape 0 → 0 ≤ j ∧ j < a.shape 1 → 0 ≤ k ∧ k < a.shape 2 →
    |(c i j k).im| < 1e-10
  let v : ℤ → ℤ → ℤ → ℂ := if isReal then fun i j k => ((c i j k).re : ℂ) else c
  if pad then { shape := a.shape, val := v } else { shape := fun i => a.shape i - 1, val := v }

/-- The slices of the grid and of the partial grid on one axis, `grids.py:160-171`: first and last index in the grid, first index
in the partial grid. The quotient `(pN-1)/2` is exact because `pN` is odd. -/
def placeAxis (N pN c : ℤ) : ℤ × ℤ × ℤ × ℤ :=
  let lo := c - (pN - 1) / 2
  let hi := c + (pN - 1) / 2
  let a1 := max 0 lo
  let a2 := min (N - 1) hi
  let b1 := max 0 (-lo)
  (a1, a2, b1, b1 + (a2 - a1))

/-- An image of the atom: position and phase. -/
structure GridImage where
  pos : Vec
  phase : ℂ

open Classical in
/-- The rough check, `grids.py:149-155`. -/
noncomputable def GridData.inReach (g : GridData) (r : Vec) : Prop :=
  ∀ i : Fin 3, ¬ (r i < -g.cutoff ∨ g.L i + g.cutoff < r i)

open Classical in
/-- One pass of the loop over images, `grids.py:147-173`. The array is real, so that the imaginary part of what is stored is
dropped by numpy; slices of different length raise a `ValueError`. -/
noncomputable def GridData.addImage (g : GridData) (pwf : ℤ → ℤ → ℤ → ℝ) (wf : ℤ → ℤ → ℤ → ℝ) (im : GridImage) :
    Except Exn (ℤ → ℤ → ℤ → ℝ) :=
  if ¬ g.inReach im.pos then .ok wf
  else
    let s : Fin 3 → ℤ × ℤ × ℤ × ℤ := fun i => placeAxis (g.N i) (g.pN i) (pyRound (im.pos i / g.dr i))
    if ∃ i, (s i).2.2.1 > (s i).2.2.2 ∨ (s i).1 > (s i).2.1 then .ok wf
    else if ∃ i, min ((s i).2.1 + 1) (g.N i) - (s i).1 ≠ min ((s i).2.2.2 + 1) (g.pN i) - (s i).2.2.1 then .error .valueError
    else
      .ok fun i j k =>
        if (s 0).1 ≤ i ∧ i ≤ (s 0).2.1 ∧ (s 1).1 ≤ j ∧ j ≤ (s 1).2.1 ∧ (s 2).1 ≤ k ∧ k ≤ (s 2).2.1 then
          ((wf i j k : ℂ) + im.phase *
            pwf ((s 0).2.2.1 + (i - (s 0).1)) ((s 1).2.2.1 + (j - (s 1).1)) ((s 2).2.2.1 + (k - (s 2).1))).re
        else wf i j k

/-- `get_grid_basis_orbital`, `grids.py:131-174`; `images` holds the position of the atom's image and the phase at the chosen
k-point for every symmetry operation. -/
noncomputable def GridData.basisOrbital (g : GridData) (pwf : ℤ → ℤ → ℤ → ℝ) (images : List GridImage) (pad : Bool) :
    Except Exn Arr3 := do
  let wf ← images.foldlM (g.addImage pwf) (fun _ _ _ => 0)
  .ok (returnArray { shape := g.N, val := fun i j k => (wf i j k : ℂ) } pad)

open Classical in
/-- `get_grid_wf`, `grids.py:178-199`: `orbs` holds, for each basis orbital, its coefficient in the state and its array. -/
noncomputable def gridWf (N : Fin 3 → ℤ) (orbs : List (ℂ × Arr3)) (pad : Bool) : Arr3 :=
  let v := orbs.foldl (fun (acc : ℤ → ℤ → ℤ → ℂ) (o : ℂ × Arr3) =>
    if ‖o.1‖ ^ 2 > 1e-13 then fun i j k => acc i j k + o.1 * o.2.val i j k else acc) (fun _ _ _ => 0)
  returnArray { shape := N, val := v } pad

/-- `get_grid_wf_density`, `grids.py:202-216`, from the padded wave function. -/
noncomputable def gridWfDensity (wf : Arr3) (pad : Bool) : Arr3 :=
  returnArray { shape := wf.shape, val := fun i j k => wf.val i j k * (starRingEnd ℂ) (wf.val i j k) } pad

open Classical in
/-- The bands of one k-point in `get_grid_density`, `grids.py:233-235`: the loop is left at the first occupation below 1e-6. -/
noncomputable def densityBands (wk : ℝ) : List (ℝ × Arr3) → (ℤ → ℤ → ℤ → ℂ) → (ℤ → ℤ → ℤ → ℂ)
  | [], rho => rho
  | (f, d) :: rest, rho =>
    if f < 1e-6 then rho else densityBands wk rest (fun i j k => rho i j k + wk * d.val i j k)

/-- `get_grid_density`, `grids.py:219-236`: for each k-point its weight and, for each band, occupation and state density. -/
noncomputable def gridDensity (N : Fin 3 → ℤ) (ks : List (ℝ × List (ℝ × Arr3))) (pad : Bool) : Arr3 :=
  let rho := ks.foldl (fun rho k => densityBands k.1 k.2 rho) (fun _ _ _ => 0)
  returnArray { shape := N, val := rho } pad

/-- A band in `get_grid_LDOS`: energy, occupation, density of the state. -/
structure LdosBand where
  e : ℝ
  f : ℝ
  d : Arr3

open Classical in
/-- The weight of a band, `grids.py:260-272`, energies in Hartree: `width`, `mu` are those of the occupations. -/
noncomputable def ldosWeight (width mu : ℝ) (bias : Option ℝ) (window : Option (ℝ × ℝ)) (e f : ℝ) : ℝ :=
  match window with
  | some w => if w.1 ≤ e ∧ e ≤ w.2 then 1 else 0
  | none =>
    let b := bias.getD 0
    if b < 0 then f / 2 * (1 - fermiFunction width mu (e - b))
    else if b > 0 then (1 - f / 2) * fermiFunction width mu (e - b)
    else 0

/-- The window in Hartree, `grids.py:251-254`: one given together with a bias is not converted. -/
noncomputable def ldosWindow (hartree : ℝ) (bias : Option ℝ) (window : Option (ℝ × ℝ)) : Option (ℝ × ℝ) :=
  match bias with
  | some _ => window
  | none => window.map fun w => (w.1 / hartree, w.2 / hartree)

open Classical in
/-- `get_grid_LDOS`, `grids.py:239-277`. -/
noncomputable def gridLdos (hartree : ℝ) (N : Fin 3 → ℤ) (width mu : ℝ) (bias : Option ℝ) (window : Option (ℝ × ℝ))
    (ks : List (ℝ × List LdosBand)) (pad : Bool) : Except Exn Arr3 :=
  if bias = none ∧ window = none then .error .assertionError
  else
    let bias' := bias.map (· / hartree)
    let window' := ldosWindow hartree bias window
    let rho := ks.foldl (fun rho k =>
      k.2.foldl (fun (rho : ℤ → ℤ → ℤ → ℂ) (b : LdosBand) =>
        let weight := k.1 * ldosWeight width mu bias' window' b.e b.f * 2
        if weight < 1e-4 then rho else fun i j l => rho i j l + weight * b.d.val i j l) rho) (fun _ _ _ => (0 : ℂ))
    .ok (returnArray { shape := N, val := rho } pad)

end Hotbit
