import Verif.Model.Native
import Verif.Model.PairTerms
import Mathlib.Data.List.Sort
import Mathlib.Algebra.Order.Floor.Ring

/-!
# Fitting of repulsions (`hotbit/parametrization/fitting.py`)

Energies of structures (calculated with the given calculator) and their pair distances are arguments of the model. scipy's
`splrep`, `quadrature` and `fmin` are parameters. Each method returns the object afterwards, also after an exception.
-/

namespace Hotbit

/-- An entry of `deriv`: `[R,dvrep,weight,color,label]`, line 363. The derivative is `none` if it is an empty array. -/
structure FitPoint where
  R : ℝ
  dv : Option ℝ
  w : ℝ
  color : List Char
  label : Option (List Char)

/-- The attributes of `RepulsiveFitting`, /repo/hotbit/parametrization/fitting.py lines 68-90. `colors` is `none` after it was
replaced by the number 0; `v` is the fitted potential and its derivative. -/
structure Fitting where
  sym1 : String
  sym2 : String
  rcut : ℝ
  s : Option ℝ := none
  k : ℕ := 3
  tol : ℝ := 0.005
  rDimer : Option ℝ := none
  deriv : List FitPoint := []
  comments : List Char := []
  colors : Option (List (List Char)) :=
    some (["red", "green", "blue", "cyan", "yellow", "orange", "magenta", "pink", "black"].map String.toList)
  colori : ℕ := 0
  v : Option ((ℝ → ℝ) × (ℝ → ℝ)) := none

/-- `scale`, line 80. -/
noncomputable def fitScale : ℝ := 1.025

/-- `add_comment`, /repo/hotbit/parametrization/fitting.py lines 182-199. -/
def Fitting.addComment (F : Fitting) (s : Option (List Char)) : Fitting :=
  match s with
  | none => F
  | some s =>
    if s = [] then F
    else { F with comments := F.comments ++ (if F.comments.length = 0 then [] else ['|']) ++ s }

/-- `_get_color`, lines 336-344. -/
def Fitting.getColor (F : Fitting) (color : Option (List Char)) : Fitting × Except Exn (List Char) :=
  match color with
  | some c => (F, .ok c)
  | none =>
    let index := F.colori
    let F := { F with colori := F.colori + 1 }
    match F.colors with
    | none => (F, .error .typeError)
    | some cs =>
      if F.colori = cs.length then ({ F with colors := none }, .error .typeError)
      else match cs[index]? with
        | some c => (F, .ok c)
        | none => (F, .error .indexError)

/-- `append_point`, lines 349-366. -/
def Fitting.appendPoint (F : Fitting) (weight R : ℝ) (dv : Option ℝ) (comment label : Option (List Char)) (color : List Char) :
    Fitting :=
  let comment := if comment = none then label else comment
  let label := if label = none then comment else label
  let F := { F with deriv := F.deriv ++ [⟨R, dv, weight, color, label⟩] }
  if comment ≠ some "_nolegend_".toList then F.addComment comment else F

/-- What `_get_repulsion_distances` returns: the mean distance with the number of bonds, or 0.0 with the empty array. -/
inductive Bonds
  | nothing
  | bonds (R : ℝ) (N : ℕ)

/-- Largest and smallest entry of an array that is not empty. -/
noncomputable def listMax (l : List ℝ) : ℝ := l.tail.foldl max (l.headD 0)
noncomputable def listMin (l : List ℝ) : ℝ := l.tail.foldl min (l.headD 0)

open Classical in
/-- `_get_repulsion_distances`, lines 681-699; the argument is what `calc.rep.get_repulsion_distances` returned. -/
noncomputable def Fitting.bonds (F : Fitting) (distances : List ℝ) : Except Exn Bonds :=
  if distances.length = 0 then .ok .nothing
  else if listMax distances - listMin distances > F.tol then .error .assertionError
  else .ok (.bonds (distances.sum / distances.length) distances.length)

/-- `append_scalable_system`, lines 369-407: `energy c` is the energy of the structure whose lengths are multiplied by `c`,
`fmt w` is the text `'%.1f' % w`. If there are no bonds the number of bonds is the empty array: so becomes the derivative, and the
last message cannot be printed. -/
noncomputable def Fitting.appendScalable (F : Fitting) (fmt : ℝ → List Char) (weight : ℝ) (energy : ℝ → ℝ) (distances : List ℝ)
    (comment label : Option (List Char)) (color : Option (List Char)) : Fitting × Except Exn Unit :=
  let comment := if comment = none then label else comment
  let label := if label = none then comment else label
  let e1 := energy 1
  match F.bonds distances with
  | .error e => (F, .error e)
  | .ok b =>
    let e2 := energy fitScale
    match F.getColor color with
    | (F, .error e) => (F, .error e)
    | (F, .ok color) =>
      match comment with
      | none => (F, .error .typeError)
      | some c =>
        let c := c ++ ";w=".toList ++ fmt weight
        match b with
        | .nothing => (F.appendPoint weight 0 none (some c) label color, .error .typeError)
        | .bonds R N =>
          let dEwr := (e2 - e1) / (fitScale * R - R)
          (F.appendPoint weight R (some (-dEwr / N)) (some c) label color, .ok ())

/-- The dimer of `append_dimer`, line 426 (without the shift to the middle of the cell), in Bohr. -/
noncomputable def dimerGeom (sym1 sym2 : String) (bohr R : ℝ) : Geom :=
  { N := 2
    sym := fun i => if i = 0 then sym1 else sym2
    ntuples := [0]
    rot := fun _ => 1
    pos := fun _ i => if i = 0 then 0 else ![R / bohr, 0, 0] }

/-- `append_dimer`, lines 410-429; the default of `label` is `'dimer'`. -/
noncomputable def Fitting.appendDimer (F : Fitting) (fmt : ℝ → List Char) (bohr weight : ℝ) (energy : ℝ → ℝ) (R : ℝ)
    (comment : Option (List Char) := none) (label : Option (List Char) := some "dimer".toList)
    (color : Option (List Char) := none) : Fitting × Except Exn Unit :=
  let comment := if comment = none then label else comment
  let F := { F with rDimer := some R }
  match F.getColor color with
  | (F, .error e) => (F, .error e)
  | (F, .ok color) =>
    F.appendScalable fmt weight energy (repDistances (dimerGeom F.sym1 F.sym2 bohr R) bohr F.sym1 F.sym2 F.rcut)
      comment label (some color)

/-- A frame of a trajectory: its energy, the energy without repulsion and the pair distances. -/
structure Frame where
  edft : ℝ
  ewr : ℝ
  distances : List ℝ

/-- `append_equilibrium_trajectory`, lines 454-465: the frames get the energies of `NullCalculator`, /repo/box/md.py lines 24-25. -/
def Frame.flat (f : Frame) : Frame := { f with edft := 0 }

open Classical in
/-- The frames that are used, lines 559-567: distance, energies, number of bonds. -/
noncomputable def Fitting.curveData (F : Fitting) (traj : List Frame) : Except Exn (List (ℝ × ℝ × ℝ × ℕ)) :=
  traj.foldlM (fun l f => do
    match ← F.bonds f.distances with
    | .nothing => return l
    | .bonds r n => if r < F.rcut then return l ++ [(r, f.edft, f.ewr, n)] else return l) []

/-- `append_energy_curve`, lines 521-593, for a list of frames. `spl k pts` is the derivative of the interpolating spline of order
`k` (`TypeError` for orders below one). -/
noncomputable def Fitting.appendCurve (F : Fitting) (fmt : ℝ → List Char) (spl : ℕ → List (ℝ × ℝ) → Except Exn (ℝ → ℝ))
    (weight : ℝ) (traj : List Frame) (comment label : Option (List Char)) (color : Option (List Char)) :
    Fitting × Except Exn Unit :=
  let comment := if comment = none then label else comment
  let label := if label = none then comment else label
  if traj.length < 3 then (F, .error .assertionError)
  else match F.curveData traj with
  | .error e => (F, .error e)
  | .ok [] => (F, .error .indexError)
  | .ok (d :: ds) =>
    if (d :: ds).any fun q => q.2.2.2 ≠ d.2.2.2 then (F, .error .runtimeError)
    else
      let l := (d :: ds).mergeSort fun a b => decide (a.1 ≤ b.1)
      let k := min (l.length - 2) 3
      if k < 1 then (F, .error .typeError)
      else match spl k (l.map fun q => (q.1, (q.2.1 - q.2.2.1) / q.2.2.2)) with
      | .error e => (F, .error e)
      | .ok dv =>
        match F.getColor color with
        | (F, .error e) => (F, .error e)
        | (F, .ok color) =>
          match comment with
          | none => (F, .error .typeError)
          | some c =>
            (l.zipIdx.foldl (fun F q =>
              if q.2 = 0 then
                F.appendPoint (weight / √l.length) q.1.1 (some (dv q.1.1)) (some (c ++ ";w=".toList ++ fmt weight)) label color
              else F.appendPoint (weight / √l.length) q.1.1 (some (dv q.1.1)) none (some "_nolegend_".toList) color) F, .ok ())

/-- `append_energy_slope`, line 497. -/
def Fitting.appendSlope (F : Fitting) : Fitting × Except Exn Unit := (F, .error .notImplementedError)

/-- `dvrep`, lines 641-643. -/
def Fitting.clusterDv (F : Fitting) (p : ℝ × ℝ) (r : ℝ) : ℝ := p.1 + p.2 * (r - F.rcut)

open Classical in
/-- The repulsive forces of `to_minimize`, lines 652-660. -/
noncomputable def Fitting.clusterForce (F : Fitting) (pos : List Vec) (p : ℝ × ℝ) (i : ℕ) : Vec :=
  (List.range pos.length).foldl (fun f j =>
    if i = j then f
    else
      let rij := pos.getD j 0 - pos.getD i 0
      let dij := norm3 rij
      if dij > F.rcut then f else f + (F.clusterDv p dij / dij) • rij) 0

/-- `to_minimize`, lines 646-662. -/
noncomputable def Fitting.clusterResidual (F : Fitting) (pos : List Vec) (fdft fwr : ℕ → Vec) (p : ℝ × ℝ) : ℝ :=
  ((List.range pos.length).map fun i => norm3 (fdft i - (fwr i + F.clusterForce pos p i)) ^ 2).sum

/-- `np.linspace(a,b,n)` for `n ≥ 2`. -/
noncomputable def fitLinspace (a b : ℝ) (n : ℕ) : List ℝ := (List.range n).map fun i : ℕ => a + i * ((b - a) / (n - 1 : ℕ))

/-- `append_homogeneous_cluster`, lines 596-678; `fmin f` is what scipy's minimiser returns for `f`, `fdft` is zero if there are no
forces. -/
noncomputable def Fitting.appendCluster (F : Fitting) (fmt : ℝ → List Char) (fmin : (ℝ × ℝ → ℝ) → ℝ × ℝ) (weight : ℝ)
    (pos : List Vec) (fdft fwr : ℕ → Vec) (distances : List ℝ) (comment label : List Char) (color : Option (List Char)) :
    Fitting × Except Exn Unit :=
  if distances = [] then (F, .error .valueError)
  else
    let p := fmin (F.clusterResidual pos fdft fwr)
    match F.getColor color with
    | (F, .error e) => (F, .error e)
    | (F, .ok color) =>
      ((fitLinspace (listMin distances) (listMax distances) 6).zipIdx.foldl (fun F q =>
        if q.2 = 0 then
          F.appendPoint (weight / √6) q.1 (some (F.clusterDv p q.1)) (some (comment ++ ";w=".toList ++ fmt weight)) (some label) color
        else F.appendPoint (weight / √6) q.1 (some (F.clusterDv p q.1)) none (some "_nolegend_".toList) color) F, .ok ())

/-! ### The fit -/

/-- `int(x)`: towards zero. -/
noncomputable def truncZ (x : ℝ) : ℤ := if x < 0 then ⌈x⌉ else ⌊x⌋

/-- `pseudo_x`, line 255. -/
noncomputable def pseudoX (x : ℝ) : ℤ := truncZ (x * 10 ^ 4)

/-- A group of points: mean distance, weighted mean of the values, sum of the weights, lines 267-270. -/
noncomputable def groupPoint (g : List (ℝ × ℝ × ℝ)) : ℝ × ℝ × ℝ :=
  ((g.map fun q => q.1).sum / g.length, (g.map fun q => q.2.1 * q.2.2).sum / (g.map fun q => q.2.2).sum, (g.map fun q => q.2.2).sum)

/-- `_group_closeby_points`, lines 246-271: neighbours with the same `pseudo_x` are in one group (`ValueError` without points). -/
noncomputable def groupPoints (l : List (ℝ × ℝ × ℝ)) : Except Exn (List (ℝ × ℝ × ℝ)) :=
  if l = [] then .error .valueError
  else .ok ((l.splitBy fun a b => pseudoX a.1 == pseudoX b.1).map groupPoint)

/-- scipy's functions used in `fit`. `splrep` gets the points with weights, the smoothing and the order, and returns the spline;
`quad` is `quadrature`, `interp` the interpolating cubic spline. -/
structure Scipy where
  splrep : List (ℝ × ℝ × ℝ) → ℝ → ℕ → Except Exn (ℝ → ℝ)
  quad : (ℝ → ℝ) → ℝ → ℝ → ℝ
  interp : List (ℝ × ℝ) → ℝ → ℝ

/-- The checks of `splrep`: the order is between 1 and 5, and there are more points than the order. -/
def Scipy.spline (S : Scipy) (l : List (ℝ × ℝ × ℝ)) (s : ℝ) (k : ℕ) : Except Exn (ℝ → ℝ) :=
  if ¬ (1 ≤ k ∧ k ≤ 5) then .error .typeError
  else if l.length ≤ k then .error .typeError
  else S.splrep l s k

/-- The values at the grid points in `_integrate_vrep`, lines 314-318: the distances `r_g` come one after the other. -/
noncomputable def integrateSteps (quad : (ℝ → ℝ) → ℝ → ℝ → ℝ) (dv : ℝ → ℝ) : ℝ → ℝ → List ℝ → List (ℝ × ℝ)
  | r, v, [] => [(r, v)]
  | r, v, r' :: rs => (r, v) :: integrateSteps quad dv r' (v + quad dv r r') rs

/-- The points of `_integrate_vrep` in ascending order, lines 306-320. -/
noncomputable def integratePoints (quad : (ℝ → ℝ) → ℝ → ℝ → ℝ) (dv : ℝ → ℝ) (rcut : ℝ) (N : ℕ) : List (ℝ × ℝ) :=
  match fitLinspace rcut 0 N with
  | [] => []
  | r :: rs => (integrateSteps quad dv r 0 rs).reverse

open Classical in
/-- `_integrate_vrep`, lines 306-320, with the ranges of `SplineFunction.__call__`, /repo/box/interpolation.py lines 300-304. -/
noncomputable def Scipy.integrateVrep (S : Scipy) (dv : ℝ → ℝ) (rcut : ℝ) (N : ℕ) : ℝ → ℝ := fun r =>
  if r < 0 ∨ r > rcut then 0 else S.interp (integratePoints S.quad dv rcut N) r

/-- All derivatives as numbers; `ValueError` if one of them is an empty array. -/
def fitData (l : List FitPoint) : Except Exn (List (ℝ × ℝ × ℝ)) :=
  l.mapM fun p => match p.dv with
    | some d => .ok (p.R, d, p.w)
    | none => .error .valueError

open Classical in
/-- The points given to the spline, lines 209-222. -/
noncomputable def fitPoints (rcut : ℝ) (deriv : List FitPoint) : Except Exn (List (ℝ × ℝ × ℝ)) := do
  let data ← fitData deriv
  let l ← groupPoints (data.mergeSort fun a b => decide (a.1 ≤ b.1))
  let l := l.filter fun q => q.1 < rcut
  if l = [] then throw .valueError
  return l ++ [(rcut, 0, 1E3 * listMax (l.map fun q => q.2.2))]

/-- `fit`, /repo/hotbit/parametrization/fitting.py lines 202-243. -/
noncomputable def Fitting.fit (F : Fitting) (S : Scipy) : Fitting × Except Exn Unit :=
  let F := { F with k := min F.deriv.length F.k }
  match fitPoints F.rcut F.deriv with
  | .error e => (F, .error e)
  | .ok l =>
    let s := F.s.getD (l.length - √(2 * l.length))
    let F := { F with s := some s }
    match S.spline l s F.k with
    | .error e => (F, .error e)
    | .ok dv => ({ F with v := some (S.integrateVrep dv F.rcut 100, dv) }, .ok ())

/-- `__call__`, lines 93-107, with `potential`, lines 236-242. -/
def Fitting.call (F : Fitting) (r : ℝ) (der : ℕ := 0) : Except Exn ℝ :=
  match F.v with
  | none => .error .assertionError
  | some (v, dv) => if der = 0 then .ok (v r) else if der = 1 then .ok (dv r) else .error .notImplementedError

/-- `get_range`, lines 109-114 (`ValueError` without points). -/
noncomputable def Fitting.getRange (F : Fitting) : Except Exn (ℝ × ℝ) :=
  if F.deriv = [] then .error .valueError
  else .ok (listMin (F.deriv.map fun p => p.R), listMax (F.deriv.map fun p => p.R))

/-! ### Writing -/

/-- `write_par`, lines 274-303: the lines of the file afterwards. `time` is `asctime()`, `fmt4`, `fmt3` format numbers as `%0.4f` and
`%3i`, `shw` is `str` of a number (`TypeError` where the smoothing is not set, `AssertionError` where there is no fit). The input
file ends with a line end. -/
noncomputable def Fitting.writePar (F : Fitting) (bohr hartree : ℝ) (time : List Char) (fmt4 : ℝ → List Char) (fmt3 : ℕ → List Char)
    (shw : ℝ → List Char) (input : List (List Char)) : List (List Char) × Except Exn Unit :=
  let file := input ++ ["repulsion_comment=\n".toList]
  match F.s with
  | none => (file, .error .typeError)
  | some s =>
    let file := file ++ [time ++ ['\n'],
      "parameters r_cut = ".toList ++ fmt4 F.rcut ++ " Ang, s = ".toList ++ fmt4 s ++ ", k = ".toList ++ fmt3 F.k ++ ['\n']]
    let file := if F.comments.length > 0 then file ++ (splitChar '\n' F.comments).map (fun l => l ++ ['\n']) else file
    let file := file ++ [['\n'], ['\n'], "repulsion=\n".toList]
    match F.v with
    | none => (file, .error .assertionError)
    | some (v, _) =>
      (file ++ (fitLinspace 0.1 F.rcut 100).map fun r => shw (r / bohr) ++ [' '] ++ shw (v r / hartree) ++ ['\n'], .ok ())

/-- `write_fitting_data`, lines 702-713: without pickling, text is printed to a binary file. -/
def Fitting.writeData (F : Fitting) (pickle : Bool) : Except Exn (List FitPoint × List Char) :=
  if pickle then .ok (F.deriv, F.comments) else .error .typeError

/-- `load_fitting_data`, lines 716-722. -/
def Fitting.loadData (F : Fitting) (d : List FitPoint × List Char) : Fitting := { F with deriv := d.1, comments := d.2 }

end Hotbit
