import Verif.Model.KPoints
import Mathlib.Analysis.SpecialFunctions.Pow.Real
import Mathlib.Analysis.SpecialFunctions.Log.Basic
import Mathlib.Analysis.SpecialFunctions.Trigonometric.Basic

/-!
# The atom program (`hotbit/parametrization/atom.py`)

Arrays of length `N` are functions on `ℕ`; values at `N` and beyond are not looked at.  Floats are exact reals.
Output, timers, plots and restart files are not modelled.
-/

namespace Hotbit

/-! ### Exchange and correlation -/

/-- `self.small`, /repo/hotbit/parametrization/atom.py line 828. -/
noncomputable def pwSmall : ℝ := 1 / 10 ^ 90

/-- The constants of /repo/hotbit/parametrization/atom.py lines 829-835. -/
noncomputable def pwA1 : ℝ := 0.21370
noncomputable def pwC0 : ℝ := 0.031091
noncomputable def pwC1 : ℝ := 0.046644
noncomputable def pwB1 : ℝ := 1 / 2 / pwC0 * Real.exp (-pwC1 / 2 / pwC0)
noncomputable def pwB2 : ℝ := 2 * pwC0 * pwB1 ^ 2
noncomputable def pwB3 : ℝ := 1.6382
noncomputable def pwB4 : ℝ := 0.49294

/-- `e_x(n,der)`, /repo/hotbit/parametrization/atom.py lines 857-862; `none` is Python's `None`. -/
noncomputable def pwEx (n : ℝ) : ℕ → Option ℝ
  | 0 => some (-3 / 4 * (3 * n / Real.pi) ^ (1 / 3 : ℝ))
  | 1 => some (-3 / (4 * Real.pi) * (3 * n / Real.pi) ^ (-2 / 3 : ℝ))
  | _ => none

/-- `e_corr(n,der)`, /repo/hotbit/parametrization/atom.py lines 864-879. -/
noncomputable def pwEcorr (n : ℝ) (der : ℕ) : Option ℝ :=
  let sqrtrs := (3 / (4 * Real.pi * n)) ^ (1 / 6 : ℝ)
  let rs := sqrtrs * sqrtrs
  let aux := 2 * pwC0 * (pwB1 * sqrtrs + pwB2 * rs + pwB3 * rs ^ (3 / 2 : ℝ) + pwB4 * rs ^ 2)
  let auxinv := 1 / aux
  match der with
  | 0 => some (-2 * pwC0 * (1 + pwA1 * rs) * Real.log (1 + auxinv))
  | 1 =>
    let auxNew := 2 * Real.sqrt Real.pi * n * rs
    let maux := -1 / (auxNew * auxNew)
    some ((-2 * pwC0 * pwA1 * Real.log (1 + auxinv)
      - 2 * pwC0 * (1 + pwA1 * rs) * (1 + auxinv)⁻¹ * (-auxinv * auxinv)
        * 2 * pwC0 * (pwB1 / (2 * sqrtrs) + pwB2 + 3 * pwB3 * sqrtrs / 2 + 2 * pwB4 * rs)) * maux)
  | _ => none

open Classical in
/-- `clipped_exc(n,der)` and `exc(n,der)` for a number, /repo/hotbit/parametrization/atom.py lines 837-855; for another
derivative the sum of two `None` raises `TypeError`. -/
noncomputable def pwExc (n : ℝ) (der : ℕ) : Except Exn ℝ :=
  if n < pwSmall then .ok 0
  else match pwEx n der, pwEcorr n der with
    | some a, some b => .ok (a + b)
    | _, _ => .error .typeError

/-- `vxc(n)`, /repo/hotbit/parametrization/atom.py lines 881-883. -/
noncomputable def pwVxc (n : ℝ) : Except Exn ℝ := do
  let a ← pwExc n 0
  let b ← pwExc n 1
  return a + n * b

/-! ### The radial grid -/

/-- The spacings, /repo/hotbit/parametrization/atom.py line 724. -/
def rgDr (r : ℕ → ℝ) (i : ℕ) : ℝ := r (i + 1) - r i

/-- The mid points, line 725. -/
noncomputable def rgMid (r : ℕ → ℝ) (i : ℕ) : ℝ := r i + rgDr r i / 2

/-- The volume elements before the normalisation, line 727. -/
noncomputable def rgShell (r : ℕ → ℝ) (i : ℕ) : ℝ := 4 * Real.pi * rgMid r i ^ 2 * rgDr r i

/-- The volume elements, lines 727-728, of a grid of `N` points. -/
noncomputable def rgVol (N : ℕ) (r : ℕ → ℝ) (i : ℕ) : ℝ :=
  rgShell r i * ((4 * Real.pi * r (N - 1) ^ 3 / 3) / ∑ j ∈ Finset.range (N - 1), rgShell r j)

/-- `integrate(f,use_dV)`, /repo/hotbit/parametrization/atom.py lines 755-763. -/
noncomputable def rgIntegrate (N : ℕ) (r f : ℕ → ℝ) (useDV : Bool) : ℝ :=
  if useDV then (∑ i ∈ Finset.range (N - 1), (f i + f (i + 1)) * rgVol N r i) * 0.5
  else (∑ i ∈ Finset.range (N - 1), (f i + f (i + 1)) * rgDr r i) * 0.5

/-- The grid of the atom, /repo/hotbit/parametrization/atom.py lines 133-138. -/
noncomputable def atomGrid (Z rmax : ℝ) (N : ℕ) (i : ℕ) : ℝ :=
  let rmin := 1 / 10 ^ 2 / Z
  rmin * Real.exp ((linspace 0 (Real.log (rmax / rmin)) N).getD i 0)

/-! ### Density and potentials -/

/-- `guess_density`, /repo/hotbit/parametrization/atom.py lines 268-274. -/
noncomputable def guessDensity (N : ℕ) (r : ℕ → ℝ) (Z nel : ℝ) (i : ℕ) : ℝ :=
  let r2 := 0.02 * Z
  let dens := fun i => Real.exp (-r i / (r2 / Real.log 2))
  dens i / rgIntegrate N r dens true * nel

open Classical in
/-- `calculate_density`, /repo/hotbit/parametrization/atom.py lines 208-221; `states` are the occupations and functions
`u` of the states. -/
noncomputable def calcDensity (N : ℕ) (r : ℕ → ℝ) (nel : ℝ) (states : List (ℝ × (ℕ → ℝ))) : Except Exn (ℕ → ℝ) :=
  let dens := fun i => (states.map fun s => s.1 * s.2 i ^ 2).sum
  if |rgIntegrate N r dens false - nel| > 1 / 10 ^ 10 then .error .runtimeError
  else .ok fun i => dens i / (4 * Real.pi * r i ^ 2)

/-- The charges of the shells, `n0*dV`, /repo/hotbit/parametrization/atom.py lines 236-237. -/
noncomputable def shellCharge (N : ℕ) (r : ℕ → ℝ) (nel : ℝ) (dens : ℕ → ℝ) (i : ℕ) : ℝ :=
  let n0 := fun i => 0.5 * (dens (i + 1) + dens i)
  n0 i * (nel / ∑ j ∈ Finset.range (N - 1), n0 j * rgVol N r j) * rgVol N r i

/-- `lo`, lines 240-242. -/
noncomputable def hartreeLo (N : ℕ) (r : ℕ → ℝ) (nel : ℝ) (dens : ℕ → ℝ) : ℕ → ℝ
  | 0 => 0
  | i + 1 => hartreeLo N r nel dens i + shellCharge N r nel dens i

/-- `hi`, lines 244-246: element `N-1-k`. -/
noncomputable def hartreeHiAux (N : ℕ) (r : ℕ → ℝ) (nel : ℝ) (dens : ℕ → ℝ) : ℕ → ℝ
  | 0 => 0
  | k + 1 => hartreeHiAux N r nel dens k
      + shellCharge N r nel dens (N - 1 - (k + 1)) / rgMid r (N - 1 - (k + 1))

/-- `calculate_Hartree_potential`, /repo/hotbit/parametrization/atom.py lines 224-251. -/
noncomputable def hartreePot (N : ℕ) (r : ℕ → ℝ) (nel : ℝ) (dens : ℕ → ℝ) (i : ℕ) : ℝ :=
  hartreeLo N r nel dens i / r i + hartreeHiAux N r nel dens (N - 1 - i)

/-- The modes of the confinement, /repo/hotbit/parametrization/atom.py lines 779-801. -/
inductive Confinement
  | none
  | quadratic (r0 : ℝ)
  | general (r0 s : ℝ)
  | woodsSaxon (r0 a W : ℝ)

/-- The value of the confining potential, lines 806-819. -/
noncomputable def Confinement.value (r : ℝ) : Confinement → ℝ
  | .none => 0
  | .quadratic r0 => (r / r0) ^ 2
  | .general r0 s => (r / r0) ^ s
  | .woodsSaxon r0 a W => W / (1 + Real.exp (-a * (r - r0)))

/-- `ConfinementPotential(mode,**kwargs)`, lines 779-801: the names of the modes and the keywords they need
(`KeyError` for a missing one). -/
def makeConfinement (mode : String) (kw : String → Option ℝ) : Except Exn Confinement :=
  let need (k : String) : Except Exn ℝ := match kw k with | some v => .ok v | none => .error .keyError
  if mode = "none" then .ok .none
  else if mode = "quadratic" then do
    let r0 ← need "r0"
    return .quadratic r0
  else if mode = "general" then do
    let r0 ← need "r0"
    let s ← need "s"
    return .general r0 s
  else if mode.toLower ∈ ["woods-saxon", "woods_saxon", "woodssaxon"] then do
    let r0 ← need "r0"
    let a ← need "a"
    let W ← need "W"
    return .woodsSaxon r0 a W
  else .error .notImplementedError

/-! ### Radial wave functions -/

/-- The coefficients of the differential equation on the logarithmic grid: `c0`, `c1`, `c2`,
/repo/hotbit/parametrization/atom.py lines 472-483. -/
noncomputable def radialCoeffs (scalarrel : Bool) (r veff dveff : ℕ → ℝ) (l : ℕ) (eps : ℝ) :
    (ℕ → ℝ) × (ℕ → ℝ) × (ℕ → ℝ) :=
  let c : ℝ := 137.036
  if scalarrel then
    let mass := fun i => 1 + 0.5 * (eps - veff i) / c ^ 2
    (fun i => -(l : ℝ) * (l + 1) - 2 * mass i * r i ^ 2 * (veff i - eps) - dveff i * r i / (2 * mass i * c ^ 2),
     fun i => r i * dveff i / (2 * mass i * c ^ 2) - 1, fun _ => 1)
  else
    (fun i => -2 * (0.5 * (l : ℝ) * (l + 1) + r i ^ 2 * (veff i - eps)), fun _ => -1, fun _ => 1)

/-- `fp`, `fm`, `f0`, /repo/hotbit/parametrization/atom.py lines 666-668. -/
noncomputable def fdPlus (dx : ℝ) (c2 c1 : ℕ → ℝ) (i : ℕ) : ℝ := c2 i / dx ^ 2 + 0.5 * c1 i / dx
noncomputable def fdMinus (dx : ℝ) (c2 c1 : ℕ → ℝ) (i : ℕ) : ℝ := c2 i / dx ^ 2 - 0.5 * c1 i / dx
noncomputable def fdMid (dx : ℝ) (c2 c0 : ℕ → ℝ) (i : ℕ) : ℝ := c0 i - 2 * c2 i / dx ^ 2

open Classical in
/-- One step of the inward integration, /repo/hotbit/parametrization/atom.py lines 677-678. -/
noncomputable def inStep (dx : ℝ) (c2 c1 c0 : ℕ → ℝ) (u : ℕ → ℝ) (i : ℕ) : ℕ → ℝ :=
  let u := Function.update u (i - 1)
    ((-fdPlus dx c2 c1 i * u (i + 1) - fdMid dx c2 c0 i * u i) / fdMinus dx c2 c1 i)
  if |u (i - 1)| > 10 ^ 10 then fun j => if i - 1 ≤ j then u j * (1 / 10 ^ 10) else u j else u

open Classical in
/-- The inward integration, lines 676-684, from `i` down to 1: the array and the turning point; without a turning
point the name `ctp` is unbound. -/
noncomputable def inLoop (N : ℕ) (dx : ℝ) (c2 c1 c0 : ℕ → ℝ) : ℕ → (ℕ → ℝ) → Except Exn ((ℕ → ℝ) × ℕ)
  | 0, _ => .error .unboundLocalError
  | i + 1, u =>
    let u := inStep dx c2 c1 c0 u (i + 1)
    if c0 (i + 1) > 0 then .ok (u, i + 1)
    else if (∀ j < N, c0 j < 0) ∧ i + 1 = N / 2 then .ok (u, N / 2)
    else inLoop N dx c2 c1 c0 i u

/-- The outward integration, lines 690-691: `k` steps. -/
noncomputable def outLoop (dx : ℝ) (c2 c1 c0 : ℕ → ℝ) : ℕ → (ℕ → ℝ) → (ℕ → ℝ)
  | 0, u => u
  | k + 1, u =>
    let u := outLoop dx c2 c1 c0 k u
    Function.update u (k + 2)
      ((-fdMid dx c2 c0 (k + 1) * u (k + 1) - fdMinus dx c2 c1 (k + 1) * u k) / fdPlus dx c2 c1 (k + 1))

/-- What `shoot` returns. -/
structure Shot where
  u : ℕ → ℝ
  nodes : ℕ
  A : ℝ
  ctp : ℕ

open Classical in
/-- `shoot`, /repo/hotbit/parametrization/atom.py lines 645-702, for arrays of at least two points. -/
noncomputable def shoot (N : ℕ) (dx : ℝ) (c2 c1 c0 u : ℕ → ℝ) : Except Exn Shot := do
  let u := Function.update u (N - 1) 1
  let u := Function.update u (N - 2) (u (N - 1) * fdMid dx c2 c0 (N - 1) / fdMinus dx c2 c1 (N - 1))
  let (u, ctp) ← inLoop N dx c2 c1 c0 (N - 2) u
  let utp := u ctp
  let utp1 := u (ctp + 1)
  let dright := (u (ctp + 1) - u (ctp - 1)) / (2 * dx)
  let u := outLoop dx c2 c1 c0 ctp u
  let dleft := (u (ctp + 1) - u (ctp - 1)) / (2 * dx)
  let scale := utp / u ctp
  let u := fun i => if i < ctp + 1 then u i * scale else u i
  let u := Function.update u (ctp + 1) utp1
  let dleft := dleft * scale
  let u := fun i => u i * (SignType.sign (u 1) : ℝ)
  return { u := u
           nodes := ((Finset.range (ctp - 1)).filter fun i => u i * u (i + 1) < 0).card
           A := (dright - dleft) * utp
           ctp := ctp }

/-- The direction of the last change of the energy. -/
inductive Dir
  | none | up | down
  deriving DecidableEq

open Classical in
/-- The loop for one state, /repo/hotbit/parametrization/atom.py lines 403-467; the first argument counts the turns
left after this one.  `coef` are the coefficients for an energy.  Returns energy and function. -/
noncomputable def eigenLoop (N : ℕ) (dx : ℝ) (r : ℕ → ℝ) (l nodes : ℕ) (epsmax : ℝ)
    (coef : ℝ → (ℕ → ℝ) × (ℕ → ℝ) × (ℕ → ℝ)) :
    ℕ → ℝ → ℝ → Dir → (ℕ → ℝ) → Except Exn (ℝ × (ℕ → ℝ))
  | left, eps, delta, dir, u =>
    let c := coef eps
    let u := Function.update (Function.update u 0 (r 0 ^ (l + 1))) 1 (r 1 ^ (l + 1))
    if ¬ (c.1 (N - 2) < 0 ∧ c.1 (N - 1) < 0) then .error .assertionError
    else match shoot N dx c.2.2 c.2.1 c.1 u with
      | .error e => .error e
      | .ok s =>
        let norm := rgIntegrate N r (fun i => s.u i ^ 2) false
        let v := fun i => s.u i / Real.sqrt norm
        let shift := -0.5 * s.A / (r s.ctp * norm)
        if s.nodes = nodes ∧ |shift| < 1 / 10 ^ 8 then
          if v 1 > 0 then .ok (eps, v) else .error .assertionError
        else match left with
          | 0 => .error .runtimeError
          | left + 1 =>
            let delta' := if (s.nodes > nodes ∧ dir = .up) ∨ (s.nodes < nodes ∧ dir = .down) then delta / 2 else delta
            let new := if s.nodes > nodes then eps - delta' else if s.nodes < nodes then eps + delta' else eps + shift
            let dir' := if s.nodes > nodes then Dir.down else if s.nodes < nodes then Dir.up
              else if shift > 0 then Dir.up else if shift < 0 then Dir.down else dir
            let new := if new > epsmax then 0.5 * (epsmax + eps) else new
            eigenLoop N dx r l nodes epsmax coef left new delta' dir' v

/-! ### Names of the states -/

/-- `angular_momenta`, line 896. -/
def angularMomenta : List Char := ['s', 'p', 'd', 'f', 'g', 'h', 'i', 'j', 'k', 'l']

/-- `'%i%s' % (n, angular_momenta[l])`, /repo/hotbit/parametrization/atom.py lines 901-902 (`IndexError` for a larger
`l`). -/
def orbitName (n l : ℕ) : Except Exn (List Char) :=
  match angularMomenta[l]? with
  | some c => .ok ((toString n).toList ++ [c])
  | none => .error .indexError

/-- `(int(nl[0]), angular_momenta.index(nl[1]))`, lines 905-908. -/
def orbitNumbers : List Char → Except Exn (ℕ × ℕ)
  | a :: b :: _ =>
    if b ∈ angularMomenta then
      if 48 ≤ a.toNat ∧ a.toNat ≤ 57 then .ok (a.toNat - 48, angularMomenta.idxOf b) else .error .valueError
    else .error .valueError
  | _ => .error .indexError

/-- `list_states`, /repo/hotbit/parametrization/atom.py lines 545-553; `occu` are the keys of the occupations. -/
def listStates (occu : List (List Char)) : Except Exn (List (ℕ × ℕ × List Char)) := do
  let all ← (List.range 10).mapM fun l => (List.range' 1 9).mapM fun n => do
    let nl ← orbitName n l
    return (n, l, nl)
  return all.flatten.filter fun s => s.2.2 ∈ occu

/-! ### Self-consistency -/

/-- What one turn of the loop gives: the new state, the change of the density and the largest change of an
energy. -/
structure KSTurn (σ : Type) where
  state : σ
  diff : ℝ
  dEnl : ℝ

open Classical in
/-- The self-consistency loop of `run`, /repo/hotbit/parametrization/atom.py lines 324-346: `turn` is what happens
before the test in iteration `it`, `tolN`, `tolE` the limits; `left` counts the turns left.  Returns the state and the
number of the last iteration. -/
noncomputable def ksLoop {σ : Type} (turn : σ → ℕ → Except Exn (KSTurn σ)) (tolN tolE : ℝ) :
    ℕ → ℕ → σ → Except Exn (σ × ℕ)
  | 0, _, _ => .error .attributeError
  | left + 1, it, s => do
    let t ← turn s it
    if t.diff < tolN ∧ t.dEnl < tolE ∧ it > 5 then return (t.state, it)
    else if left = 0 then throw .runtimeError
    else ksLoop turn tolN tolE left (it + 1) t.state

/-- `calculate_energies`: `total_energy`, /repo/hotbit/parametrization/atom.py lines 171-182; `states` are occupations and
energies. -/
noncomputable def atomTotalEnergy (N : ℕ) (r : ℕ → ℝ) (states : List (ℝ × ℝ)) (hartree vxc exc dens : ℕ → ℝ) : ℝ :=
  (states.map fun s => s.1 * s.2).sum - rgIntegrate N r (fun i => hartree i * dens i) true / 2
    - rgIntegrate N r (fun i => vxc i * dens i) true + rgIntegrate N r (fun i => exc i * dens i) true

end Hotbit
