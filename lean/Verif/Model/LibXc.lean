import Verif.Model.AtomSolver

/-!
# Exchange-correlation functionals from libxc

Models `hotbit/parametrization/pylibxc_interface.py`, `pylibxc_helper.py` and `pylibxc_functionals.py`, and
their use in `calculate_energies` (`hotbit/parametrization/atom.py:166-182`).

The module `pylibxc` is a parameter.  Arrays are functions of an index; the length and the extra axis of
pylibxc's results (`[0]`) are left out.  A functional of the density alone ignores `sigma`, which is
passed as `0` where the code does not pass it.  Names are ASCII.
-/

namespace Hotbit

/-- `xc2libxc`, `pylibxc_functionals.py:6-52`; all keys are lower case, so that the loop in lines 54-55
changes nothing. -/
def xcNames : List (String × String) :=
  [("gl", "LDA_X,LDA_C_GL"), ("hl", "LDA_X,LDA_C_HL"), ("pw92", "LDA_X,LDA_C_PW"), ("pz", "LDA_X,LDA_C_PZ"),
   ("svwn", "LDA_X,LDA_C_VWN"), ("teter93", "LDA_XC_TETER93"), ("zlp", "LDA_XC_ZLP"),
   ("b96pbe", "GGA_X_B86_MGC,GGA_C_PBE"), ("beefvdw", "GGA_XC_BEEFVDW"), ("blyp", "GGA_X_B88,GGA_C_LYP"),
   ("bp86", "GGA_X_B88,GGA_C_P86"), ("gam", "GGA_X_GAM,GGA_C_GAM"), ("pbe", "GGA_X_PBE,GGA_C_PBE"),
   ("pbeint", "GGA_X_PBEINT,GGA_C_PBEINT"), ("pw86pbe", "GGA_X_PW86,GGA_C_PBE"),
   ("pw91", "GGA_X_PW91,GGA_C_PW91"), ("revpbe", "GGA_X_PBE_R,GGA_C_PBE"), ("rpbe", "GGA_X_RPBE,GGA_C_PBE"),
   ("sogga", "GGA_X_SOGGA,GGA_C_PBE"), ("sogga11", "GGA_X_SOGGA11,GGA_C_SOGGA11"), ("vv10", "GGA_XC_VV10"),
   ("xlyp", "GGA_XC_XLYP")]

/-- `translate_xc`, `pylibxc_helper.py:29-33`; `none` stands for anything that is not a string. -/
def translateXc (xc : Option String) : Except Exn (List Char) :=
  match xc with
  | none => .error .valueError
  | some s =>
    match xcNames.find? fun p => p.1.toList = s.toList.map Char.toLower with
    | some p => .ok p.2.toList
    | none => .error .valueError

/-- The module `pylibxc`: `new` makes a functional and tells whether its family is one of `_ggaIDs`;
`zk` is the energy per particle, `vrho` and `vsigma` are the derivatives, as functions of density and
`sigma`. -/
structure PyLibXc where
  new : List Char → Except Exn Bool
  zk : List Char → ℝ → ℝ → ℝ
  vrho : List Char → ℝ → ℝ → ℝ
  vsigma : List Char → ℝ → ℝ → ℝ

/-- A `libXCFunctional`: the one or two functionals, each with its flag for GGA. -/
inductive XcFunctional
  | single (name : List Char) (gga : Bool)
  | pair (x : List Char) (xGGA : Bool) (c : List Char) (cGGA : Bool)

/-- `_anyGGA`, `pylibxc_interface.py:46`. -/
def XcFunctional.anyGGA : XcFunctional → Bool
  | .single _ g => g
  | .pair _ g _ g' => g || g'

/-- `__init__`, `pylibxc_interface.py:30-46`; unpacking anything but two names raises `ValueError`. -/
def xcMake (L : PyLibXc) (name : Option String) : Except Exn XcFunctional := do
  let xc ← translateXc name
  if ',' ∈ xc then
    match xc.splitOn ',' with
    | [x, c] => do
      let gx ← L.new x
      let gc ← L.new c
      return .pair x gx c gc
    | _ => .error .valueError
  else do
    let g ← L.new xc
    return .single xc g

/-- The grid as the functional sees it: the points and `derivative` (`atom.py:767-774`). -/
structure XcGrid (ι : Type) where
  r : ι → ℝ
  D : (ι → ℝ) → ι → ℝ

/-- `self.mini`, `pylibxc_interface.py:31`. -/
noncomputable def xcMini : ℝ := 1 / 10 ^ 90

open Classical in
/-- `drho_dr`, `pylibxc_interface.py:57-60,79-83`: not needed without GGA, `ValueError` without grid. -/
noncomputable def xcGrad {ι : Type} (F : XcFunctional) (g : Option (XcGrid ι)) (rho : ι → ℝ) :
    Except Exn (ι → ℝ) :=
  if F.anyGGA then
    match g with
    | none => .error .valueError
    | some g => .ok fun i => if rho i < xcMini then 0 else g.D rho i
  else .ok fun _ => 0

/-- `exc(rho)`, `pylibxc_interface.py:54-73`; with separate functionals the name `e_x` of line 68 is
defined nowhere. -/
noncomputable def xcExc {ι : Type} (L : PyLibXc) (F : XcFunctional) (g : Option (XcGrid ι)) (rho : ι → ℝ) :
    Except Exn (ι → ℝ) := do
  let grad ← xcGrad F g rho
  match F with
  | .pair _ _ _ _ => .error .nameError
  | .single name _ => .ok fun i => L.zk name (rho i) (grad i * grad i)

/-- `v_gga(de_dsigma,grad)`, `pylibxc_interface.py:109-129`. -/
noncomputable def xcGga {ι : Type} (g : XcGrid ι) (deDsigma grad : ι → ℝ) : ι → ℝ :=
  let deDgrad : ι → ℝ := fun i => 2 * deDsigma i * grad i
  fun i => 2 * deDgrad i / max (g.r i) xcMini + g.D deDgrad i

/-- The potential of one functional with its gradient part, `pylibxc_interface.py:87-90`. -/
noncomputable def xcPart {ι : Type} (L : PyLibXc) (name : List Char) (gga : Bool) (g : Option (XcGrid ι))
    (rho grad : ι → ℝ) : ι → ℝ := fun i =>
  L.vrho name (rho i) (grad i * grad i) -
    match gga, g with
    | true, some g => xcGga g (fun j => L.vsigma name (rho j) (grad j * grad j)) grad i
    | _, _ => 0

/-- `vxc(rho)`, `pylibxc_interface.py:76-106`. -/
noncomputable def xcVxc {ι : Type} (L : PyLibXc) (F : XcFunctional) (g : Option (XcGrid ι)) (rho : ι → ℝ) :
    Except Exn (ι → ℝ) := do
  let grad ← xcGrad F g rho
  match F with
  | .pair x gx c gc => .ok fun i => xcPart L x gx g rho grad i + xcPart L c gc g rho grad i
  | .single name gga => .ok fun i => xcPart L name gga g rho grad i

/-- `calculate_energies` with a functional from libxc, `atom.py:166-182`: the total energy; `vxc` is the
stored potential. -/
noncomputable def xcTotalEnergy (L : PyLibXc) (F : XcFunctional) (N : ℕ) (g : XcGrid ℕ) (states : List (ℝ × ℝ))
    (hartree vxc dens : ℕ → ℝ) : Except Exn ℝ := do
  let exc ← xcExc L F (some g) dens
  return atomTotalEnergy N g.r states hartree vxc exc dens

end Hotbit
