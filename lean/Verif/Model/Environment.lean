import Verif.Model.Electrostatics
import Verif.Model.Density
import Verif.Model.Containers

/-!
# External potentials (`hotbit/environment.py`)

Real arithmetic instead of floating point; a division by zero, which gives `nan` in the code, gives zero here and is
excluded in the theorems.
-/

namespace Hotbit

open Real

/-- A laser, `environment.py:23-26` (attributes set by the constructor). -/
structure Laser where
  omega : ℝ
  E0 : ℝ
  pol : Vec
  phase : ℝ

/-- `LinearlyPolarizedLaser.__init__`, `environment.py:10-27`, with `hbar=0.02342178` from line 4; `hartree` is the unit of
energy of ASE. -/
noncomputable def Laser.make (hartree energy flux : ℝ) (polarization : Vec) (phase : ℝ) : Laser where
  omega := energy / hartree / 0.02342178
  E0 := √flux * 5.33802445585E-09
  pol := fun i => polarization i / norm3 polarization
  phase := phase

/-- `LinearlyPolarizedLaser.__call__`, `environment.py:30-38`. -/
noncomputable def Laser.call (L : Laser) (r : Vec) (t : ℝ) : ℝ := -L.E0 * sin (L.omega * t + L.phase) * (r ⬝ᵥ L.pol)

/-- The environment: its time and the potentials added, `environment.py:44-47`. -/
structure Env where
  t : ℝ := 0
  phis : List (Vec → ℝ → ℝ) := []

/-- `propagate_time`, `environment.py:52-54`. -/
noncomputable def Env.propagate (e : Env) (dt : ℝ) : Env := { e with t := e.t + dt }

/-- `add_phi`, `environment.py:57-63`. -/
def Env.addPhi (e : Env) (phi : Vec → ℝ → ℝ) : Env := { e with phis := e.phis ++ [phi] }

/-- A position, or the index of an atom. -/
inductive Place
  | at_ (r : Vec)
  | atom (i : ℕ)

/-- `phi`, `environment.py:66-81`; `pos` are the positions of the atoms in Bohr (`el.nvector(i)`, `elements.py:297-320`). -/
noncomputable def Env.phi (e : Env) (pos : List Vec) (p : Place) : Except Exn ℝ := do
  let r ← match p with
    | .at_ r => .ok r
    | .atom i => match pos[i]? with
      | some r => .ok r
      | none => .error .indexError
  return e.phis.foldl (fun pot f => pot + f r e.t) 0

/-- `self.ext`, `electrostatics.py:268`. -/
noncomputable def Env.ext (e : Env) (pos : List Vec) : Except Exn (List ℝ) :=
  (List.range pos.length).mapM fun i => e.phi pos (.atom i)

end Hotbit
