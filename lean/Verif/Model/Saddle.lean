import Verif.Model.Containers

/-!
# Making containers by name, and the saddle container

Models `hotbit/containers/saddle.py`, the constructor of `hotbit/containers/gaussian.py` and the
part of `Atoms.__init__` that makes the container from its name (`hotbit/atoms.py:77-84`).
-/

namespace Hotbit

open Matrix

/-- The classes `from .… import …` in `hotbit/containers/__init__.py:1-13`. -/
def containerClasses : List String :=
  ["Bravais", "Chiral", "DoubleChiral", "ChiralGeneral", "ContainerTest1", "Wedge", "Sphere",
   "Saddle", "Gaussian", "Slab", "ChiralWedge", "WedgeYAxis", "TwistAndTurn"]

/-- `lst` of `container_magic`, `hotbit/atoms.py:16`. -/
def magicNames : List String :=
  ["Wedge", "Chiral", "DoubleChiral", "Sphere", "Slab", "ChiralWedge", "WedgeYAxis",
   "TwistAndTurn", "ChiralGeneral"]

/-- `hotbit/atoms.py:79-81`: `Atoms(container=name)`.  The class is looked up (`exec`), its
constructor is run (`gaussian.py:28` always raises), and `container_magic` (`atoms.py:26-30`) looks
the name up in its list.  Simplified: names that are not container classes are all unknown names
(in Python a few of them are other objects of the module, which fail when they are called); of the
result only the name is kept. -/
def makeContainer (name : String) : Except Exn String :=
  if name ∉ containerClasses then .error .nameError
  else if name = "Gaussian" then .error .notImplementedError
  else if name = "Bravais" then .ok name
  else if name ∈ magicNames then .ok name
  else .error .valueError

/-- Attributes of `Saddle`, `saddle.py:20-28` (`None` before they are set; the axes `n1`, `n2` and
`M = 50` are constants). -/
structure Saddle where
  angle1 : Option ℝ := none
  angle2 : Option ℝ := none
  R : Option ℝ := none

/-- Keyword arguments of `Saddle.set`, `saddle.py:36-50` without `container`. -/
def Saddle.set (S : Saddle) (angle1 angle2 R : Option ℝ) : Saddle :=
  ⟨angle1.orElse fun _ => S.angle1, angle2.orElse fun _ => S.angle2, R.orElse fun _ => S.R⟩

/-- `Saddle.set(container=…)`, `saddle.py:41-43`. -/
def Saddle.setFrom (S C : Saddle) : Saddle := S.set C.angle1 C.angle2 C.R

/-- The first axis, `saddle.py:25`. -/
def Saddle.n1 : Vec := ![0, 1, 0]
/-- The second axis, `saddle.py:26`. -/
def Saddle.n2 : Vec := ![1, 0, 0]

/-- `get_symmetry_operation_ranges`, `saddle.py:70-73`, with the guard of `Atoms`
(`atoms.py:128-138`): the third number has to be zero. -/
def Saddle.legal (n : Op) : Prop := n 2 = 0

/-- A product with an attribute that may be `None` (`TypeError`). -/
def optVal : Option ℝ → Except Exn ℝ
  | none => .error .typeError
  | some x => .ok x

/-- `Saddle.transform`, `saddle.py:75-89`. -/
noncomputable def Saddle.transform (S : Saddle) (r : Vec) (n : Op) : Except Exn Vec :=
  if n 0 = n 1 ∧ n 1 = 0 then .ok r
  else do
    let R ← optVal S.R
    let A : Vec := ![0, 0, 2 * R]
    let a1 ← optVal S.angle1
    let a2 ← optVal S.angle2
    let rot1 := rotationMatrix Saddle.n1 (a1 * n 0 / 50)
    let rot2 := rotationMatrix Saddle.n2 (a2 * n 1 / 50)
    .ok ((fun rp : Vec => A + rot2.mulVec (rot1.mulVec rp - A))^[50] r)

/-- `Saddle.rotation`, `saddle.py:91-107`. -/
noncomputable def Saddle.rotation (S : Saddle) (n : Op) : Except Exn Mat :=
  if n 0 = n 1 ∧ n 1 = 0 then .ok 1
  else do
    let a1 ← optVal S.angle1
    let a2 ← optVal S.angle2
    let rot1 := rotationMatrix Saddle.n1 (a1 * n 0 / 50)
    let rot2 := rotationMatrix Saddle.n2 (a2 * n 1 / 50)
    .ok ((fun rot : Mat => (rot2 * rot1) * rot)^[50] 1)

end Hotbit
