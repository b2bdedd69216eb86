import Verif.Spec.Calculator
import Verif.Model.Ask

/-! Specification for C118: histories with analysis calls and the structure an answer belongs to. -/

namespace Hotbit

/-- The atoms the calculator currently holds. -/
def currentAtoms (s : Calc) : Option Atoms := s.el.map ElState.atoms

/-- The electronic structure of `X` itself: converged states and matrices. -/
noncomputable def structureOf (P : Phys) (X : Atoms) : Wf × Geo := (wfOf P X, geoOf X)

/-- The analysis calls considered: `get_dq(atoms)` solves the structure it is given. -/
def AllowedAsk (D : Atoms → Prop) (s : Calc) (fp : Option Point) : Ask → Prop
  | .dq (some A) => D A ∧ CrashOk s A fp
  | _ => True

/-- States reachable by allowed calls of both parts of the interface, any of which may raise. -/
inductive AHist (P : Phys) (D : Atoms → Prop) : Calc → Prop
  | new (params) : AHist P D (newCalc params)
  | call (s : Calc) (c : Call) (fp : Option Point) :
      AHist P D s → Allowed D s fp c → AHist P D (runCall P c fp s).1
  | ask (s : Calc) (q : Ask) (fp : Option Point) :
      AHist P D s → AllowedAsk D s fp q → AHist P D (runAsk P q fp s).1

end Hotbit
