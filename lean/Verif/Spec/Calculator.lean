import Verif.Model.Calculator

/-! Specification for C25–C27: the value a query has to return and the histories considered. -/

namespace Hotbit

/-! ## Specification: what a calculator used for nothing else returns -/

/-- The geometry arrays of `A` itself. -/
noncomputable def geoOf (A : Atoms) : Geo := (A, A.ranges)

/-- The converged electronic structure of `A` with the k-points of `A`. -/
noncomputable def wfOf (P : Phys) (A : Atoms) : Wf := ⟨geoOf A, P.kset A, true⟩

/-- Potential energy of `A` with pair potentials `pp`: all parts evaluated for `A` itself. -/
noncomputable def energyOf (P : Phys) (pp : List ℕ) (A : Atoms) : ℝ :=
  P.ebs A.symbols (wfOf P A) (geoOf A) + P.ecoul A.symbols (wfOf P A) + P.erep A.symbols (geoOf A) +
    P.epp pp A.symbols (geoOf A) - P.efree A.symbols

/-- Forces on the atoms of `A`. -/
noncomputable def forcesOf (P : Phys) (pp : List ℕ) (A : Atoms) (i : ℕ) : Vec :=
  P.fbs A.symbols (wfOf P A) (geoOf A) (geoOf A) i + P.frep A.symbols (geoOf A) i +
    P.fcoul A.symbols (wfOf P A) i + P.fpp pp A.symbols (geoOf A) i

/-- The structure the ground state is marked solved for. -/
def gsOf (s : Calc) : Option Atoms := s.el.bind fun el => el.solved .groundState

/-- Structures with the symbols `sy` that atoms-comparison tells apart and that have the same ranges of
symmetry operations and the same k-point sampling. -/
def Domain (P : Phys) (D : Atoms → Prop) (sy : List String) : Prop :=
  (∀ A, D A → A.symbols = sy) ∧ (∀ A B, D A → D B → aseEq A B = true → A = B) ∧
    ∀ A B, D A → D B → A.ranges = B.ranges ∧ P.kset A = P.kset B

/-- A failure at `fp` does not hit the calculation of a new structure after another was solved. -/
def CrashOk (s : Calc) (A : Atoms) (fp : Option Point) : Prop :=
  fp = none ∨ fp = some .ebs ∨ gsOf s = none ∨ gsOf s = some A

/-- What a call has to return (with pair potentials `pp`): the value for the structure asked about. -/
noncomputable def valueOf (P : Phys) (pp : List ℕ) : Call → Result
  | .energy A => .num (energyOf P pp A)
  | .forces A => .vecs (forcesOf P pp A)
  | .ebs A => .num (P.ebs A.symbols (wfOf P A) (geoOf A))
  | .ecoul A => .num (P.ecoul A.symbols (wfOf P A))
  | _ => .unit

/-- The calls C25 can be guaranteed for. -/
def Allowed (D : Atoms → Prop) (s : Calc) (fp : Option Point) : Call → Prop
  | .energy A | .forces A | .ebs A | .ecoul A | .solve A => D A ∧ CrashOk s A fp
  | .setAtoms A => D A ∧ (gsOf s = none ∨ gsOf s = some A)
  | .set _ _ => True
  | .addPP _ => gsOf s = none

/-- States reachable by allowed calls, any of which may raise or fail half way. -/
inductive Hist (P : Phys) (D : Atoms → Prop) : Calc → Prop
  | new (params) : Hist P D (newCalc params)
  | call (s : Calc) (c : Call) (fp : Option Point) :
      Hist P D s → Allowed D s fp c → Hist P D (runCall P c fp s).1

/-- No timer of a calculation is running and the calculator is initialized: the situation between
calls as long as no call failed half way. -/
def Idle (s : Calc) : Prop :=
  s.init = true ∧ ∀ l ∈ ["geometry", "solve", "energy", "forces", "e_bs", "ecoul"], l ∉ s.running

end Hotbit
