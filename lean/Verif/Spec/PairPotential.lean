import Verif.Model.PairTerms

/-!
# Specification of user pair potentials

A history is a list of calls of `add_pair_potential`.  Between two atoms act the last potential given
for the two atoms, in either order, and the last potential given for their elements, in either order.
-/

namespace Hotbit

/-- One call of `add_pair_potential`. -/
structure PPAdd where
  key : PPKey
  p : UserPot
  eVA : Bool

/-- The call is for atoms `i` and `j`, in either order. -/
def PPAdd.forAtoms (i j : ℕ) (a : PPAdd) : Bool :=
  match a.key with
  | .atoms k l => (k == i && l == j) || (k == j && l == i)
  | .elements _ _ => false

/-- The call is for elements `x` and `y`, in either order. -/
def PPAdd.forElements (x y : String) (a : PPAdd) : Bool :=
  match a.key with
  | .atoms _ _ => false
  | .elements u v => (u == x && v == y) || (u == y && v == x)

/-- The potential of the last call selected by `f`, zero if there is none. -/
noncomputable def lastPot (bohr hartree : ℝ) (adds : List PPAdd) (f : PPAdd → Bool) : Pot :=
  match adds.reverse.find? f with
  | some a => (convertPot bohr hartree a.eVA a.p).v
  | none => fun _ _ => 0

/-- The state after a history. -/
noncomputable def ppRun (bohr hartree : ℝ) (adds : List PPAdd) : PPState :=
  adds.foldl (fun st a => addPair bohr hartree st a.key a.p a.eVA) {}

/-- A chemical symbol: one capital letter followed by characters that are not capital letters. -/
def ValidSym (s : String) : Prop :=
  ∃ c l, s.toList = c :: l ∧ c.isUpper = true ∧ ∀ d ∈ l, d.isUpper = false

/-- Atom numbers below 10000 and proper symbols. -/
def PPAdd.Valid (a : PPAdd) : Prop :=
  match a.key with
  | .atoms i j => i < 10000 ∧ j < 10000
  | .elements x y => ValidSym x ∧ ValidSym y

/-- The same energy function in Hartree and Bohr: `v(r·Bohr)/Hartree`. -/
noncomputable def toAtomicUnits (bohr hartree : ℝ) (v : ℝ → ℝ) (r : ℝ) : ℝ := v (r * bohr) / hartree

end Hotbit
