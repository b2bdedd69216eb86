import Verif.Model.Calculator

/-!
# Comparing containers

Models `Atoms.same_container` (`hotbit/atoms.py:246-248`) with the `__eq__` of the containers.
-/

namespace Hotbit

open Classical in
/-- `A.same_container(B)`, `atoms.py:246-248`, which is `A.container==B.container`.
`bravais.py:43-48` asks for a method `get_cell` that does not exist (`AttributeError`) once the types
and periodic directions agree; `slab.py:86-93`; the others compare the atoms objects: `chiral.py:100-101`,
`chiralgeneral.py:93-94`, `chiralwedge.py:132-133`, `doublechiral.py:130-131`, `sphere.py:116-117`,
`twistandturn.py:127-128`, `wedge.py:154-155`, `wedgeyaxis.py:150-151`. -/
noncomputable def sameContainer (A B : Atoms) : Except Exn Bool :=
  match A.ctype with
  | .bravais => if B.ctype = .bravais ∧ A.pbc = B.pbc then .error .attributeError else .ok false
  | .slab => .ok (decide (B.ctype = .slab ∧ A.pbc = B.pbc ∧
      (∀ i j, |A.cell i j - B.cell i j| < 1e-12) ∧ ∀ i, |A.slabX i - B.slabX i| < 1e-12))
  | _ => .ok (aseEq A B)

end Hotbit
