import Verif.Model.Basic
import Mathlib.LinearAlgebra.Matrix.NonsingularInverse
import Mathlib.Tactic

/-!
# Finite differences of energy and potential

Models `box/fd_forces.py`.  The calculator is a function of the structure; numbers are real.
-/

namespace Hotbit

/-- The positions of `n` atoms. -/
abbrev Places (n : ℕ) := Fin n → Vec

/-- `a.x = v` (or `a.y`, `a.z`) for the atom `a` of the structure. -/
noncomputable def putCoord {n : ℕ} (P : Places n) (a : Fin n) (c : Fin 3) (v : ℝ) : Places n :=
  Function.update P a (Function.update (P a) c v)

/-- One coordinate moved back and forth, `box/fd_forces.py:22-26` (`62-66`): the two values and the structure
afterwards; `r0` is the stored position of the atom. -/
noncomputable def fdAxis {n : ℕ} (E : Places n → ℝ) (dx : ℝ) (r0 : Vec) (a : Fin n) (c : Fin 3) (P : Places n) :
    ℝ × ℝ × Places n :=
  let P1 := putCoord P a c (r0 c - dx)
  let e1 := E P1
  let P2 := putCoord P1 a c (r0 c + dx)
  let e2 := E P2
  (e1, e2, putCoord P2 a c (r0 c))

/-- The body of the loop over atoms, `box/fd_forces.py:20-42` (`60-82`). -/
noncomputable def fdAtom {n : ℕ} (E : Fin n → Places n → ℝ) (dx : ℝ) (s : Places n × Places n) (a : Fin n) :
    Places n × Places n :=
  let r0 := s.1 a
  let x := fdAxis (E a) dx r0 a 0 s.1
  let y := fdAxis (E a) dx r0 a 1 x.2.2
  let z := fdAxis (E a) dx r0 a 2 y.2.2
  (z.2.2, Function.update s.2 a
    ![-(x.2.1 - x.1) / (2 * dx), -(y.2.1 - y.1) / (2 * dx), -(z.2.1 - z.1) / (2 * dx)])

/-- `np.max(np.abs(df))`, `ValueError` for an empty array. -/
noncomputable def maxDeviation {n : ℕ} (x y : Places n) : Except Exn ℝ :=
  if h : (Finset.univ : Finset (Fin n × Fin 3)).Nonempty then
    .ok (Finset.univ.sup' h fun p => |x p.1 p.2 - y p.1 p.2|)
  else .error .valueError

/-- What the checks leave behind: the numbers and the structure. -/
structure FdResult (n : ℕ) where
  numerical : Places n
  reported : Places n
  deviation : ℝ
  after : Places n

/-- `check_forces(atoms,dx)`, `box/fd_forces.py:10-46`. -/
noncomputable def checkForces {n : ℕ} (energy : Places n → ℝ) (forces : Places n → Places n) (dx : ℝ)
    (P : Places n) : Except Exn (FdResult n) := do
  let f0 := forces P
  let s := (List.finRange n).foldl (fdAtom (fun _ => energy) dx) (P, f0)
  let m ← maxDeviation s.2 f0
  return ⟨s.2, f0, m, s.1⟩

/-- `check_field(atoms,calc,dx)`, `box/fd_forces.py:49-86`; `potential P a` is the potential at atom `a`. -/
noncomputable def checkField {n : ℕ} (potential : Places n → Fin n → ℝ) (field : Places n → Places n) (dx : ℝ)
    (P : Places n) : Except Exn (FdResult n) := do
  let E0 := field P
  let s := (List.finRange n).foldl (fdAtom (fun a P => potential P a) dx) (P, E0)
  let m ← maxDeviation s.2 E0
  return ⟨s.2, E0, m, s.1⟩

/-- `atoms.set_cell(c,scale_atoms=True)` of ASE: the positions follow the cell. -/
noncomputable def setCellScaled {n : ℕ} (s : Mat × Places n) (c : Mat) : Mat × Places n :=
  (c, fun a => Matrix.vecMul (s.2 a) (s.1⁻¹ * c))

/-- One component, `box/fd_forces.py:108-121`: the difference quotient and the structure afterwards. -/
noncomputable def virialPart {n : ℕ} (energy : Mat → Places n → ℝ) (de : ℝ) (c0 : Mat) (i j : Fin 3)
    (s : Mat × Places n) : ℝ × (Mat × Places n) :=
  let s1 := setCellScaled s (c0 * (1 : Mat).updateRow i (Function.update ((1 : Mat) i) j ((1 : Mat) i j - de)))
  let e1 := energy s1.1 s1.2
  let s2 := setCellScaled s1 (c0 * (1 : Mat).updateRow i (Function.update ((1 : Mat) i) j ((1 : Mat) i j + de)))
  let e2 := energy s2.1 s2.2
  ((e2 - e1) / (2 * de), s2)

/-- The loops over the components, `box/fd_forces.py:106-121`. -/
noncomputable def virialLoop {n : ℕ} (energy : Mat → Places n → ℝ) (de : ℝ) (s : Mat × Places n) :
    Mat × (Mat × Places n) :=
  ((List.finRange 3).flatMap fun i => (List.finRange 3).map fun j => (i, j)).foldl
    (fun st ij =>
      let r := virialPart energy de s.1 ij.1 ij.2 st.2
      (st.1.updateRow ij.1 (Function.update (st.1 ij.1) ij.2 r.1), r.2)) (0, s)

/-- `check_virial(atoms,de)`, `box/fd_forces.py:89-125`: the numerical stress in Voigt order, its largest
deviation from the reported one and the structure afterwards. -/
noncomputable def checkVirial {n : ℕ} (energy : Mat → Places n → ℝ) (stress : Mat → Places n → Fin 6 → ℝ)
    (volume : Mat → ℝ) (de : ℝ) (s : Mat × Places n) : (Fin 6 → ℝ) × ℝ × (Mat × Places n) :=
  let s0 := stress s.1 s.2
  let V0 := volume s.1
  let r := virialLoop energy de s
  let m := r.1
  let fd : Fin 6 → ℝ := fun k => (![m 0 0, m 1 1, m 2 2, (m 1 2 + m 2 1) / 2, (m 0 2 + m 2 0) / 2,
    (m 0 1 + m 1 0) / 2] k) / V0
  (fd, Finset.univ.sup' Finset.univ_nonempty (fun k => |fd k - s0 k|), r.2)

end Hotbit
