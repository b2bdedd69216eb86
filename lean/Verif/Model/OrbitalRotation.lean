import Verif.Model.Containers
import Verif.Model.SlaterKoster

/-!
# How symmetry operations rotate orbitals

Models `/repo/hotbit/interactions.py` lines 211-266 (`rotation_transformation`) and 428-484
(`orbital_transformations_from_angles`), and the `angles=True` branches of the containers'
`rotation` methods.
-/

namespace Hotbit

open Real

/-- `orbital_transformations_from_angles`, d block: /repo/hotbit/interactions.py lines 460-484
(SAGE output), as a function of the abbreviations introduced at lines 443-446. -/
noncomputable def orbTransD (pi s3 ca sa ct st cp sp ca2 sa2 ct2 st2 cp2 sp2 : ℝ) :
    Matrix (Fin 5) (Fin 5) ℝ :=
  ![![(2*(pi + pi*ca2 - 2*pi*ca)*sp2*st^4*cp2 - pi*sa2*ct2 - ((pi*ca2 - pi*ca)*sp2 + (pi*ca2 - pi*ca)*cp2)*st2 + pi*ca2)/pi,
      -(((pi - pi*ca)*sa*sp^3 - (pi - pi*ca)*sa*sp*cp2 - 2*(pi + pi*ca2 - 2*pi*ca)*sp2*cp*ct)*st^3 - ((pi - pi*ca)*sa*sp*ct2 - pi*sa*sp*ca + (pi*sa2 - pi*ca2 + pi*ca)*cp*ct)*st)/pi,
      -(((pi - pi*ca)*sa*sp2*cp - (pi - pi*ca)*sa*cp^3 - 2*(pi + pi*ca2 - 2*pi*ca)*sp*cp2*ct)*st^3 + ((pi - pi*ca)*sa*cp*ct2 - pi*sa*ca*cp - (pi*sa2 - pi*ca2 + pi*ca)*sp*ct)*st)/pi,
      -(((pi + pi*ca2 - 2*pi*ca)*sp^3*cp - (pi + pi*ca2 - 2*pi*ca)*sp*cp^3)*st^4 + ((pi - pi*ca)*sa*sp2 + (pi - pi*ca)*sa*cp2)*st2*ct + 2*pi*sa*ca*ct)/pi,
      -(1/3)*(((pi + pi*ca2 - 2*pi*ca)*sp^3*cp + (pi + pi*ca2 - 2*pi*ca)*sp*cp^3)*st^4 - (2*(pi + pi*ca2 - 2*pi*ca)*sp*cp*ct2 - 2*(pi*sa2 - pi*ca2 + pi*ca)*sp*cp - 3*((pi - pi*ca)*sa*sp2 - (pi - pi*ca)*sa*cp2)*ct)*st2)*s3/pi],
    ![(((pi - pi*ca)*sa*sp^3 - (pi - pi*ca)*sa*sp*cp2 + 2*(pi + pi*ca2 - 2*pi*ca)*sp2*cp*ct)*st^3 - ((pi - pi*ca)*sa*sp*ct2 - pi*sa*sp*ca - (pi*sa2 - pi*ca2 + pi*ca)*cp*ct)*st)/pi,
      -((pi*ca2 - pi*ca)*ct2 - (2*(pi + pi*ca2 - 2*pi*ca)*sp2*ct2 - pi*sa2*cp2 - (pi*ca2 - pi*ca)*sp2)*st2 - pi*ca2)/pi,
      -((pi - pi*ca)*sa*ct^3 + pi*sa*ca*ct - (2*(pi + pi*ca2 - 2*pi*ca)*sp*cp*ct2 + (pi*sa2 - pi*ca2 + pi*ca)*sp*cp + ((pi - pi*ca)*sa*sp2 + (pi - pi*ca)*sa*cp2)*ct)*st2)/pi,
      ((2*(pi - pi*ca)*sa*sp2*cp - ((pi + pi*ca2 - 2*pi*ca)*sp^3 - (pi + pi*ca2 - 2*pi*ca)*sp*cp2)*ct)*st^3 - ((pi - pi*ca)*sa*cp*ct2 - pi*sa*ca*cp + (pi*sa2 - pi*ca2 + pi*ca)*sp*ct)*st)/pi,
      -(1/3)*(((pi + pi*ca2 - 2*pi*ca)*sp^3 + (pi + pi*ca2 - 2*pi*ca)*sp*cp2)*st^3*ct - (3*(pi - pi*ca)*sa*cp*ct2 + 2*(pi + pi*ca2 - 2*pi*ca)*sp*ct^3 + 3*pi*sa*ca*cp + (pi*sa2 - pi*ca2 + pi*ca)*sp*ct)*st)*s3/pi],
    ![(((pi - pi*ca)*sa*sp2*cp - (pi - pi*ca)*sa*cp^3 + 2*(pi + pi*ca2 - 2*pi*ca)*sp*cp2*ct)*st^3 + ((pi - pi*ca)*sa*cp*ct2 - pi*sa*ca*cp + (pi*sa2 - pi*ca2 + pi*ca)*sp*ct)*st)/pi,
      ((pi - pi*ca)*sa*ct^3 + pi*sa*ca*ct + (2*(pi + pi*ca2 - 2*pi*ca)*sp*cp*ct2 + (pi*sa2 - pi*ca2 + pi*ca)*sp*cp - ((pi - pi*ca)*sa*sp2 + (pi - pi*ca)*sa*cp2)*ct)*st2)/pi,
      -((pi*ca2 - pi*ca)*ct2 - (2*(pi + pi*ca2 - 2*pi*ca)*cp2*ct2 - pi*sa2*sp2 - (pi*ca2 - pi*ca)*cp2)*st2 - pi*ca2)/pi,
      ((2*(pi - pi*ca)*sa*sp*cp2 - ((pi + pi*ca2 - 2*pi*ca)*sp2*cp - (pi + pi*ca2 - 2*pi*ca)*cp^3)*ct)*st^3 - ((pi - pi*ca)*sa*sp*ct2 - pi*sa*sp*ca - (pi*sa2 - pi*ca2 + pi*ca)*cp*ct)*st)/pi,
      -(1/3)*(((pi + pi*ca2 - 2*pi*ca)*sp2*cp + (pi + pi*ca2 - 2*pi*ca)*cp^3)*st^3*ct + (3*(pi - pi*ca)*sa*sp*ct2 - 2*(pi + pi*ca2 - 2*pi*ca)*cp*ct^3 + 3*pi*sa*sp*ca - (pi*sa2 - pi*ca2 + pi*ca)*cp*ct)*st)*s3/pi],
    ![-(((pi + pi*ca2 - 2*pi*ca)*sp^3*cp - (pi + pi*ca2 - 2*pi*ca)*sp*cp^3)*st^4 - ((pi - pi*ca)*sa*sp2 + (pi - pi*ca)*sa*cp2)*st2*ct - 2*pi*sa*ca*ct)/pi,
      -((2*(pi - pi*ca)*sa*sp2*cp + ((pi + pi*ca2 - 2*pi*ca)*sp^3 - (pi + pi*ca2 - 2*pi*ca)*sp*cp2)*ct)*st^3 - ((pi - pi*ca)*sa*cp*ct2 - pi*sa*ca*cp - (pi*sa2 - pi*ca2 + pi*ca)*sp*ct)*st)/pi,
      -((2*(pi - pi*ca)*sa*sp*cp2 + ((pi + pi*ca2 - 2*pi*ca)*sp2*cp - (pi + pi*ca2 - 2*pi*ca)*cp^3)*ct)*st^3 - ((pi - pi*ca)*sa*sp*ct2 - pi*sa*sp*ca + (pi*sa2 - pi*ca2 + pi*ca)*cp*ct)*st)/pi,
      (1/2)*(((pi + pi*ca2 - 2*pi*ca)*sp^4 - 2*(pi + pi*ca2 - 2*pi*ca)*sp2*cp2 + (pi + pi*ca2 - 2*pi*ca)*cp^4)*st^4 - 2*pi*sa2*ct2 - 2*((pi*ca2 - pi*ca)*sp2 + (pi*ca2 - pi*ca)*cp2)*st2 + 2*pi*ca2)/pi,
      (1/6)*(((pi + pi*ca2 - 2*pi*ca)*sp^4 - (pi + pi*ca2 - 2*pi*ca)*cp^4)*st^4 - 2*(6*(pi - pi*ca)*sa*sp*cp*ct + ((pi + pi*ca2 - 2*pi*ca)*sp2 - (pi + pi*ca2 - 2*pi*ca)*cp2)*ct2 - (pi*sa2 - pi*ca2 + pi*ca)*sp2 + (pi*sa2 - pi*ca2 + pi*ca)*cp2)*st2)*s3/pi],
    ![-(1/3)*(((pi + pi*ca2 - 2*pi*ca)*sp^3*cp + (pi + pi*ca2 - 2*pi*ca)*sp*cp^3)*st^4 - (2*(pi + pi*ca2 - 2*pi*ca)*sp*cp*ct2 - 2*(pi*sa2 - pi*ca2 + pi*ca)*sp*cp + 3*((pi - pi*ca)*sa*sp2 - (pi - pi*ca)*sa*cp2)*ct)*st2)*s3/pi,
      -(1/3)*(((pi + pi*ca2 - 2*pi*ca)*sp^3 + (pi + pi*ca2 - 2*pi*ca)*sp*cp2)*st^3*ct + (3*(pi - pi*ca)*sa*cp*ct2 - 2*(pi + pi*ca2 - 2*pi*ca)*sp*ct^3 + 3*pi*sa*ca*cp - (pi*sa2 - pi*ca2 + pi*ca)*sp*ct)*st)*s3/pi,
      -(1/3)*(((pi + pi*ca2 - 2*pi*ca)*sp2*cp + (pi + pi*ca2 - 2*pi*ca)*cp^3)*st^3*ct - (3*(pi - pi*ca)*sa*sp*ct2 + 2*(pi + pi*ca2 - 2*pi*ca)*cp*ct^3 + 3*pi*sa*sp*ca + (pi*sa2 - pi*ca2 + pi*ca)*cp*ct)*st)*s3/pi,
      (1/6)*(((pi + pi*ca2 - 2*pi*ca)*sp^4 - (pi + pi*ca2 - 2*pi*ca)*cp^4)*st^4 + 2*(6*(pi - pi*ca)*sa*sp*cp*ct - ((pi + pi*ca2 - 2*pi*ca)*sp2 - (pi + pi*ca2 - 2*pi*ca)*cp2)*ct2 + (pi*sa2 - pi*ca2 + pi*ca)*sp2 - (pi*sa2 - pi*ca2 + pi*ca)*cp2)*st2)*s3/pi,
      (1/6)*(((pi + pi*ca2 - 2*pi*ca)*sp^4 + 2*(pi + pi*ca2 - 2*pi*ca)*sp2*cp2 + (pi + pi*ca2 - 2*pi*ca)*cp^4)*st^4 + 4*(pi + pi*ca2 - 2*pi*ca)*ct^4 + 2*(pi*sa2 - 4*pi*ca2 + 4*pi*ca)*ct2 - 2*(2*((pi + pi*ca2 - 2*pi*ca)*sp2 + (pi + pi*ca2 - 2*pi*ca)*cp2)*ct2 + (2*pi*sa2 + pi*ca2 - pi*ca)*sp2 + (2*pi*sa2 + pi*ca2 - pi*ca)*cp2)*st2 + 6*pi*ca2)/pi]]

/-- `orbital_transformations_from_angles`, p block: /repo/hotbit/interactions.py lines 447-457. -/
noncomputable def orbTransP (ca sa ct st cp sp ct2 st2 cp2 sp2 ca1 : ℝ) : Mat :=
  ![![(ca1*st2*cp2 + ca), (ca1*sp*st2*cp + sa*ct), (ca1*cp*ct - sa*sp)*st],
    ![(ca1*sp*st2*cp - sa*ct), (ca1*sp2*st2 + ca), (ca1*sp*ct + sa*cp)*st],
    ![(ca1*cp*ct + sa*sp)*st, (ca1*sp*ct - sa*cp)*st, (ca1*ct2 + ca)]]

/-- `orbital_transformations_from_angles((theta,phi,angle))`:
/repo/hotbit/interactions.py lines 428-484. -/
noncomputable def orbTrans (theta phi angle : ℝ) : Matrix (Fin 9) (Fin 9) ℝ := fun a b =>
  let ca := cos angle
  let sa := sin angle
  let ct := cos theta
  let st := sin theta
  let cp := cos phi
  let sp := sin phi
  if a.val = 0 ∧ b.val = 0 then 1
  else if h : 1 ≤ a.val ∧ a.val ≤ 3 ∧ 1 ≤ b.val ∧ b.val ≤ 3 then
    orbTransP ca sa ct st cp sp (ct ^ 2) (st ^ 2) (cp ^ 2) (sp ^ 2) (1 - ca)
      ⟨a.val - 1, by omega⟩ ⟨b.val - 1, by omega⟩
  else if h : 4 ≤ a.val ∧ 4 ≤ b.val then
    orbTransD π (sqrt 3) ca sa ct st cp sp (ca ^ 2) (sa ^ 2) (ct ^ 2) (st ^ 2) (cp ^ 2) (sp ^ 2)
      ⟨a.val - 4, by omega⟩ ⟨b.val - 4, by omega⟩
  else 0

/-- The matrix `D` of the branch "rotation around z-axis", before transposition:
/repo/hotbit/interactions.py lines 251-263. -/
noncomputable def zRotD (R : Mat) : Matrix (Fin 9) (Fin 9) ℝ := fun a b =>
  let ca := R 0 0
  let sa := - R 0 1
  let c2a := 2 * ca ^ 2 - 1
  let s2a := 2 * sa * ca
  if h : 1 ≤ a.val ∧ a.val ≤ 3 ∧ 1 ≤ b.val ∧ b.val ≤ 3 then
    R ⟨b.val - 1, by omega⟩ ⟨a.val - 1, by omega⟩
  else if a.val = 5 ∧ b.val = 6 then -sa
  else if a.val = 6 ∧ b.val = 5 then sa
  else if a.val = 4 ∧ b.val = 7 then -s2a
  else if a.val = 7 ∧ b.val = 4 then s2a
  else if a = b then ![1, ca, ca, 1, c2a, ca, ca, c2a, 1] a
  else 0

/-- The matrix of the branch "only xy-plane reflection":
/repo/hotbit/interactions.py lines 238-243. -/
noncomputable def reflD : Matrix (Fin 9) (Fin 9) ℝ :=
  Matrix.diagonal ![1, 1, 1, -1, 1, -1, -1, 1, 1]

open Classical in
/-- `rotation_transformation(n)`: /repo/hotbit/interactions.py lines 211-266, as a function of
`R = el.rotation(n)`, the result of `el.rotation(n,angles=True)` (an exception for some
containers) and whether some atom has more than four orbitals. -/
noncomputable def rotationTransformation (R : Mat) (angles : Except Exn (ℝ × ℝ × ℝ))
    (hasD : Prop) : Except Exn (Matrix (Fin 9) (Fin 9) ℝ) :=
  if ∀ i, |R i i - 1| < 1e-12 then .ok 1
  else if hasD ∧ |R 2 2 - 1| > 1e-12 then
    if |R 2 2 + 1| < 1e-12 then .ok reflD
    else do
      let (theta, phi, angle) ← angles
      return (orbTrans theta phi angle).transpose
  else .ok (zRotD R).transpose

/-- `container.rotation(n,angles=True)`: wedge.py:180-184, chiralgeneral.py:111-116,
wedgeyaxis.py:176-180, chiralwedge.py:159-160.  Bravais, Chiral, DoubleChiral and Slab ignore the
flag and return a 3x3 array, which `theta,phi,angle = rot` unpacks into its three rows; the array
arithmetic that follows raises `TypeError` (`cos` of an array).  Sphere and TwistAndTurn are not
modelled here (`none`). -/
noncomputable def Atoms.rawAngles (A : Atoms) (n : Op) : Option (Except Exn (ℝ × ℝ × ℝ)) :=
  match A.ctype with
  | .wedge => some (.ok (0, 0, n 0 * A.wedgeAngle))
  | .chiralGeneral => some (.ok (0, 0, n 0 * A.cell 2 0 + n 1 * A.cell 1 1))
  | .wedgeYAxis => some (.ok (π / 2, π / 2, n 0 * A.wedgeAngle))
  | .chiralWedge => some (.error .notImplementedError)
  | .bravais | .chiral | .doubleChiral | .slab => some (.error .typeError)
  | .sphere | .twistAndTurn => none

end Hotbit
