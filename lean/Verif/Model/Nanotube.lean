import Verif.Model.Systems
import Verif.Model.ContainerSet
import Verif.Model.Helpers

/-!
# Nanotubes: `box/systems.py`, lines 221-424

Floating point numbers are real numbers. Points of the plane are pairs; in `chiral_nanotube` the third component is always zero and is left
out.
-/

namespace Hotbit

open Real

/-- `data['type']`. -/
inductive TubeType
  | armchair | zigzag | chiral
  deriving DecidableEq

/-- The dictionary returned by `nanotube_data`. -/
structure TubeData where
  a : ℝ
  diameter : ℝ
  radius : ℝ
  C : ℝ
  T : ℝ
  metallic : Bool
  semiconducting : Bool
  angle : ℝ
  hexagons : ℤ
  type : TubeType

/-- `dR`, `systems.py:232-240`; `np.mod` of integers (zero for a zero divisor, with a warning). -/
def tubeDR (n m : ℤ) : ℤ :=
  if n = m then 3 * n
  else
    let d := pyGcd n m
    if (if 3 * d = 0 then 0 else (n - m).fmod (3 * d)) = 0 then 3 * d else d

/-- `nanotube_data`, `systems.py:221-253`: dividing a Python float by zero raises. -/
noncomputable def nanotubeData (n m : ℤ) (R : ℝ := 1.42) : Except Exn TubeData :=
  let a := √3 * R
  let diameter := a / π * √((n : ℝ) ^ 2 + (m : ℝ) ^ 2 + n * m)
  let dR := tubeDR n m
  if dR = 0 then .error .zeroDivisionError
  else
    let T := 3 * R * √((n : ℝ) ^ 2 + (m : ℝ) ^ 2 + n * m) / dR
    if m + 2 * n = 0 then .error .zeroDivisionError
    else
      .ok { a := a, diameter := diameter, radius := diameter / 2, C := diameter * π, T := T
            metallic := decide ((n - m).fmod 3 = 0), semiconducting := !decide ((n - m).fmod 3 = 0)
            angle := arctan (√3 * m / (m + 2 * n))
            hexagons := pyRound (2 * ((m : ℝ) ^ 2 + (n : ℝ) ^ 2 + m * n) / dR)
            type := if n = m then .armchair else if n = 0 ∨ m = 0 then .zigzag else .chiral }

/-- Scalar product in the plane. -/
def dot2 (p q : ℝ × ℝ) : ℝ := p.1 * q.1 + p.2 * q.2

/-- The points of the plane in `chiral_nanotube`, `systems.py:269-283`. -/
noncomputable def chiralPoints (n m : ℕ) (R : ℝ) : List (ℝ × ℝ) :=
  let a := √3 * R
  let a1 : ℝ × ℝ := (a, 0)
  let shift : ℝ × ℝ := (a / 2, -0.5 * R)
  ((List.range n).flatMap fun i : ℕ => [(i : ℝ) • a1, (i : ℝ) • a1 + shift]) ++
    (List.range m).flatMap fun j : ℕ =>
      let origin := ((n : ℝ) - 1) • a1 + ((j : ℝ) + 1) • a1
      [origin, origin + shift]

/-- `chiral_nanotube`, `systems.py:258-307`: the atoms with their container, the data, and the entries `height` and `twist` of the data.
For `n=m=0` the numpy divisions only warn, and `nanotube_data` raises. -/
noncomputable def chiralNanotube (n m : ℕ) (R : ℝ := 1.42) (element : String := "C") : Except Exn (Atoms × TubeData × ℝ × ℝ) :=
  let a := √3 * R
  let a1 : ℝ × ℝ := (a, 0)
  let a2 : ℝ × ℝ := (0.5 * a, -1.5 * R)
  let C := (n : ℝ) • a1 + (m : ℝ) • a2
  let Cn := √(dot2 C C)
  let T : ℝ × ℝ := (C.2, -C.1)
  let t := (1 / √(dot2 T T)) • T
  let radius := Cn / (2 * π)
  let place := fun r : ℝ × ℝ =>
    let phi := dot2 r C / Cn ^ 2 * 2 * π
    (![radius * cos phi, radius * sin phi, dot2 r t] : Vec)
  let A0 : Atoms := { ctype := .chiral, atoms := (chiralPoints n m R).map fun r => (element, place r), cell := 0,
                      pbc := ![false, false, true] }
  let height := |dot2 (a1 - a2) t|
  let angle := -dot2 (a1 - a2) C / Cn ^ 2 * 2 * π
  let A := (chiralSet A0 { angle := some angle, height := some height }).1
  match nanotubeData n m R with
  | .error e => .error e
  | .ok data => .ok (A, data, height, angle)

/-- The points within one unit of a tube, `systems.py:345-362`, with `c` and `a` the vectors around and along the tube: `(sc,sa)` of each
point. -/
noncomputable def tubePoints (n m : ℕ) (a1 a2 c a : ℝ × ℝ) : List (ℝ × ℝ) :=
  open Classical in
  let eps : ℝ := 0.01
  let b : List (ℝ × ℝ) := [(1 / 3 - eps, 1 / 3 - eps), (2 / 3 - eps, 2 / 3 - eps)]
  let nxy : ℤ := max n m + 100
  let eps : ℝ := 0.00001
  let range : List ℤ := (List.range (2 * nxy).toNat).map fun i : ℕ => (i : ℤ) - nxy
  range.flatMap fun x : ℤ => range.flatMap fun y : ℤ => b.flatMap fun bb =>
    let p := ((x : ℝ) + bb.1) • a1 + ((y : ℝ) + bb.2) • a2
    let sa := dot2 p a / √(dot2 a a) ^ 2
    let sc := dot2 p c / √(dot2 c c) ^ 2
    if sa ≥ 0 ∧ sa < 1 - eps ∧ sc ≥ 0 ∧ sc < 1 - eps then [(sc, sa)] else []

/-- `nanotube`, `systems.py:311-375`: the atoms and their data. -/
noncomputable def nanotube (n m : ℕ) (R : ℝ := 1.42) (length : ℕ := 1) : Except Exn (Struct × TubeData) :=
  open Classical in
  let sq3 := √3
  let gcn := pyGcd n m
  let a1 : ℝ × ℝ := (sq3 / 2 * R * sq3, 0.5 * R * sq3)
  let a2 : ℝ × ℝ := (sq3 / 2 * R * sq3, -0.5 * R * sq3)
  if gcn = 0 then .error .zeroDivisionError
  else
    let h : ℝ := ((n : ℝ) - m) / ((3 * gcn : ℤ) : ℝ)
    let RR : ℤ := if h - pyInt h = 0 then 3 else 1
    let c := (n : ℝ) • a1 + (m : ℝ) • a2
    let absC := √(dot2 c c)
    let a := (1 / ((gcn * RR : ℤ) : ℝ)) • ((-(2 * (m : ℝ) + n)) • a1 + (2 * (n : ℝ) + m) • a2)
    let absA := √(dot2 a a)
    let unit : List Vec := (tubePoints n m a1 a2 c a).map fun s =>
      ![cos (2 * π * s.1) * absC / (2 * π), sin (2 * π * s.1) * absC / (2 * π), s.2 * absA]
    let at1 : List Vec := unit ++ (List.range (length - 1)).flatMap fun i : ℕ => unit.map fun p => p + ![0, 0, (i + 1) * absA]
    let s := ((Struct.ofPos at1).setBox (2 * absC / (2 * π)) (2 * absC / (2 * π)) (length * absA)).center 2
    let s := s.translate ![-((s.pos.map fun p => p 0).sum / s.pos.length), -((s.pos.map fun p => p 1).sum / s.pos.length), 0]
    match nanotubeData n m with
    | .error e => .error e
    | .ok data => .ok (s.setPbc false false true, data)

/-- One step of the inner loop of `CNT_list`, `systems.py:401-406`; the flag is set after `break`. -/
noncomputable def cntStep (n : ℕ) (st : Except Exn (List (ℤ × ℝ × ℝ × ℤ × ℤ) × Bool)) (m : ℕ) : Except Exn (List (ℤ × ℝ × ℝ × ℤ × ℤ) × Bool) :=
  open Classical in
  match st with
  | .error e => .error e
  | .ok (l, true) => .ok (l, true)
  | .ok (l, false) =>
    match nanotubeData n m with
    | .error e => .error e
    | .ok d => if d.diameter < 2.0 then .ok (l, true) else .ok (l ++ [(d.hexagons * 2, d.diameter, d.T, (n : ℤ), (m : ℤ))], false)

/-- The list `data` of `CNT_list`, `systems.py:398-406`. -/
noncomputable def cntData : Except Exn (List (ℤ × ℝ × ℝ × ℤ × ℤ)) :=
  (List.range 19).foldl (fun st i =>
    match st with
    | .error e => .error e
    | .ok l =>
      match (List.range (i + 2)).foldl (cntStep (i + 1)) (.ok ([], false)) with
      | .error e => .error e
      | .ok r => .ok (l ++ r.1)) (.ok [])

/-- `CNT_list`, `systems.py:379-424`, for any `i`: in Python 3 the method `sort` takes no positional argument. -/
noncomputable def cntList (_i : Option ℤ) : Except Exn (List (ℤ × ℝ × ℝ × ℤ × ℤ)) :=
  match cntData with
  | .error e => .error e
  | .ok _ => .error .typeError

end Hotbit
