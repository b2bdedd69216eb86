import Verif.Model.Containers
import Mathlib.Analysis.SpecialFunctions.Complex.Arg

/-!
# Multipole moments and their transformations
(`hotbit/coulomb/multipole.py`, `hotbit/c/spherical.c`, `hotbit/c/multipole.c`)

Floats are exact reals, so a loop that accumulates into an array cell is written as a sum.  An array
is a function of the index; what stands outside the allocated part, and uninitialised stack memory, is
arbitrary (`junk`).
-/

namespace Hotbit

open Finset Complex

/-- `lm2index`, /repo/hotbit/coulomb/multipole.py line 35 (floor division) and
/repo/hotbit/c/spherical.h line 15 (`l*(l-1)` is never negative, so C division agrees). -/
def lm2index (l m : ℤ) : ℤ := l * (l - 1) / 2 + m - 1

/-- A pair of arrays: real moments `[l]` for `m=0`, and complex moments for `m ≥ 1` in one row. -/
structure Moments where
  l0 : ℕ → ℝ
  lm : ℤ → ℂ

/-- `zero_moments(l_max)`, /repo/hotbit/coulomb/multipole.py lines 38-44. -/
def Moments.zero : Moments := ⟨fun _ => 0, fun _ => 0⟩

/-- Size of the second array, /repo/hotbit/coulomb/multipole.py line 44. -/
def lmSize (lmax : ℕ) : ℤ := lm2index lmax lmax + 1

/-- The pairs `l`, `m` in the order of the loops `for l=1..l_max`, `for m=1..l`. -/
def lmPairs (lmax : ℕ) : List (ℕ × ℕ) :=
  (List.range lmax).flatMap fun l => (List.range (l + 1)).map fun m => (l + 1, m + 1)

/-- Assignments `a[lm2index(l,m)] = f(l,m)` in these loops. -/
def storeLM (lmax : ℕ) (f : ℕ → ℕ → ℂ) (a : ℤ → ℂ) : ℤ → ℂ :=
  (lmPairs lmax).foldl (fun a p => Function.update a (lm2index p.1 p.2) (f p.1 p.2)) a

/-- Accumulation `a[j] += f(l,m)` in these loops, where `j` is a running counter. -/
noncomputable def accumLM (lmax : ℕ) (f : ℕ → ℕ → ℂ) (a : ℤ → ℂ) : ℤ → ℂ :=
  (lmPairs lmax).zipIdx.foldl (fun a p => Function.update a (p.2 : ℤ) (a p.2 + f p.1.1 p.1.2)) a

/-- `for l=0..l_max: a[l] = f(l)`. -/
def storeL0 (lmax : ℕ) (f : ℕ → ℝ) (a : ℕ → ℝ) : ℕ → ℝ := fun l => if l ≤ lmax then f l else a l

/-- `for l=0..l_max: a[l] += f(l)`. -/
noncomputable def accumL0 (lmax : ℕ) (f : ℕ → ℝ) (a : ℕ → ℝ) : ℕ → ℝ :=
  fun l => if l ≤ lmax then a l + f l else a l

/-- `cartesian_to_spherical`, /repo/hotbit/c/spherical.c lines 28-37: distance, `cos(theta)`, `phi`;
`atan2(y,x)` is the argument of `x+iy`. -/
noncomputable def cartToSph (r : Vec) : ℝ × ℝ × ℝ := (norm3 r, r 2 / norm3 r, arg (r 0 + r 1 * I))

/-- The arrays `Pl0` (`m=0`) and `Plm` of `solid_harmonic_R`, /repo/hotbit/c/spherical.c lines 63-87.
Every cell is written once, from cells written before. -/
noncomputable def legR (c s : ℝ) : ℕ → ℕ → ℝ
  | 0, m => if m = 0 then 1 else 0
  | 1, m => if m = 0 then c else if m = 1 then -s / 2 else 0
  | l + 2, m =>
    if m = l + 2 then -(s / (2 * ((l : ℝ) + 2))) * legR c s (l + 1) (l + 1)
    else if m = l + 1 then c * legR c s (l + 1) (l + 1)
    else if m ≤ l then ((2 * ((l : ℝ) + 2) - 1) * c * legR c s (l + 1) m - legR c s l m)
      / (((l : ℝ) + 2 + m) * ((l : ℝ) + 2 - m))
    else 0

/-- `solid_harmonic_R`, /repo/hotbit/c/spherical.c lines 49-118, for `l_max ≥ 1`. -/
noncomputable def solidR (x c phi : ℝ) (lmax : ℕ) (junk : Moments) : Moments :=
  let s := Real.sqrt (1 - c * c)
  { l0 := storeL0 lmax (fun l => x ^ l * legR c s l 0) junk.l0
    lm := storeLM lmax (fun l m => (x : ℂ) ^ l * legR c s l m * exp (I * m * phi)) junk.lm }

/-- The arrays `Pl0` (`m=0`) and `Plm` (divided by the sine) of `solid_harmonic_I`,
/repo/hotbit/c/spherical.c lines 149-176. -/
noncomputable def legI (c s : ℝ) : ℕ → ℕ → ℝ
  | 0, m => if m = 0 then 1 else 0
  | 1, m => if m = 0 then c else if m = 1 then -1 else 0
  | l + 2, m =>
    if m = l + 2 then -((2 * ((l : ℝ) + 2) - 1) * s) * legI c s (l + 1) (l + 1)
    else if m = l + 1 then (2 * ((l : ℝ) + 2) - 1) * c * legI c s (l + 1) (l + 1)
    else if m ≤ l then (2 * ((l : ℝ) + 2) - 1) * c * legI c s (l + 1) m
      - ((l : ℝ) + 2 - m - 1) * ((l : ℝ) + 2 + m - 1) * legI c s l m
    else 0

/-- `solid_harmonic_I`, /repo/hotbit/c/spherical.c lines 128-209, for `l_max ≥ 1`. -/
noncomputable def solidI (x c phi : ℝ) (lmax : ℕ) (junk : Moments) : Moments :=
  let s := Real.sqrt (1 - c * c)
  { l0 := storeL0 lmax (fun l => legI c s l 0 * (1 / x) ^ (l + 1)) junk.l0
    lm := storeLM lmax (fun l m => s * legI c s l m * exp (I * m * phi) * (1 / (x : ℂ)) ^ (l + 1)) junk.lm }

open Classical in
/-- `py_solid_harmonic_R` with new arrays, /repo/hotbit/c/spherical.c lines 244-320. -/
noncomputable def pySolidR (r : Vec) (lmax : ℕ) : Moments :=
  if r 0 = 0 ∧ r 1 = 0 ∧ r 2 = 0 then
    { Moments.zero with l0 := Function.update Moments.zero.l0 0 (Moments.zero.l0 0 + 1) }
  else solidR (cartToSph r).1 (cartToSph r).2.1 (cartToSph r).2.2 lmax Moments.zero

/-- `get_moments(r,q,l_max,r0)`, /repo/hotbit/coulomb/multipole.py lines 47-66; charges with positions. -/
noncomputable def getMoments (lmax : ℕ) (qr : List (ℝ × Vec)) (r0 : Vec) : Moments :=
  let M := qr.foldl (fun M a =>
    let R := pySolidR (a.2 - r0) lmax
    ⟨fun l => M.l0 l + a.1 * R.l0 l, fun j => M.lm j + a.1 * R.lm j⟩) Moments.zero
  ⟨M.l0, fun j => starRingEnd ℂ (M.lm j)⟩

/-- Moment `l`, `k` for any sign of `k`, as read by the `if` cascades of /repo/hotbit/c/multipole.c
(lines 95-116, 194-217, 318-341). -/
noncomputable def Moments.at (M : Moments) (l : ℕ) (k : ℤ) : ℂ :=
  if k < 0 then (-1) ^ (-k) * starRingEnd ℂ (M.lm (lm2index l (-k)))
  else if k = 0 then (M.l0 l : ℂ)
  else M.lm (lm2index l k)

open Classical in
/-- `multipole_to_multipole`, /repo/hotbit/c/multipole.c lines 34-129: adds the shifted moments of the
child to `M`. -/
noncomputable def m2m (dr : Vec) (lmax : ℕ) (child M junk : Moments) : Moments :=
  if dr 0 = 0 ∧ dr 1 = 0 ∧ dr 2 = 0 then
    { l0 := accumL0 lmax child.l0 M.l0
      lm := fun j => if 0 ≤ j ∧ j ≤ lm2index lmax lmax then M.lm j + child.lm j else M.lm j }
  else
    let R := solidR (cartToSph dr).1 (cartToSph dr).2.1 (cartToSph dr).2.2 lmax junk
    { l0 := accumL0 lmax (fun l => ∑ k ∈ range (l + 1),
        (child.l0 (l - k) * R.l0 k + ∑ μ ∈ Icc 1 (min k (l - k)),
          2 * (-1) ^ μ * (child.lm (lm2index (l - k : ℕ) μ) * R.lm (lm2index k μ)).re)) M.l0
      lm := accumLM lmax (fun l m => ∑ k ∈ range (l + 1),
        ∑ μ ∈ Icc (max (-(k : ℤ)) (k - l + m)) (min (k : ℤ) (-k + l + m)),
          child.at (l - k) (m - μ) * starRingEnd ℂ (R.at k μ)) M.lm }

/-- `multipole_to_local`, /repo/hotbit/c/multipole.c lines 137-234. -/
noncomputable def m2l (dr : Vec) (lmax : ℕ) (M L junk : Moments) : Moments :=
  let J := solidI (cartToSph dr).1 (cartToSph dr).2.1 (cartToSph dr).2.2 (2 * lmax) junk
  { l0 := accumL0 lmax (fun l => ∑ k ∈ range (lmax + 1),
      (M.l0 k * J.l0 (l + k) + ∑ μ ∈ Icc 1 k,
        2 * (M.lm (lm2index k μ) * J.lm (lm2index (l + k : ℕ) μ)).re)) L.l0
    lm := accumLM lmax (fun l m => ∑ k ∈ range (lmax + 1), ∑ μ ∈ Icc (-(k : ℤ)) k,
      M.at k μ * J.at (l + k) (m + μ)) L.lm }

open Classical in
/-- `local_to_local`, /repo/hotbit/c/multipole.c lines 240-360. -/
noncomputable def l2l (dr : Vec) (lin : ℕ) (L : Moments) (lout : ℕ) (out junk : Moments) : Moments :=
  if dr 0 = 0 ∧ dr 1 = 0 ∧ dr 2 = 0 then
    { l0 := accumL0 (min lin lout) L.l0 out.l0
      lm := fun j => if 0 ≤ j ∧ j ≤ lm2index (min lin lout : ℕ) (min lin lout : ℕ) then out.lm j + L.lm j
        else out.lm j }
  else
    let R := solidR (cartToSph dr).1 (-(cartToSph dr).2.1) (Real.pi + (cartToSph dr).2.2) lin junk
    { l0 := accumL0 lout (fun l => if l ≤ lin then ∑ k ∈ range (lin - l + 1),
        (L.l0 (l + k) * R.l0 k + ∑ μ ∈ Icc 1 k,
          2 * (L.lm (lm2index (l + k : ℕ) μ) * starRingEnd ℂ (R.lm (lm2index k μ))).re) else 0) out.l0
      lm := accumLM lout (fun l m => if l ≤ lin then ∑ k ∈ range (lin - l + 1), ∑ μ ∈ Icc (-(k : ℤ)) k,
        L.at (l + k) (m + μ) * starRingEnd ℂ (R.at k μ) else 0) out.lm }

/-- The matrix `D1`, /repo/hotbit/c/multipole.c lines 507-517, before the conjugations. -/
noncomputable def rotE1 (T : Mat) (m n : ℤ) : ℂ :=
  if m = -1 then
    (if n = -1 then (T 1 1 + T 0 0 + I * (T 0 1 - T 1 0)) / 2
    else if n = 0 then (T 0 2 - I * T 1 2) / 2
    else if n = 1 then (T 1 1 - T 0 0 + I * (T 0 1 + T 1 0)) / 2 else 0)
  else if m = 0 then
    (if n = -1 then T 2 0 + I * T 2 1
    else if n = 0 then T 2 2
    else if n = 1 then -T 2 0 + I * T 2 1 else 0)
  else if m = 1 then
    (if n = -1 then (-T 0 0 + T 1 1 - I * (T 0 1 + T 1 0)) / 2
    else if n = 0 then (-T 0 2 - I * T 1 2) / 2
    else if n = 1 then (T 0 0 + T 1 1 - I * (T 0 1 - T 1 0)) / 2 else 0)
  else 0

/-- The matrix `D1`. -/
noncomputable def rotD1 (T : Mat) (m n : ℤ) : ℂ := starRingEnd ℂ (rotE1 T m n)

/-- The macro `a(l,m)`, /repo/hotbit/c/multipole.c line 473. -/
noncomputable def coefA (l m : ℤ) : ℂ := ((l : ℂ) - m + 1) * (l - m) / 2
/-- The macro `b(l,m)`, line 474. -/
noncomputable def coefB (l m : ℤ) : ℂ := ((l : ℂ) + m) * (l - m)
/-- The macro `c(l,m)`, line 475. -/
noncomputable def coefC (l m : ℤ) : ℂ := ((l : ℂ) + m + 1) * (l + m) / 2

/-- The sum in the transformation rules, /repo/hotbit/c/multipole.c lines 534-556: row `i` of `D1`,
row `j` of the previous matrix. -/
noncomputable def rotSum (T : Mat) (l : ℤ) (D : ℤ → ℤ → ℂ) (i j n : ℤ) : ℂ :=
  coefA l (n + 1) * rotD1 T i (-1) * D j (n + 1) + coefB l n * rotD1 T i 0 * D j n
    + coefC l (n - 1) * rotD1 T i 1 * D j (n - 1)

/-- The matrices `D` for `l ≥ 1`, /repo/hotbit/c/multipole.c lines 500-563; zero in the padding. -/
noncomputable def rotD (T : Mat) : ℕ → ℤ → ℤ → ℂ
  | 0 => fun m n => if m = 0 ∧ n = 0 then 1 else 0
  | 1 => rotD1 T
  | k + 2 => fun m n =>
    let l : ℤ := k + 2
    if n < -l ∨ l < n then 0
    else if m = -l then rotSum T l (rotD T (k + 1)) (-1) (-l + 1) n / coefA l (-l + 1)
    else if -l + 1 ≤ m ∧ m ≤ l - 1 then rotSum T l (rotD T (k + 1)) 0 m n / coefB l m
    else if m = l then rotSum T l (rotD T (k + 1)) 1 (l - 1) n / coefC l (l - 1)
    else 0

/-- `matrix_dot_multipole`, /repo/hotbit/c/multipole.c lines 380-428: component `m=0`. -/
noncomputable def matDot0 (l : ℕ) (D : ℤ → ℤ → ℂ) (M : Moments) : ℝ :=
  (D 0 0).re * M.l0 l + ∑ m ∈ Icc 1 l,
    (D 0 m * M.lm (lm2index l m) + D 0 (-(m : ℤ)) * (-1) ^ m * starRingEnd ℂ (M.lm (lm2index l m))).re

/-- `matrix_dot_multipole`, component `n ≥ 1`. -/
noncomputable def matDot (l : ℕ) (D : ℤ → ℤ → ℂ) (M : Moments) (n : ℤ) : ℂ :=
  D n 0 * M.l0 l + ∑ m ∈ Icc 1 l,
    (D n m * M.lm (lm2index l m) + D n (-(m : ℤ)) * (-1) ^ m * starRingEnd ℂ (M.lm (lm2index l m)))

/-- `transform_multipole`, /repo/hotbit/c/multipole.c lines 443-569, into new arrays. -/
noncomputable def transformMoments (T : Mat) (lmax : ℕ) (M : Moments) : Moments :=
  { l0 := storeL0 lmax (fun l => if l = 0 then M.l0 0 else matDot0 l (rotD T l) M) Moments.zero.l0
    lm := storeLM lmax (fun l n => matDot l (rotD T l) M n) Moments.zero.lm }

end Hotbit
