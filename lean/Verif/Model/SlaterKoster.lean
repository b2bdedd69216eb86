import Verif.Model.Basic
import Mathlib.Analysis.SpecialFunctions.Pow.Real
import Mathlib.Algebra.BigOperators.Fin

/-!
# Slater–Koster transformation rules

Models `/repo/hotbit/c/slako.c` (`fast_slako_transformations`, the routine called by
`Interactions.get_matrices`) together with its Python twin
`/repo/hotbit/interactions.py` lines 493-768 (`slako_transformations`).
Floats are exact reals; uninitialised C stack memory is an arbitrary parameter (`junk`).
Orbital order: s, px, py, pz, dxy, dyz, dzx, dx2-y2, d3z2-r2.
-/

namespace Hotbit

/-- The assignments `mat[a][b][k] = …` for `a ≤ b`, /repo/hotbit/c/slako.c lines 99-521
(identical entry by entry to /repo/hotbit/interactions.py lines 521-731).
Entries that the C code never assigns are `0` here; `skCell` below replaces them by arbitrary
stack contents. -/
noncomputable def skMatUp (s3 l m n ll mm nn : ℝ) : Fin 9 → Fin 9 → Fin 3 → ℝ :=
  ![
    ![![1, 0, 0],
      ![l, 0, 0],
      ![m, 0, 0],
      ![n, 0, 0],
      ![s3*l*m, 0, 0],
      ![s3*m*n, 0, 0],
      ![s3*n*l, 0, 0],
      ![(1/2)*s3*(ll-mm), 0, 0],
      ![nn-(1/2)*(ll+mm), 0, 0]],
    ![![0, 0, 0],
      ![ll, 1-ll, 0],
      ![l*m, -l*m, 0],
      ![l*n, -l*n, 0],
      ![s3*ll*m, m*(1-2*ll), 0],
      ![s3*l*m*n, -2*l*m*n, 0],
      ![s3*ll*n, n*(1-2*ll), 0],
      ![(1/2)*s3*l*(ll-mm), l*(1-ll+mm), 0],
      ![l*(nn-(1/2)*(ll+mm)), -s3*l*nn, 0]],
    ![![0, 0, 0],
      ![0, 0, 0],
      ![mm, 1-mm, 0],
      ![m*n, -m*n, 0],
      ![s3*mm*l, l*(1-2*mm), 0],
      ![s3*mm*n, n*(1-2*mm), 0],
      ![s3*m*n*l, -2*m*n*l, 0],
      ![(1/2)*s3*m*(ll-mm), -m*(1+ll-mm), 0],
      ![m*(nn-(1/2)*(ll+mm)), -s3*m*nn, 0]],
    ![![0, 0, 0],
      ![0, 0, 0],
      ![0, 0, 0],
      ![nn, 1-nn, 0],
      ![s3*l*m*n, -2*m*n*l, 0],
      ![s3*nn*m, m*(1-2*nn), 0],
      ![s3*nn*l, l*(1-2*nn), 0],
      ![(1/2)*s3*n*(ll-mm), -n*(ll-mm), 0],
      ![n*(nn-(1/2)*(ll+mm)), s3*n*(ll+mm), 0]],
    ![![0, 0, 0],
      ![0, 0, 0],
      ![0, 0, 0],
      ![0, 0, 0],
      ![3*ll*mm, ll+mm-4*ll*mm, nn+ll*mm],
      ![3*l*mm*n, l*n*(1-4*mm), l*n*(mm-1)],
      ![3*ll*m*n, m*n*(1-4*ll), m*n*(ll-1)],
      ![(3/2)*l*m*(ll-mm), 2*l*m*(mm-ll), (1/2)*l*m*(ll-mm)],
      ![s3*l*m*(nn-(1/2)*(ll+mm)), -2*s3*l*m*nn, (1/2)*s3*l*m*(1+nn)]],
    ![![0, 0, 0],
      ![0, 0, 0],
      ![0, 0, 0],
      ![0, 0, 0],
      ![0, 0, 0],
      ![3*mm*nn, (mm+nn-4*mm*nn), (ll+mm*nn)],
      ![3*m*nn*l, m*l*(1-4*nn), m*l*(nn-1)],
      ![(3/2)*m*n*(ll-mm), -m*n*(1+2*(ll-mm)), m*n*(1+(1/2)*(ll-mm))],
      ![s3*m*n*(nn-(1/2)*(ll+mm)), s3*m*n*(ll+mm-nn), -(1/2)*s3*m*n*(ll+mm)]],
    ![![0, 0, 0],
      ![0, 0, 0],
      ![0, 0, 0],
      ![0, 0, 0],
      ![0, 0, 0],
      ![0, 0, 0],
      ![3*nn*ll, (nn+ll-4*nn*ll), (mm+nn*ll)],
      ![(3/2)*n*l*(ll-mm), n*l*(1-2*(ll-mm)), -n*l*(1-(1/2)*(ll-mm))],
      ![s3*l*n*(nn-(1/2)*(ll+mm)), s3*l*n*(ll+mm-nn), -(1/2)*s3*l*n*(ll+mm)]],
    ![![0, 0, 0],
      ![0, 0, 0],
      ![0, 0, 0],
      ![0, 0, 0],
      ![0, 0, 0],
      ![0, 0, 0],
      ![0, 0, 0],
      ![(3/4)*(ll-mm)^2, (ll+mm-(ll-mm)^2), (nn+(1/4)*(ll-mm)^2)],
      ![(1/2)*s3*(ll-mm)*(nn-(1/2)*(ll+mm)), s3*nn*(mm-ll), (1/4)*s3*(1+nn)*(ll-mm)]],
    ![![0, 0, 0],
      ![0, 0, 0],
      ![0, 0, 0],
      ![0, 0, 0],
      ![0, 0, 0],
      ![0, 0, 0],
      ![0, 0, 0],
      ![0, 0, 0],
      ![(nn-(1/2)*(ll+mm))^2, 3*nn*(ll+mm), (3/4)*(ll+mm)^2]]]

/-- The assignments `der[a][b][k][i] = …` for `a ≤ b`, /repo/hotbit/c/slako.c lines 99-521,
for one Cartesian component `i` (`dl` stands for `dl[i]` and so on). -/
noncomputable def skDerUp (s3 l m n ll mm nn dl dm dn dll dmm dnn : ℝ) : Fin 9 → Fin 9 → Fin 3 → ℝ :=
  ![
    ![![0, 0, 0],
      ![dl, 0, 0],
      ![dm, 0, 0],
      ![dn, 0, 0],
      ![s3*(dl*m+l*dm), 0, 0],
      ![s3*(dm*n+m*dn), 0, 0],
      ![s3*(dn*l+n*dl), 0, 0],
      ![(1/2)*s3*(dll-dmm), 0, 0],
      ![dnn-(1/2)*(dll+dmm), 0, 0]],
    ![![0, 0, 0],
      ![dll, -dll, 0],
      ![dl*m+l*dm, -(dl*m+l*dm), 0],
      ![dl*n+l*dn, -(dl*n+l*dn), 0],
      ![s3*(dll*m+ll*dm), dm*(1-2*ll)+m*(-2*dll), 0],
      ![s3*(dl*m*n+l*dm*n+l*m*dn), -2*(dl*m*n+l*dm*n+l*m*dn), 0],
      ![s3*(dll*n+ll*dn), dn*(1-2*ll)+n*(-2*dll), 0],
      ![(1/2)*s3*(dl*(ll-mm)+l*(dll-dmm)), dl*(1-ll+mm)+l*(-dll+dmm), 0],
      ![dl*(nn-(1/2)*(ll+mm))+l*(dnn-(1/2)*(dll+dmm)), -s3*(dl*nn+l*dnn), 0]],
    ![![0, 0, 0],
      ![0, 0, 0],
      ![dmm, -dmm, 0],
      ![dm*n+m*dn, -(dm*n+m*dn), 0],
      ![s3*(dmm*l+mm*dl), dl*(1-2*mm)+l*(-2*dmm), 0],
      ![s3*(dmm*n+mm*dn), dn*(1-2*mm)+n*(-2*dmm), 0],
      ![s3*(dm*n*l+m*dn*l+m*n*dl), -2*(dm*n*l+m*dn*l+m*n*dl), 0],
      ![(1/2)*s3*(dm*(ll-mm)+m*(dll-dmm)), -(dm*(1+ll-mm)+m*(dll-dmm)), 0],
      ![dm*(nn-(1/2)*(ll+mm))+m*(dnn-(1/2)*(dll+dmm)), -s3*(dm*nn+m*dnn), 0]],
    ![![0, 0, 0],
      ![0, 0, 0],
      ![0, 0, 0],
      ![dnn, -dnn, 0],
      ![s3*(dl*m*n+l*dm*n+l*m*dn), -2*(dm*n*l+m*dn*l+m*n*dl), 0],
      ![s3*(dnn*m+nn*dm), dm*(1-2*nn)+m*(-2*dnn), 0],
      ![s3*(dnn*l+nn*dl), dl*(1-2*nn)+l*(-2*dnn), 0],
      ![(1/2)*s3*(dn*(ll-mm)+n*(dll-dmm)), -(dn*(ll-mm)+n*(dll-dmm)), 0],
      ![dn*(nn-(1/2)*(ll+mm))+n*(dnn-(1/2)*(dll+dmm)), s3*(dn*(ll+mm)+n*(dll+dmm)), 0]],
    ![![0, 0, 0],
      ![0, 0, 0],
      ![0, 0, 0],
      ![0, 0, 0],
      ![3*(dll*mm+ll*dmm), dll+dmm-4*(dll*mm+ll*dmm), dnn+(dll*mm+ll*dmm)],
      ![3*(dl*mm*n+l*dmm*n+l*mm*dn), dl*n*(1-4*mm)+l*dn*(1-4*mm)+l*n*(-4*dmm), dl*n*(mm-1)+l*dn*(mm-1)+l*n*(dmm)],
      ![3*(dll*m*n+ll*dm*n+ll*m*dn), dm*n*(1-4*ll)+m*dn*(1-4*ll)+m*n*(-4*dll), dm*n*(ll-1)+m*dn*(ll-1)+m*n*(dll)],
      ![(3/2)*(dl*m*(ll-mm)+l*dm*(ll-mm)+l*m*(dll-dmm)), 2*(dl*m*(mm-ll)+l*dm*(mm-ll)+l*m*(dmm-dll)), (1/2)*(dl*m*(ll-mm)+l*dm*(ll-mm)+l*m*(dll-dmm))],
      ![s3*(dl*m*(nn-(1/2)*(ll+mm))+l*dm*(nn-(1/2)*(ll+mm))+l*m*(dnn-(1/2)*(dll+dmm))), -2*s3*(dl*m*nn+l*dm*nn+l*m*dnn), (1/2)*s3*(dl*m*(1+nn)+l*dm*(1+nn)+l*m*(dnn))]],
    ![![0, 0, 0],
      ![0, 0, 0],
      ![0, 0, 0],
      ![0, 0, 0],
      ![0, 0, 0],
      ![3*(dmm*nn+mm*dnn), (dmm+dnn-4*(dmm*nn+mm*dnn)), (dll+dmm*nn+mm*dnn)],
      ![3*(dm*nn*l+m*dnn*l+m*nn*dl), dm*l*(1-4*nn)+m*dl*(1-4*nn)+m*l*(-4*dnn), dm*l*(nn-1)+m*dl*(nn-1)+m*l*(dnn)],
      ![(3/2)*(dm*n*(ll-mm)+m*dn*(ll-mm)+m*n*(dll-dmm)), -(dm*n*(1+2*(ll-mm))+m*dn*(1+2*(ll-mm))+m*n*(2*dll-2*dmm)), dm*n*(1+(1/2)*(ll-mm))+m*dn*(1+(1/2)*(ll-mm))+m*n*((1/2)*(dll-dmm))],
      ![s3*(dm*n*(nn-(1/2)*(ll+mm))+m*dn*(nn-(1/2)*(ll+mm))+m*n*(dnn-(1/2)*(dll+dmm))), s3*(dm*n*(ll+mm-nn)+m*dn*(ll+mm-nn)+m*n*(dll+dmm-dnn)), -(1/2)*s3*(dm*n*(ll+mm)+m*dn*(ll+mm)+m*n*(dll+dmm))]],
    ![![0, 0, 0],
      ![0, 0, 0],
      ![0, 0, 0],
      ![0, 0, 0],
      ![0, 0, 0],
      ![0, 0, 0],
      ![3*(dnn*ll+nn*dll), dnn+dll-4*(dnn*ll+nn*dll), (dmm+dnn*ll+nn*dll)],
      ![(3/2)*(dn*l*(ll-mm)+n*dl*(ll-mm)+n*l*(dll-dmm)), dn*l*(1-2*(ll-mm))+n*dl*(1-2*(ll-mm))+n*l*(-2*(dll-dmm)), -(dn*l*(1-(1/2)*(ll-mm))+n*dl*(1-(1/2)*(ll-mm))+n*l*(-(1/2)*(dll-dmm)))],
      ![s3*(dl*n*(nn-(1/2)*(ll+mm))+l*dn*(nn-(1/2)*(ll+mm))+l*n*(dnn-(1/2)*(dll+dmm))), s3*(dl*n*(ll+mm-nn)+l*dn*(ll+mm-nn)+l*n*(dll+dmm-dnn)), -(1/2)*s3*(dl*n*(ll+mm)+l*dn*(ll+mm)+l*n*(dll+dmm))]],
    ![![0, 0, 0],
      ![0, 0, 0],
      ![0, 0, 0],
      ![0, 0, 0],
      ![0, 0, 0],
      ![0, 0, 0],
      ![0, 0, 0],
      ![(3/4)*2*(ll-mm)*(dll-dmm), (dll+dmm-2*(ll-mm)*(dll-dmm)), (dnn+(1/4)*2*(ll-mm)*(dll-dmm))],
      ![(1/2)*s3*((dll-dmm)*(nn-(1/2)*(ll+mm))+(ll-mm)*(dnn-(1/2)*(dll+dmm))), s3*(dnn*(mm-ll)+nn*(dmm-dll)), (1/4)*s3*(dnn*(ll-mm)+(1+nn)*(dll-dmm))]],
    ![![0, 0, 0],
      ![0, 0, 0],
      ![0, 0, 0],
      ![0, 0, 0],
      ![0, 0, 0],
      ![0, 0, 0],
      ![0, 0, 0],
      ![0, 0, 0],
      ![2*(nn-(1/2)*(ll+mm))*(dnn-(1/2)*(dll+dmm)), 3*(dnn*(ll+mm)+nn*(dll+dmm)), (3/4)*2*(ll+mm)*(dll+dmm)]]]

/-- The assignments `ind[a][b][k] = …` for `a ≤ b`, /repo/hotbit/c/slako.c lines 99-521. -/
def skIndUp : Fin 9 → Fin 9 → Fin 3 → Fin 14 :=
  ![  ![![9, 0, 0], ![8, 0, 0], ![8, 0, 0], ![8, 0, 0], ![7, 0, 0], ![7, 0, 0], ![7, 0, 0], ![7, 0, 0], ![7, 0, 0]],
    ![![0, 0, 0], ![5, 6, 0], ![5, 6, 0], ![5, 6, 0], ![3, 4, 0], ![3, 4, 0], ![3, 4, 0], ![3, 4, 0], ![3, 4, 0]],
    ![![0, 0, 0], ![0, 0, 0], ![5, 6, 0], ![5, 6, 0], ![3, 4, 0], ![3, 4, 0], ![3, 4, 0], ![3, 4, 0], ![3, 4, 0]],
    ![![0, 0, 0], ![0, 0, 0], ![0, 0, 0], ![5, 6, 0], ![3, 4, 0], ![3, 4, 0], ![3, 4, 0], ![3, 4, 0], ![3, 4, 0]],
    ![![0, 0, 0], ![0, 0, 0], ![0, 0, 0], ![0, 0, 0], ![0, 1, 2], ![0, 1, 2], ![0, 1, 2], ![0, 1, 2], ![0, 1, 2]],
    ![![0, 0, 0], ![0, 0, 0], ![0, 0, 0], ![0, 0, 0], ![0, 0, 0], ![0, 1, 2], ![0, 1, 2], ![0, 1, 2], ![0, 1, 2]],
    ![![0, 0, 0], ![0, 0, 0], ![0, 0, 0], ![0, 0, 0], ![0, 0, 0], ![0, 0, 0], ![0, 1, 2], ![0, 1, 2], ![0, 1, 2]],
    ![![0, 0, 0], ![0, 0, 0], ![0, 0, 0], ![0, 0, 0], ![0, 0, 0], ![0, 0, 0], ![0, 0, 0], ![0, 1, 2], ![0, 1, 2]],
    ![![0, 0, 0], ![0, 0, 0], ![0, 0, 0], ![0, 0, 0], ![0, 0, 0], ![0, 0, 0], ![0, 0, 0], ![0, 0, 0], ![0, 1, 2]]]

/-- `cnt[i][j]`: how many integrals enter an element, /repo/hotbit/c/slako.c lines 79-91
(`cnt` in /repo/hotbit/interactions.py lines 509-511). -/
def skCnt (i j : Fin 9) : ℕ :=
  if 4 ≤ i.val ∧ 4 ≤ j.val then 3
  else if 1 ≤ i.val ∧ 1 ≤ j.val then 2
  else 1

/-- Whether the `if (maxorb >= …)` guards let the code assign cell `[a][b]`, `a ≤ b`:
/repo/hotbit/c/slako.c lines 99-522. -/
def skGuard (maxorb : ℕ) (b : Fin 9) : Prop :=
  b.val = 0 ∨ (b.val ≤ 3 ∧ 2 ≤ maxorb) ∨ (4 ≤ b.val ∧ 5 ≤ maxorb)

open Classical in
/-- Contents of a table cell after the assignments (`a ≤ b`), `junk` where nothing was written. -/
noncomputable def skUpper {α : Type} (up junk : Fin 9 → Fin 9 → Fin 3 → α) (maxorb : ℕ)
    (a b : Fin 9) (k : Fin 3) : α :=
  if skGuard maxorb b ∧ k.val < skCnt a b then up a b k else junk a b k

open Classical in
/-- Contents of a table cell after the mirroring loop, /repo/hotbit/c/slako.c lines 524-536. -/
noncomputable def skCell {α : Type} (up junk : Fin 9 → Fin 9 → Fin 3 → α) (maxorb : ℕ)
    (a b : Fin 9) (k : Fin 3) : α :=
  if a ≤ b then skUpper up junk maxorb a b k
  else if a.val < maxorb then skUpper up junk maxorb b a k
  else junk a b k

/-- The table index of an element after the final reassignments for reversed orbital order,
/repo/hotbit/c/slako.c lines 538-568. -/
noncomputable def skInd (junk : Fin 9 → Fin 9 → Fin 3 → Fin 14) (maxorb : ℕ)
    (a b : Fin 9) (k : Fin 3) : Fin 14 :=
  if b.val = 0 ∧ k.val = 0 ∧ 1 ≤ a.val ∧ a.val ≤ 3 then 13
  else if b.val = 0 ∧ k.val = 0 ∧ 4 ≤ a.val then 12
  else if 1 ≤ b.val ∧ b.val ≤ 3 ∧ 4 ≤ a.val ∧ k.val = 0 then 10
  else if 1 ≤ b.val ∧ b.val ≤ 3 ∧ 4 ≤ a.val ∧ k.val = 1 then 11
  else skCell skIndUp junk maxorb a b k

/-- Uninitialised stack memory of one call. -/
structure SkJunk where
  mat : Fin 9 → Fin 9 → Fin 3 → ℝ
  der : Fin 3 → Fin 9 → Fin 9 → Fin 3 → ℝ
  ind : Fin 9 → Fin 9 → Fin 3 → Fin 14

/-- `mat[i][j][b]` as read by the final loop. -/
noncomputable def skMat (J : SkJunk) (maxorb : ℕ) (r : Vec) : Fin 9 → Fin 9 → Fin 3 → ℝ :=
  skCell (skMatUp (Real.sqrt 3) (r 0) (r 1) (r 2) (r 0 * r 0) (r 1 * r 1) (r 2 * r 2))
    J.mat maxorb

/-- `dl[i]`, `dm[i]`, `dn[i]`: /repo/hotbit/c/slako.c lines 51-53 and 69-77;
`c` selects `l`, `m` or `n`. -/
noncomputable def skDcos (r : Vec) (dist : ℝ) (c i : Fin 3) : ℝ :=
  ((if c = i then 1 else 0) - r c * r i) / dist

/-- `der[i][j][b][c]` as read by the final loop. -/
noncomputable def skDer (J : SkJunk) (maxorb : ℕ) (r : Vec) (dist : ℝ) (c : Fin 3) :
    Fin 9 → Fin 9 → Fin 3 → ℝ :=
  skCell (skDerUp (Real.sqrt 3) (r 0) (r 1) (r 2) (r 0 * r 0) (r 1 * r 1) (r 2 * r 2)
      (skDcos r dist 0 c) (skDcos r dist 1 c) (skDcos r dist 2 c)
      (2 * r 0 * skDcos r dist 0 c) (2 * r 1 * skDcos r dist 1 c) (2 * r 2 * skDcos r dist 2 c))
    (J.der c) maxorb

open Classical in
/-- `ht[i,j]` (or `st[i,j]`): the loop of /repo/hotbit/c/slako.c lines 570-595. -/
noncomputable def skElem (J : SkJunk) (noi noj : ℕ) (r : Vec) (h : Fin 14 → ℝ)
    (i j : Fin 9) : ℝ :=
  ∑ b : Fin 3, if b.val < skCnt i j then
    skMat J (max noi noj) r i j b * h (skInd J.ind (max noi noj) i j b) else 0

open Classical in
/-- `dht[i,j,a]` (or `dst[i,j,a]`): the loop of /repo/hotbit/c/slako.c lines 570-595. -/
noncomputable def skDElem (J : SkJunk) (noi noj : ℕ) (r : Vec) (dist : ℝ) (h : Fin 14 → ℝ)
    (dh : Fin 14 → Fin 3 → ℝ) (i j : Fin 9) (a : Fin 3) : ℝ :=
  ∑ b : Fin 3, if b.val < skCnt i j then
    skMat J (max noi noj) r i j b * dh (skInd J.ind (max noi noj) i j b) a
      + skDer J (max noi noj) r dist a i j b * h (skInd J.ind (max noi noj) i j b) else 0

/-- The arrays returned by one call: `ht` and `dht` (the overlap arrays `st`, `dst` are computed
by the same loop from `s`, `ds`).  Only elements `i < noi`, `j < noj` exist. -/
structure SkOut where
  ht : Fin 9 → Fin 9 → ℝ
  dht : Fin 9 → Fin 9 → Fin 3 → ℝ

/-- `py_fast_slako_transformations`, /repo/hotbit/c/slako.c lines 600-687: argument check and
call (array shape checks omitted: shapes are fixed by the types). -/
noncomputable def fastSlako (J : SkJunk) (noi noj : ℕ) (r : Vec) (dist : ℝ) (h : Fin 14 → ℝ)
    (dh : Fin 14 → Fin 3 → ℝ) : Except Exn SkOut :=
  if noi ≠ 1 ∧ noi ≠ 4 ∧ noi ≠ 9 then .error .runtimeError
  else if noj ≠ 1 ∧ noj ≠ 4 ∧ noj ≠ 9 then .error .runtimeError
  else .ok { ht := skElem J noi noj r h, dht := skDElem J noi noj r dist h dh }

/-- The dictionary `integrals` of /repo/hotbit/interactions.py lines 25-26, keyed by the angular
momenta of the two orbitals (s=0, p=1, d=2) and the bond type (sigma=0, pi=1, delta=2). -/
def skIntegralIndex : ℕ → ℕ → Fin 3 → Fin 14
  | 2, 2, 0 => 0
  | 2, 2, 1 => 1
  | 2, 2, 2 => 2
  | 1, 2, 0 => 3
  | 1, 2, 1 => 4
  | 1, 1, 0 => 5
  | 1, 1, 1 => 6
  | 0, 2, 0 => 7
  | 0, 1, 0 => 8
  | 0, 0, 0 => 9
  | 2, 1, 0 => 10
  | 2, 1, 1 => 11
  | 2, 0, 0 => 12
  | 1, 0, 0 => 13
  | _, _, _ => 0

end Hotbit
