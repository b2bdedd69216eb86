import Verif.Model.Atoms

/-!
# k-point sampling: `States.setup_k_sampling`, `hotbit/states.py:79-175`
-/

namespace Hotbit

open Real

/-- `box/mix.py:201-211`, `divisors(x)`: `[x]` followed by the divisors `i = x//2 .. 1`. -/
def divisors (x : ℤ) : List ℤ :=
  x :: (((List.range (x / 2).toNat).map fun j : ℕ => x / 2 - (j : ℤ)).filter fun i => x % i = 0)

/-- `np.linspace(a,b,n)`; a single point is the start. -/
noncomputable def linspace (a b : ℝ) (n : ℕ) : List ℝ :=
  (List.range n).map fun j : ℕ => if n = 1 then a else a + (j : ℝ) * ((b - a) / ((n : ℝ) - 1))

/-- One direction of the mesh, `states.py:104-120`; `M = none` is `np.Inf`. `np.linspace` raises
`ValueError` for a negative number of points. -/
noncomputable def kLine (M : Option ℤ) (n : ℤ) (physical : Bool) : Except Exn (List ℝ) :=
  match M with
  | none =>
    if n < 0 then .error .valueError
    else .ok (linspace (-π + 2 * π / n / 2) (π - 2 * π / n / 2) n.toNat)
  | some m =>
    if n ∉ divisors m ∧ physical = true then .error .warning
    else if n < 0 then .error .valueError
    else .ok (linspace 0 (2 * π - 2 * π / n) n.toNat)

/-- `1.0*np.dot(n,newk)`. -/
noncomputable def dotOp (n : Op) (k : Vec) : ℝ := n 0 * k 0 + n 1 * k 1 + n 2 * k 2

/-- The loop over equivalent operations, `states.py:131-139`. `M[i]=np.Inf` gives `x/Inf = 0`. -/
noncomputable def applyEquivalent (table : Fin 3 → TableEntry) (M : Fin 3 → Option ℤ) :
    List (Fin 3) → Bool → Vec → Except Exn Vec
  | [], _, k => .ok k
  | i :: is, one, k =>
    match (table i).equivalent with
    | none => applyEquivalent table M is one k
    | some n =>
      if one then .error .notImplementedError
      else if n i ≠ 0 then .error .assertionError
      else
        let shift := match M i with
          | none => 0
          | some m => dotOp n k / m
        applyEquivalent table M is true (Function.update k i (k i + shift))

/-- The three nested loops over mesh points, `states.py:126-129`. -/
def meshPoints (a b c : List ℝ) : List Vec :=
  a.flatMap fun x => b.flatMap fun y => c.map fun z => ![x, y, z]

open Classical in
/-- Merging a mesh point with already kept points, `states.py:142-152`. -/
noncomputable def mergePoint (w : ℝ) (acc : List (Vec × ℝ)) (p : Vec) : List (Vec × ℝ) :=
  if acc.any (fun q => decide (norm3 (q.1 + p) < 1e-10)) then
    acc.map fun q => if norm3 (q.1 + p) < 1e-10 then (q.1, q.2 + w) else q
  else acc ++ [(p, w)]

/-- The `kpts` argument: a 3-tuple of counts or a list of explicit k-points. -/
inductive KSpec
  | tuple (n : Fin 3 → ℤ)
  | list (l : List Vec)

/-- Result: k-points with weights (`k`, `wk`) and the one-dimensional lists `kl`. -/
structure KSampling where
  points : List (Vec × ℝ)
  kl : Option (Fin 3 → List ℝ)

/-- `container.get_table()`: the Slab class has no such method (`slab.py`), the call in
`states.py:97` raises `AttributeError`. -/
noncomputable def Atoms.getTable (A : Atoms) : Except Exn (Fin 3 → TableEntry) :=
  if A.ctype = .slab then .error .attributeError else .ok A.table

/-- `k_to_kappa_points`, `auxil.py:4-18`. -/
noncomputable def kToKappa (A : Atoms) (l : List Vec) : Except Exn (List Vec) :=
  if A.ctype ≠ .bravais then .error .assertionError
  else .ok (l.map fun k => A.cell.mulVec k)

open Classical in
/-- Final consistency check, `states.py:170-173`. -/
noncomputable def kCheck (A : Atoms) (pts : List (Vec × ℝ)) : Except Exn Unit :=
  if ∃ i : Fin 3, ∃ p ∈ pts, p.1 i > 1e-10 ∧ A.pbc i = false then .error .assertionError else .ok ()

/-- The tuple branch, `states.py:96-155`. -/
noncomputable def kMesh (A : Atoms) (n : Fin 3 → ℤ) (physical : Bool) : Except Exn KSampling := do
  let M := A.numberOfTransformations
  let table ← A.getTable
  if n 0 = 0 ∨ n 1 = 0 ∨ n 2 = 0 then throw .assertionError
  let a ← kLine (M 0) (n 0) physical
  let b ← kLine (M 1) (n 1) physical
  let c ← kLine (M 2) (n 2) physical
  let nk0 : ℝ := (n 0 * n 1 * n 2 : ℤ)
  let mesh ← (meshPoints a b c).mapM (applyEquivalent table M [0, 1, 2] false)
  return { points := mesh.foldl (mergePoint (1 / nk0)) [], kl := some ![a, b, c] }

/-- `len(kpts)==1 or isinstance(kpts,tuple) and kpts!=(1,1,1)`, `states.py:92`. -/
def kGuard : KSpec → Prop
  | .tuple n => n ≠ ![1, 1, 1]
  | .list l => l.length = 1

/-- The two branches, `states.py:96-167`; `rsK` is `rs=='k'`. -/
noncomputable def kRaw (A : Atoms) (kpts : KSpec) (physical rsK : Bool) : Except Exn KSampling :=
  match kpts with
  | .tuple n => kMesh A n physical
  | .list l => do
    let k ← if rsK then kToKappa A l else pure l
    pure { points := k.map fun x => (x, 1 / (l.length : ℝ)), kl := none }

open Classical in
/-- `setup_k_sampling(kpts,physical,rs)`, `states.py:79-175`. -/
noncomputable def setupKSampling (A : Atoms) (width : ℝ) (kpts : KSpec) (physical rsK : Bool) :
    Except Exn KSampling :=
  if kGuard kpts ∧ width < 1e-10 then .error .assertionError
  else do
    let s ← kRaw A kpts physical rsK
    kCheck A s.points
    return s

end Hotbit
