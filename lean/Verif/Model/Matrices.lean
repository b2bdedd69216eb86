import Verif.Model.SlaterKoster
import Verif.Model.OrbitalRotation
import Mathlib.Analysis.SpecialFunctions.Exp
import Mathlib.Analysis.Complex.Basic

/-!
# Construction of the Hamiltonian and overlap matrices

Models `/repo/hotbit/interactions.py` lines 277-419 (`Interactions.get_matrices`) and the image
selection of `/repo/hotbit/elements.py` lines 176-265 (`Elements.update_geometry`).

Simplifications: the matrices are indexed by (atom, local orbital) instead of the running orbital
index (the correspondence is C23); one k-point is treated at a time, since numpy applies the same
operation to every entry of the leading k axis; the 14-vectors filled by
`h.fill(0); h[indices] = …` are the values of the table functions; timers and messages are left
out.
-/

namespace Hotbit

open Matrix

/-- One two-centre table, `self.h[si+sj]` and `self.s[si+sj]`: range of the h table and the 14
integrals with their radial derivatives, zero where the table has no function. -/
structure SkTable where
  r1 : ℝ
  r2 : ℝ
  h : ℝ → Fin 14 → ℝ
  s : ℝ → Fin 14 → ℝ
  dh : ℝ → Fin 14 → ℝ
  ds : ℝ → Fin 14 → ℝ

/-- What `get_matrices` reads from the other objects. -/
structure MatIn where
  /-- number of atoms -/
  N : ℕ
  /-- number of orbitals of an atom -/
  no : ℕ → ℕ
  /-- on-site energies -/
  eps : ℕ → Fin 9 → ℝ
  sym : ℕ → String
  /-- the parameter `sepsilon` -/
  seps : ℝ
  /-- `el.ntuples`, the identity first -/
  ntuples : List Op
  /-- `el.rotation(n)` -/
  rot : Op → Mat
  /-- `el.rotation(n,angles=True)` -/
  angles : Op → Except Exn (ℝ × ℝ × ℝ)
  /-- `el.Rn[n,j]`, image position of atom `j` in Bohr -/
  pos : Op → ℕ → Vec
  tab : String → String → SkTable
  /-- uninitialised memory of the C routine -/
  J : SkJunk

/-- A block structured complex matrix. -/
abbrev BMat := ℕ → ℕ → Fin 9 → Fin 9 → ℂ

/-- The four arrays under construction. -/
structure MatSt where
  H0 : BMat
  S : BMat
  dH0 : Fin 3 → BMat
  dS : Fin 3 → BMat

/-- `np.zeros`: lines 298-301. -/
def MatSt.zero : MatSt := ⟨fun _ _ _ _ => 0, fun _ _ _ _ => 0, fun _ _ _ _ _ => 0, fun _ _ _ _ _ => 0⟩

/-- `X[:,a:b,c:d] += B` for the block of atoms `i`, `j`. -/
noncomputable def BMat.addBlock (X : BMat) (I : MatIn) (i j : ℕ) (B : Fin 9 → Fin 9 → ℂ) : BMat :=
  fun a b p q => if a = i ∧ b = j ∧ p.val < I.no i ∧ q.val < I.no j then X a b p q + B p q
    else X a b p q

/-- `X[:,c:d,a:b] = X[:,a:b,c:d].transpose((0,2,1)).conjugate()`. -/
noncomputable def BMat.mirror (X : BMat) (i j : ℕ) : BMat :=
  fun a b p q => if a = j ∧ b = i then starRingEnd ℂ (X i j q p) else X a b p q

/-- Setting the on-site energies: lines 324-327. -/
noncomputable def onSite (I : MatIn) (i : ℕ) (st : MatSt) : MatSt :=
  { st with
    H0 := fun a b p q => if a = i ∧ b = i ∧ p = q ∧ p.val < I.no i then (I.eps i p : ℂ) else st.H0 a b p q
    S := fun a b p q => if a = i ∧ b = i ∧ p = q ∧ p.val < I.no i then ((1 + I.seps : ℝ) : ℂ)
      else st.S a b p q }

/-- `np.exp(1j*np.dot(nt,k))`: lines 310-312. -/
noncomputable def blochPhase (k : Vec) (n : Op) : ℂ :=
  Complex.exp (Complex.I * ((∑ c, (n c : ℝ) * k c : ℝ) : ℂ))

/-- `rijn[n,i,j] = Rn[n,j]-Rn[0,i]`: /repo/hotbit/elements.py lines 230-238. -/
def MatIn.rij (I : MatIn) (n : Op) (i j : ℕ) : Vec := I.pos n j - I.pos 0 i

/-- `dot(ht,DT[0:noj,0:noj])`: line 366. -/
noncomputable def dotDT (noj : ℕ) (B : Fin 9 → Fin 9 → ℝ) (DT : Matrix (Fin 9) (Fin 9) ℝ) :
    Fin 9 → Fin 9 → ℝ :=
  fun p q => ∑ x ∈ Finset.univ.filter (fun x : Fin 9 => x.val < noj), B p x * DT x q

/-- `dot(dht,Rot)`: line 392. -/
def dotRot (B : Fin 3 → Fin 9 → Fin 9 → ℝ) (R : Mat) : Fin 3 → Fin 9 → Fin 9 → ℝ :=
  fun c p q => ∑ d, B d p q * R d c

/-- Slater-Koster block and its derivatives for one pair and image: lines 352-370, as the value of
the C routine multiplied by the orbital rotation. -/
noncomputable def slakoPair (I : MatIn) (i j : ℕ) (r : Vec) (d : ℝ) (DT : Matrix (Fin 9) (Fin 9) ℝ)
    (h dh : Fin 14 → ℝ) :
    Except Exn ((Fin 9 → Fin 9 → ℝ) × (Fin 3 → Fin 9 → Fin 9 → ℝ)) := do
  let o ← fastSlako I.J (I.no i) (I.no j) (d⁻¹ • r) d h (fun k c => dh k * (d⁻¹ • r) c)
  return (dotDT (I.no j) o.ht DT, fun c => dotDT (I.no j) (fun p q => o.dht p q c) DT)

/-- Adding the blocks of one image: lines 373-396. -/
noncomputable def addImage (I : MatIn) (k : Vec) (i j : ℕ) (n : Op)
    (hb sb : (Fin 9 → Fin 9 → ℝ) × (Fin 3 → Fin 9 → Fin 9 → ℝ)) (st : MatSt) : MatSt :=
  let ph := blochPhase k n
  let st1 : MatSt :=
    { H0 := st.H0.addBlock I i j fun p q => ph * (hb.1 p q : ℂ)
      S := st.S.addBlock I i j fun p q => ph * (sb.1 p q : ℂ)
      dH0 := fun c => (st.dH0 c).addBlock I i j fun p q => ph * ((-hb.2 c p q : ℝ) : ℂ)
      dS := fun c => (st.dS c).addBlock I i j fun p q => ph * ((-sb.2 c p q : ℝ) : ℂ) }
  if i ≠ j then
    { st1 with
      dH0 := fun c => (st1.dH0 c).addBlock I j i fun p q =>
        starRingEnd ℂ (ph * (dotRot hb.2 (I.rot n) c q p : ℂ))
      dS := fun c => (st1.dS c).addBlock I j i fun p q =>
        starRingEnd ℂ (ph * (dotRot sb.2 (I.rot n) c q p : ℂ)) }
  else st1

open Classical in
/-- Body of the loop over images: lines 334-396; the flag is `ij_interact`, `m` is the position of
the operation in the list. -/
noncomputable def imageStep (I : MatIn) (k : Vec) (i j : ℕ) (st : MatSt × Bool)
    (im : (Op × Matrix (Fin 9) (Fin 9) ℝ) × ℕ) : Except Exn (MatSt × Bool) :=
  if i = j ∧ im.2 = 0 then .ok st
  else
    let r := I.rij im.1.1 i j
    let d := norm3 r
    if d < 0.1 then .error .assertionError
    else if ¬ d > 0.1 then .error .assertionError
    else
      let t := I.tab (I.sym i) (I.sym j)
      if ¬ (t.r1 ≤ d ∧ d ≤ t.r2) then .ok st
      else do
        let hb ← slakoPair I i j r d im.1.2 (t.h d) (t.dh d)
        let sb ← slakoPair I i j r d im.1.2 (t.s d) (t.ds d)
        return (addImage I k i j im.1.1 hb sb st.1, true)

open Classical in
/-- Body of the loop over `j`: lines 328-407. -/
noncomputable def pairStep (I : MatIn) (k : Vec) (ims : List ((Op × Matrix (Fin 9) (Fin 9) ℝ) × ℕ))
    (i : ℕ) (st : MatSt) (j : ℕ) : Except Exn MatSt := do
  let r ← ims.foldlM (imageStep I k i j) (st, false)
  if i ≠ j ∧ r.2 = true then
    return { r.1 with H0 := r.1.H0.mirror i j, S := r.1.S.mirror i j }
  else return r.1

/-- Body of the loop over `i`: lines 321-407. -/
noncomputable def rowStep (I : MatIn) (k : Vec) (ims : List ((Op × Matrix (Fin 9) (Fin 9) ℝ) × ℕ))
    (st : MatSt) (i : ℕ) : Except Exn MatSt :=
  (List.range' i (I.N - i)).foldlM (pairStep I k ims i) (onSite I i st)

/-- `rotation_transformation(nt)` for every image: lines 309-314. -/
noncomputable def MatIn.transforms (I : MatIn) : Except Exn (List (Op × Matrix (Fin 9) (Fin 9) ℝ)) :=
  I.ntuples.mapM fun n => do
    let D ← rotationTransformation (I.rot n) (I.angles n) (∃ i < I.N, 4 < I.no i)
    return (n, D)

/-- `get_matrices` for the k-point `k`: lines 277-419. -/
noncomputable def getMatrices (I : MatIn) (k : Vec) : Except Exn MatSt := do
  let ims ← I.transforms
  (List.range I.N).foldlM (rowStep I k ims.zipIdx) MatSt.zero

open Classical in
/-- `el.ntuples`: /repo/hotbit/elements.py lines 190-222; `scan` is the triple loop over
`el.ranges`, `pos` the image positions, `cut` is `ia.hscut`. -/
noncomputable def selectImages (N : ℕ) (pos : Op → ℕ → Vec) (cut : ℕ → ℕ → ℝ) (scan : List Op) :
    List Op :=
  0 :: scan.filter fun n => decide (n ≠ 0 ∧
    ∃ i < N, ∃ j < N, ∑ c, (pos 0 j c - pos n i c) ^ 2 ≤ cut i j ^ 2)

/-- The input of `get_matrices` for a system of atoms: positions of images are `el.nvector` (converted
to Bohr, /repo/hotbit/elements.py lines 297-331), rotations are those of the container
(lines 287-294); `scan` and `cut` determine the images by `selectImages`. -/
noncomputable def MatIn.ofAtoms (A : Atoms) (bohr : ℝ) (no : ℕ → ℕ) (eps : ℕ → Fin 9 → ℝ) (seps : ℝ)
    (tab : String → String → SkTable) (J : SkJunk) (cut : ℕ → ℕ → ℝ) (scan : List Op) : MatIn :=
  let pos : Op → ℕ → Vec := fun n j => bohr⁻¹ • A.rawTransform ((A.positions[j]?).getD 0) n
  { N := A.atoms.length
    no := no
    eps := eps
    sym := fun i => ((A.atoms[i]?).map Prod.fst).getD ""
    seps := seps
    ntuples := selectImages A.atoms.length pos cut scan
    rot := A.rawRotation
    angles := fun n => (A.rawAngles n).getD (.error .notImplementedError)
    pos := pos
    tab := tab
    J := J }

end Hotbit
