import Verif.Lemmas.Neighbors
import Mathlib.Analysis.SpecialFunctions.Sqrt
import Mathlib.Analysis.Calculus.Deriv.Add
import Mathlib.Analysis.Calculus.Deriv.Mul
import Mathlib.Analysis.Calculus.Deriv.Pow
import Mathlib.Algebra.BigOperators.Group.List.Basic
import Mathlib.Algebra.BigOperators.Ring.List

/-! Sums over neighbour lists and their derivative with respect to an atom's position. -/

namespace Hotbit

open Real Matrix

set_option linter.unusedSimpArgs false

/-- The structure with atom `a` moved by `t * v`. -/
noncomputable def displace (A : Atoms) (a : ℕ) (v : Vec) (t : ℝ) : Atoms :=
  { A with atoms := A.atoms.mapIdx fun i p => if i = a then (p.1, p.2 + t • v) else p }

@[simp] theorem displace_length (A : Atoms) (a : ℕ) (v : Vec) (t : ℝ) :
    (displace A a v t).positions.length = A.positions.length := by
  simp [displace, Atoms.positions]

theorem displace_pos (A : Atoms) (a : ℕ) (v : Vec) (t : ℝ) (i : ℕ) (hi : i < A.positions.length) :
    (displace A a v t).pos i = A.pos i + t • (if i = a then v else 0) := by
  have hi' : i < A.atoms.length := by simpa [Atoms.positions] using hi
  simp only [displace, Atoms.pos, Atoms.positions, List.getD_eq_getElem?_getD, List.getElem?_map,
    List.getElem?_mapIdx, List.getElem?_eq_getElem hi', Option.map_some, Option.getD_some]
  split <;> simp

theorem displace_zero (A : Atoms) (a : ℕ) (v : Vec) : displace A a v 0 = A := by
  have : (A.atoms.mapIdx fun i p => if i = a then (p.1, p.2 + (0 : ℝ) • v) else p) = A.atoms := by
    apply List.ext_getElem?
    intro i
    simp only [List.getElem?_mapIdx, zero_smul, add_zero, Prod.mk.eta, ite_self]
    cases A.atoms[i]? <;> rfl
  simp only [displace, this]

theorem displace_scan (A : Atoms) (a : ℕ) (v : Vec) (t : ℝ) :
    scanOps (displace A a v t) = scanOps A := rfl

theorem displace_transform (A : Atoms) (hA : A.ctype ≠ .twistAndTurn) (a : ℕ) (v : Vec) (t : ℝ)
    (r : Vec) (x : Op) : (displace A a v t).rawTransform r x = A.rawTransform r x := by
  have : (displace A a v t).ctype = A.ctype := rfl
  unfold Atoms.rawTransform
  rw [this]
  cases h : A.ctype <;> first | rfl | exact absurd h hA

theorem displace_rotation (A : Atoms) (a : ℕ) (v : Vec) (t : ℝ) (x : Op) :
    (displace A a v t).rawRotation x = A.rawRotation x := rfl

theorem displace_isCluster (A : Atoms) (a : ℕ) (v : Vec) (t : ℝ) :
    (displace A a v t).isCluster = A.isCluster := rfl

theorem displace_inversion (A : Atoms) (a : ℕ) (v : Vec) (t : ℝ) (h : InversionClosed A) :
    InversionClosed (displace A a v t) := h

theorem sum_flatMap {α β : Type} [AddCommMonoid β] (l : List α) (f : α → List β) :
    (l.flatMap f).sum = (l.map fun a => (f a).sum).sum := by
  induction l with
  | nil => rfl
  | cons a l ih => simp [ih]

theorem sum_map_neg' {α : Type} (l : List α) (f : α → ℝ) :
    (l.map fun a => -f a).sum = -(l.map f).sum := by
  induction l with
  | nil => simp
  | cons a l ih => simp [ih, add_comm]

/-- Sum over the neighbour list as a sum over operations and pairs of atoms. -/
theorem nbList_sum (A : Atoms) (cut : Option ℝ) (F : Nb → ℝ) :
    ((nbList A cut).map F).sum =
      ((scanOps A).map fun x => ((List.range A.positions.length).map fun i =>
        ((List.range A.positions.length).map fun j =>
          open Classical in
          if maskOf cut x (drOf A (A.rawTransform 0 x) (A.rawRotation x) i j) i j then
            F ⟨i, j, norm3 (drOf A (A.rawTransform 0 x) (A.rawRotation x) i j),
              (norm3 (drOf A (A.rawTransform 0 x) (A.rawRotation x) i j))⁻¹ •
                drOf A (A.rawTransform 0 x) (A.rawRotation x) i j, x⟩ else 0).sum).sum).sum := by
  have hfm : ∀ (l : List ℕ) (f : ℕ → Option Nb),
      ((l.filterMap f).map F).sum = (l.map fun j => match f j with | some e => F e | none => 0).sum := by
    intro l f
    induction l with
    | nil => rfl
    | cons b l ih =>
      rw [List.filterMap_cons, List.map_cons, List.sum_cons]
      cases f b with
      | none => simp [ih]
      | some e => simp [ih]
  unfold nbList nbBlock
  rw [List.map_flatMap, sum_flatMap]
  congr 1
  refine List.map_congr_left fun x _ => ?_
  rw [List.map_flatMap, sum_flatMap]
  congr 1
  refine List.map_congr_left fun i _ => ?_
  rw [hfm]
  congr 1
  refine List.map_congr_left fun j _ => ?_
  dsimp only
  split <;> rename_i h <;> split at h <;> simp_all

theorem hasDerivAt_listSum {ι : Type} (l : List ι) (f : ι → ℝ → ℝ) (f' : ι → ℝ) (t : ℝ)
    (h : ∀ x ∈ l, HasDerivAt (f x) (f' x) t) :
    HasDerivAt (fun s => (l.map fun x => f x s).sum) ((l.map f').sum) t := by
  induction l with
  | nil => simpa using hasDerivAt_const t (0 : ℝ)
  | cons a l ih =>
    simp only [List.map_cons, List.sum_cons]
    exact (h a (by simp)).add (ih fun x hx => h x (by simp [hx]))

/-- Derivative of the length of a vector moving with constant velocity. -/
theorem norm3_hasDerivAt (u w : Vec) (hu : u ≠ 0) :
    HasDerivAt (fun t : ℝ => norm3 (u + t • w)) (((norm3 u)⁻¹ • u) ⬝ᵥ w) 0 := by
  have hsq : HasDerivAt (fun t : ℝ => (u + t • w) 0 ^ 2 + (u + t • w) 1 ^ 2 + (u + t • w) 2 ^ 2)
      (2 * (u 0 * w 0 + u 1 * w 1 + u 2 * w 2)) 0 := by
    have h1 : ∀ k, HasDerivAt (fun t : ℝ => (u + t • w) k ^ 2) (2 * u k * w k) 0 := by
      intro k
      have h0 : HasDerivAt (fun t : ℝ => u k + t * w k) (w k) 0 := by
        simpa using ((hasDerivAt_id (0 : ℝ)).mul_const (w k)).const_add (u k)
      simpa using h0.fun_pow 2
    exact (((h1 0).add (h1 1)).add (h1 2)).congr_deriv (by ring)
  have hpos : (u + (0 : ℝ) • w) 0 ^ 2 + (u + (0 : ℝ) • w) 1 ^ 2 + (u + (0 : ℝ) • w) 2 ^ 2 ≠ 0 := by
    rw [zero_smul, add_zero, ← norm3_sq]
    have := norm3_pos hu
    positivity
  have hd := hsq.sqrt hpos
  have hfun : (fun t : ℝ => norm3 (u + t • w)) =
      fun t : ℝ => √((u + t • w) 0 ^ 2 + (u + t • w) 1 ^ 2 + (u + t • w) 2 ^ 2) := rfl
  rw [hfun]
  refine hd.congr_deriv ?_
  rw [zero_smul, add_zero]
  show _ / (2 * norm3 u) = _
  have hn : norm3 u ≠ 0 := (norm3_pos hu).ne'
  simp only [dotProduct, Fin.sum_univ_three, Pi.smul_apply, smul_eq_mul]
  field_simp

open Classical in
/-- One pair term with its cutoff is differentiable away from zero distance and the cutoff. -/
theorem term_hasDerivAt (cut : Option ℝ) (x : Op) (i j : ℕ) (u w : Vec) (K : ℝ → ℝ) (k' : ℝ)
    (hu : ¬ (x = 0 ∧ i = j) → u ≠ 0) (hc : ¬ (x = 0 ∧ i = j) → ∀ c, cut = some c → norm3 u ≠ c)
    (hK : maskOf cut x u i j → HasDerivAt K k' (norm3 u)) :
    HasDerivAt (fun t : ℝ => if maskOf cut x (u + t • w) i j then K (norm3 (u + t • w)) else 0)
      (if maskOf cut x u i j then k' * (((norm3 u)⁻¹ • u) ⬝ᵥ w) else 0) 0 := by
  by_cases hself : x = 0 ∧ i = j
  · have : ∀ y, ¬ maskOf cut x y i j := fun y h => h.2 hself
    simp only [this, if_false]
    exact hasDerivAt_const _ _
  · have hn := norm3_hasDerivAt u w (hu hself)
    have hev : ∀ᶠ t in nhds (0 : ℝ), maskOf cut x (u + t • w) i j ↔ maskOf cut x u i j := by
      cases cut with
      | none => exact Filter.Eventually.of_forall fun t => by simp [maskOf]
      | some c =>
        have hcont := hn.continuousAt
        have h0 : norm3 (u + (0 : ℝ) • w) = norm3 u := by simp
        rcases lt_or_gt_of_ne (hc hself c rfl) with hlt | hgt
        · have := hcont.eventually_lt (continuousAt_const (y := c)) (by rw [h0]; exact hlt)
          filter_upwards [this] with t ht
          simp [maskOf, ht, hlt]
        · have := (continuousAt_const (y := c)).eventually_lt hcont (by rw [h0]; exact hgt)
          filter_upwards [this] with t ht
          simp [maskOf, not_lt.2 ht.le, not_lt.2 hgt.le]
    by_cases hm : maskOf cut x u i j
    · rw [if_pos hm]
      have hK0 : HasDerivAt K k' (norm3 (u + (0 : ℝ) • w)) := by simpa using hK hm
      have := hK0.comp (0 : ℝ) hn
      refine this.congr_of_eventuallyEq ?_
      filter_upwards [hev] with t ht
      rw [if_pos (ht.2 hm)]; rfl
    · rw [if_neg hm]
      refine (hasDerivAt_const (0 : ℝ) (0 : ℝ)).congr_of_eventuallyEq ?_
      filter_upwards [hev] with t ht
      rw [if_neg (fun h => hm (ht.1 h))]

/-- Half the sum of a pair function over the neighbour list. -/
noncomputable def pairEnergy (A : Atoms) (cut : Option ℝ) (K : ℕ → ℕ → ℝ → ℝ) : ℝ :=
  ((nbList A cut).map fun e => K e.i e.j e.d).sum / 2

/-- No pair of different images is at distance zero or exactly at the cutoff. -/
def RegularPairs (A : Atoms) (cut : Option ℝ) : Prop :=
  ∀ i < A.positions.length, ∀ j < A.positions.length, ∀ x, Scanned A x → ¬ (x = 0 ∧ i = j) →
    A.pos i ≠ A.rawTransform (A.pos j) x ∧
    ∀ c, cut = some c → norm3 (A.pos i - A.rawTransform (A.pos j) x) ≠ c

theorem orth_dot {R : Mat} (h : Rᵀ * R = 1) (u w : Vec) : (R.mulVec u) ⬝ᵥ (R.mulVec w) = u ⬝ᵥ w := by
  rw [dotProduct_mulVec, ← mulVec_transpose, mulVec_mulVec, h, one_mulVec]

theorem rotation_orth (A : Atoms) (hA : Commuting A.ctype) (x : Op) (hx : Legal A x) :
    (A.rawRotation x)ᵀ * A.rawRotation x = 1 := by
  have hax : AxisOk A x := fun e => absurd e hA.ne_sphere
  obtain ⟨R, hR, ho, -⟩ := c02_rotation_orthogonal A x hx hax
  rw [(c05_rotation_guard A x).1 hx] at hR
  simp only [Except.ok.injEq] at hR
  rw [hR]; exact ho

/-- The vector of the reversed entry against the rotated displacement. -/
theorem swap_dot (A : Atoms) (h : InversionClosed A) (cut : Option ℝ) (e : Nb)
    (he : e ∈ nbList A cut) (v : Vec) :
    (swapNb A e).n ⬝ᵥ (A.rawRotation (swapNb A e).op).mulVec v = -(e.n ⬝ᵥ v) := by
  obtain ⟨-, -, hs, -, hd, hn⟩ := (mem_nbList A h.commuting.ne_tat cut e).1 he
  have hinv := (invOp_cases A h _ hs).1
  have key : (swapNb A e).n = (A.rawRotation (invOp A e.op)).mulVec (-e.n) := by
    show (e.d)⁻¹ • _ = _
    rw [hn, hd, ← smul_neg, mulVec_smul, neg_sub, ← rawTransform_affine A h.commuting.ne_tat _ hinv.1,
      invOp_right A h _ hs]
  rw [key]
  show _ ⬝ᵥ (A.rawRotation (invOp A e.op)).mulVec v = _
  rw [orth_dot (rotation_orth A h.commuting _ hinv.1), neg_dotProduct]

/-- Minus the gradient of the pair energy with respect to the position of one atom is the sum of
the pair forces on it. -/
theorem pairEnergy_gradient (A : Atoms) (h : InversionClosed A) (cut : Option ℝ)
    (K K' : ℕ → ℕ → ℝ → ℝ) (hsym : ∀ i j d, K' i j d = K' j i d)
    (hK : ∀ i j d, 0 < d → (∀ c, cut = some c → d < c) → HasDerivAt (K i j) (K' i j d) d)
    (hreg : RegularPairs A cut) (a : ℕ) (v : Vec) :
    HasDerivAt (fun t => pairEnergy (displace A a v t) cut K)
      ((((nbList A cut).filter fun e => e.i == a).map fun e => K' e.i e.j e.d • e.n).sum ⬝ᵥ v) 0 := by
  have hA := h.commuting
  -- termwise derivative
  have hder : HasDerivAt (fun t => ((nbList (displace A a v t) cut).map fun e => K e.i e.j e.d).sum)
      (((nbList A cut).map fun e => K' e.i e.j e.d * (e.n ⬝ᵥ ((if e.i = a then v else 0) -
        (A.rawRotation e.op).mulVec (if e.j = a then v else 0)))).sum) 0 := by
    simp only [nbList_sum, displace_scan, displace_length]
    refine hasDerivAt_listSum _ _ _ _ fun x hx => ?_
    refine hasDerivAt_listSum _ _ _ _ fun i hi => ?_
    refine hasDerivAt_listSum _ _ _ _ fun j hj => ?_
    rw [List.mem_range] at hi hj
    have hs := (mem_scanOps A x).1 hx
    have hdr : ∀ t, drOf (displace A a v t) ((displace A a v t).rawTransform 0 x)
        ((displace A a v t).rawRotation x) i j =
        drOf A (A.rawTransform 0 x) (A.rawRotation x) i j + t • ((if i = a then v else 0) -
          (A.rawRotation x).mulVec (if j = a then v else 0)) := by
      intro t
      simp only [drOf, displace_transform A hA.ne_tat, displace_rotation, displace_pos A a v t i hi,
        displace_pos A a v t j hj, mulVec_add, mulVec_smul, smul_sub]
      abel
    have heq := drOf_eq A hA.ne_tat x hs.1 i j
    generalize drOf A (A.rawTransform 0 x) (A.rawRotation x) i j = u at heq hdr ⊢
    have h0 := term_hasDerivAt cut x i j u ((if i = a then v else 0) -
          (A.rawRotation x).mulVec (if j = a then v else 0)) (K i j) (K' i j (norm3 u)) ?_ ?_ ?_
    · refine h0.congr_of_eventuallyEq (Filter.Eventually.of_forall fun t => ?_)
      dsimp only
      rw [hdr t]
    · intro hself
      rw [heq, sub_ne_zero]
      exact (hreg i hi j hj x hs hself).1
    · intro hself c hc
      rw [heq]; exact (hreg i hi j hj x hs hself).2 c hc
    · intro hm
      rw [heq] at hm ⊢
      refine hK i j _ ?_ ?_
      · exact norm3_pos (sub_ne_zero.2 (hreg i hi j hj x hs hm.2).1)
      · rintro c rfl; exact hm.1
  -- exchange of the two atoms
  have hswap : ((nbList A cut).map fun e => K' e.i e.j e.d *
        (e.n ⬝ᵥ (A.rawRotation e.op).mulVec (if e.j = a then v else 0))).sum =
      -((nbList A cut).map fun e => K' e.i e.j e.d * (e.n ⬝ᵥ (if e.i = a then v else 0))).sum := by
    rw [← ((swap_perm A h cut).map _).sum_eq, List.map_map, ← sum_map_neg']
    congr 1
    refine List.map_congr_left fun e he => ?_
    have := swap_dot A h cut e he (if e.i = a then v else 0)
    simp only [Function.comp]
    show K' e.j e.i e.d * ((swapNb A e).n ⬝ᵥ (A.rawRotation (swapNb A e).op).mulVec (if e.i = a then v else 0)) = _
    rw [this, hsym]; ring
  have hval : ((nbList A cut).map fun e => K' e.i e.j e.d * (e.n ⬝ᵥ ((if e.i = a then v else 0) -
        (A.rawRotation e.op).mulVec (if e.j = a then v else 0)))).sum =
      2 * ((nbList A cut).map fun e => K' e.i e.j e.d * (e.n ⬝ᵥ (if e.i = a then v else 0))).sum := by
    have : ∀ e : Nb, K' e.i e.j e.d * (e.n ⬝ᵥ ((if e.i = a then v else 0) -
        (A.rawRotation e.op).mulVec (if e.j = a then v else 0))) =
        K' e.i e.j e.d * (e.n ⬝ᵥ (if e.i = a then v else 0)) +
        -(K' e.i e.j e.d * (e.n ⬝ᵥ (A.rawRotation e.op).mulVec (if e.j = a then v else 0))) := by
      intro e; rw [dotProduct_sub]; ring
    simp only [this]
    rw [List.sum_map_add, sum_map_neg', hswap]
    ring
  have hfin : ((nbList A cut).map fun e => K' e.i e.j e.d * (e.n ⬝ᵥ (if e.i = a then v else 0))).sum =
      (((nbList A cut).filter fun e => e.i == a).map fun e => K' e.i e.j e.d • e.n).sum ⬝ᵥ v := by
    generalize nbList A cut = l
    induction l with
    | nil => simp
    | cons e l ih =>
      rw [List.map_cons, List.sum_cons, ih, List.filter_cons]
      by_cases hea : e.i = a
      · simp [hea, add_dotProduct]
      · simp [hea]
  have := hder.div_const 2
  rw [hval, hfin] at this
  simpa [pairEnergy, mul_div_assoc] using this

end Hotbit
