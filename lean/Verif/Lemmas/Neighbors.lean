import Verif.Model.Neighbors
import Verif.Props.Containers
import Verif.Lemmas.Atoms
import Mathlib.Data.List.Nodup
import Mathlib.Data.List.ProdSigma

/-! Helper lemmas about the neighbour list. -/

namespace Hotbit

set_option linter.unnecessarySeqFocus false

open Real Matrix

theorem ranges_form (A : Atoms) (k : Fin 3) :
    A.ranges k = rangeInf ∨ ∃ a b, A.ranges k = (.fin a, .fin b) := by
  unfold Atoms.ranges
  cases A.ctype
  case bravais => cases hp : A.pbc k <;> simp [hp, rangeInf, rangeZero]
  case wedge => fin_cases k <;> simp [rangeOf, rangeZero] <;> cases A.wedgePbcz <;> simp [rangeInf]
  case wedgeYAxis => fin_cases k <;> simp [rangeOf, rangeZero] <;> cases A.wedgeYPbc <;> simp [rangeInf]
  all_goals fin_cases k <;> simp [rangeInf, rangeZero, rangeOf]

/-- The operations that the neighbour search looks at: the accepted ones, restricted to five cells
to either side along directions without limits. -/
def Scanned (A : Atoms) (x : Op) : Prop :=
  Legal A x ∧ ∀ k, A.ranges k = rangeInf → |x k| ≤ 5

theorem scan_dir (A : Atoms) (k : Fin 3) (z : ℤ) :
    z ∈ arange (nFromRange 5 (A.ranges k)).1 (nFromRange 5 (A.ranges k)).2 ↔
    ((A.ranges k).1.toEReal ≤ ((z : ℝ) : EReal) ∧ ((z : ℝ) : EReal) ≤ (A.ranges k).2.toEReal) ∧
      (A.ranges k = rangeInf → |z| ≤ 5) := by
  rw [mem_arange, ← leInt_iff, ← geInt_iff]
  rcases ranges_form A k with h | ⟨a, b, h⟩
  · rw [h]
    simp only [nFromRange, rangeInf, Bound.leInt, Bound.geInt, abs_le, true_and, forall_const]
    omega
  · rw [h]
    simp only [nFromRange, rangeInf, Bound.leInt, Bound.geInt, decide_eq_true_eq, Prod.mk.injEq,
      reduceCtorEq, false_and, false_implies, and_true]
    omega

theorem mem_scanOps (A : Atoms) (x : Op) : x ∈ scanOps A ↔ Scanned A x := by
  have : x ∈ scanOps A ↔ ∀ k, x k ∈ arange (nFromRange 5 (A.ranges k)).1
      (nFromRange 5 (A.ranges k)).2 := by
    simp only [scanOps, List.mem_flatMap, List.mem_map]
    constructor
    · rintro ⟨a, ha, b, hb, c, hc, rfl⟩ k
      fin_cases k
      · exact ha
      · exact hb
      · exact hc
    · intro h
      refine ⟨x 0, h 0, x 1, h 1, x 2, h 2, ?_⟩
      ext k; fin_cases k <;> rfl
  rw [this, Scanned, Legal, ← forall_and]
  exact forall_congr' fun k => scan_dir A k _

theorem arange_nodup (a b : ℤ) : (arange a b).Nodup :=
  (arange_sorted a b).imp (fun h => ne_of_lt h)

theorem scanOps_nodup (A : Atoms) : (scanOps A).Nodup := by
  unfold scanOps
  refine List.nodup_flatMap.2 ⟨fun a _ => List.nodup_flatMap.2 ⟨fun b _ => ?_, ?_⟩, ?_⟩
  · refine (arange_nodup _ _).map ?_
    intro u v h
    simpa using congrFun h 2
  · refine (arange_nodup _ _).imp ?_
    intro u v huv
    simp only [Function.onFun, List.disjoint_left, List.mem_map, not_exists, not_and]
    rintro _ ⟨w, _, rfl⟩ w' _ e
    exact huv (by simpa using (congrFun e 1).symm)
  · refine (arange_nodup _ _).imp ?_
    intro u v huv
    simp only [Function.onFun, List.disjoint_left, List.mem_map, List.mem_flatMap, not_exists,
      not_and]
    rintro _ ⟨b, _, w, _, rfl⟩ b' _ w' _ e
    exact huv (by simpa using (congrFun e 0).symm)

theorem mem_nbBlock (A : Atoms) (cutoff : Option ℝ) (x : Op) (r1 : Vec) (T : Mat) (e : Nb) :
    e ∈ nbBlock A cutoff x r1 T ↔
      e.i < A.positions.length ∧ e.j < A.positions.length ∧ e.op = x ∧
      maskOf cutoff x (drOf A r1 T e.i e.j) e.i e.j ∧ e.d = norm3 (drOf A r1 T e.i e.j) ∧
      e.n = (norm3 (drOf A r1 T e.i e.j))⁻¹ • drOf A r1 T e.i e.j := by
  simp only [nbBlock, List.mem_flatMap, List.mem_filterMap, List.mem_range]
  constructor
  · rintro ⟨i, hi, j, hj, h⟩
    split at h
    · rename_i hm
      simp only [Option.some.injEq] at h
      subst h
      exact ⟨hi, hj, rfl, hm, rfl, rfl⟩
    · simp at h
  · rintro ⟨hi, hj, ho, hm, hd, hn⟩
    refine ⟨e.i, hi, e.j, hj, ?_⟩
    rw [if_pos hm]
    cases e; simp_all

theorem nbBlock_nodup (A : Atoms) (cutoff : Option ℝ) (x : Op) (r1 : Vec) (T : Mat) :
    (nbBlock A cutoff x r1 T).Nodup := by
  unfold nbBlock
  refine List.nodup_flatMap.2 ⟨fun i _ => ?_, ?_⟩
  · refine List.nodup_range.filterMap ?_
    intro a b e ha hb
    simp only [Option.mem_def] at ha hb
    split at ha <;> simp at ha
    split at hb <;> simp at hb
    rw [← hb] at ha
    simp at ha
    exact ha.1
  · refine List.nodup_range.imp ?_
    intro a b hab
    simp only [Function.onFun, List.disjoint_left, List.mem_filterMap, not_exists, not_and]
    rintro e ⟨j, _, h⟩ j' _ h'
    split at h <;> simp at h
    split at h' <;> simp at h'
    rw [← h'] at h
    simp at h
    exact hab h.1

theorem nbStep_ok (A : Atoms) (cutoff : Option ℝ) (x : Op) (hx : Legal A x) :
    nbStep A cutoff x = .ok (nbBlock A cutoff x (A.rawTransform 0 x) (A.rawRotation x)) := by
  unfold nbStep
  rw [(c05_transform_guard A 0 x).1 hx, (c05_rotation_guard A x).1 hx]
  rfl

/-- The complete list, whatever the cutoff. -/
noncomputable def nbList (A : Atoms) (cutoff : Option ℝ) : List Nb :=
  (scanOps A).flatMap fun x => nbBlock A cutoff x (A.rawTransform 0 x) (A.rawRotation x)

theorem getNeighbors_eq (A : Atoms) (cutoff : Option ℝ) (h : cutoff.isSome ∨ A.isCluster = true) :
    getNeighbors A cutoff =
      .ok (if (nbList A cutoff).isEmpty then none else some (nbList A cutoff)) := by
  unfold getNeighbors
  rw [if_neg (by cases cutoff <;> simp_all)]
  rw [mapM_ok_of_forall _ (fun x => nbBlock A cutoff x (A.rawTransform 0 x) (A.rawRotation x)) _
    (fun x hx => nbStep_ok A cutoff x ((mem_scanOps A x).1 hx).1)]
  rfl

theorem drOf_eq (A : Atoms) (hA : A.ctype ≠ .twistAndTurn) (x : Op) (hx : Legal A x) (i j : ℕ) :
    drOf A (A.rawTransform 0 x) (A.rawRotation x) i j = A.pos i - A.rawTransform (A.pos j) x := by
  have := rawTransform_affine A hA x hx (A.pos j) 0
  rw [sub_zero] at this
  rw [drOf, ← this]; abel_nf

theorem mem_nbList (A : Atoms) (hA : A.ctype ≠ .twistAndTurn) (cutoff : Option ℝ) (e : Nb) :
    e ∈ nbList A cutoff ↔
      e.i < A.positions.length ∧ e.j < A.positions.length ∧ Scanned A e.op ∧
      maskOf cutoff e.op (A.pos e.i - A.rawTransform (A.pos e.j) e.op) e.i e.j ∧
      e.d = norm3 (A.pos e.i - A.rawTransform (A.pos e.j) e.op) ∧
      e.n = (norm3 (A.pos e.i - A.rawTransform (A.pos e.j) e.op))⁻¹ •
        (A.pos e.i - A.rawTransform (A.pos e.j) e.op) := by
  simp only [nbList, List.mem_flatMap, mem_nbBlock, mem_scanOps]
  constructor
  · rintro ⟨x, hx, hi, hj, ho, h⟩
    subst ho
    rw [drOf_eq A hA _ hx.1] at h
    exact ⟨hi, hj, hx, h⟩
  · rintro ⟨hi, hj, hx, h⟩
    refine ⟨e.op, hx, hi, hj, rfl, ?_⟩
    rw [drOf_eq A hA _ hx.1]
    exact h

theorem nbList_nodup (A : Atoms) (cutoff : Option ℝ) : (nbList A cutoff).Nodup := by
  refine List.nodup_flatMap.2 ⟨fun x _ => nbBlock_nodup A cutoff x _ _, ?_⟩
  refine (scanOps_nodup A).imp ?_
  intro a b hab
  simp only [Function.onFun, List.disjoint_left, mem_nbBlock, not_and]
  rintro e ⟨_, _, h, _⟩ _ _ h'
  exact absurd (h.symm.trans h') hab

/-! ### Inverse operations among the scanned ones -/

/-- The containers for which every scanned operation has a scanned inverse: translations, and
screw operations and wedges whose angle closes the circle. -/
def InversionClosed (A : Atoms) : Prop :=
  A.ctype = .bravais ∨ A.ctype = .chiral ∨ A.ctype = .chiralGeneral ∨ ∃ M, PhysicalWedge A M

theorem InversionClosed.commuting {A : Atoms} (h : InversionClosed A) : Commuting A.ctype := by
  rcases h with h | h | h | ⟨M, hM⟩
  · rw [h]; trivial
  · rw [h]; trivial
  · rw [h]; trivial
  · rcases hM.2 with ⟨h | h, -⟩ | ⟨h, -⟩ <;> rw [h] <;> trivial

theorem Commuting.ne_tat {A : Atoms} (h : Commuting A.ctype) : A.ctype ≠ .twistAndTurn := by
  intro e; rw [e] at h; exact h

theorem Commuting.ne_sphere {A : Atoms} (h : Commuting A.ctype) : A.ctype ≠ .sphere := by
  intro e; rw [e] at h; exact h

open Classical in
/-- The scanned inverse of a scanned operation. -/
noncomputable def invOp (A : Atoms) (x : Op) : Op :=
  if Scanned A (-x) then -x else ![x 0, -x 1, -x 2]

theorem scanned_iff (A : Atoms) (x : Op) : Scanned A x ↔
    ∀ k, ((A.ranges k).1.leInt (x k) = true ∧ (A.ranges k).2.geInt (x k) = true) ∧
      (A.ranges k = rangeInf → |x k| ≤ 5) := by
  simp only [Scanned, Legal, ← forall_and, leInt_iff, geInt_iff]

/-- A direction whose range is symmetric. -/
theorem dir_neg {b : Bound × Bound} (hb : b = rangeInf ∨ b = rangeZero) (z : ℤ)
    (h : (b.1.leInt z = true ∧ b.2.geInt z = true) ∧ (b = rangeInf → |z| ≤ 5)) :
    (b.1.leInt (-z) = true ∧ b.2.geInt (-z) = true) ∧ (b = rangeInf → |-z| ≤ 5) := by
  rcases hb with rfl | rfl
  · simpa [rangeInf, Bound.leInt, Bound.geInt] using h
  · simp [rangeZero, rangeInf, Bound.leInt, Bound.geInt] at h ⊢
    omega

theorem PhysicalWedge.range0 {A : Atoms} {M : ℤ} (h : PhysicalWedge A M) :
    A.ranges 0 = rangeOf (angularRange M) := by
  have hw := wedgeM_two_pi_div (M := M) (by have := h.1; omega)
  rcases h.2 with ⟨hc | hc, ha⟩ | ⟨hc, ha⟩ <;> simp [Atoms.ranges, hc, ha, hw]

theorem PhysicalWedge.range12 {A : Atoms} {M : ℤ} (h : PhysicalWedge A M) (k : Fin 3)
    (hk : k ≠ 0) : A.ranges k = rangeInf ∨ A.ranges k = rangeZero := by
  rcases h.2 with ⟨hc | hc, ha⟩ | ⟨hc, ha⟩
  · fin_cases k <;> simp [Atoms.ranges, hc] at hk ⊢
    cases A.wedgePbcz <;> simp
  · fin_cases k <;> simp [Atoms.ranges, hc] at hk ⊢
    cases A.wedgeYPbc <;> simp
  · fin_cases k <;> simp [Atoms.ranges, hc] at hk ⊢

/-- For a scanned operation either its negative is scanned, or the angular index is half a turn. -/
theorem invOp_cases (A : Atoms) (h : InversionClosed A) (x : Op) (hx : Scanned A x) :
    Scanned A (invOp A x) ∧
      (invOp A x = -x ∨ ∃ M, PhysicalWedge A M ∧ M = 2 * x 0 ∧ invOp A x = ![x 0, -x 1, -x 2] ∧
        ¬ Scanned A (-x)) := by
  by_cases hn : Scanned A (-x)
  · have e : invOp A x = -x := if_pos hn
    rw [e]; exact ⟨hn, Or.inl rfl⟩
  · have e : invOp A x = ![x 0, -x 1, -x 2] := if_neg hn
    rw [e]
    have hx' := (scanned_iff A x).1 hx
    rcases h with h | h | h | ⟨M, hM⟩
    · refine absurd ((scanned_iff A _).2 fun k => ?_) hn
      refine dir_neg ?_ _ (hx' k)
      simp only [Atoms.ranges, h]
      cases A.pbc k <;> simp
    · refine absurd ((scanned_iff A _).2 fun k => ?_) hn
      refine dir_neg ?_ _ (hx' k)
      simp only [Atoms.ranges, h]
      fin_cases k <;> simp
    · refine absurd ((scanned_iff A _).2 fun k => ?_) hn
      refine dir_neg ?_ _ (hx' k)
      simp only [Atoms.ranges, h]
      fin_cases k <;> simp
    · have h0 := hx' 0
      have hr := hM.range0
      constructor
      · refine (scanned_iff A _).2 fun k => ?_
        by_cases hk : k = 0
        · subst hk; exact h0
        · have := dir_neg (hM.range12 k hk) _ (hx' k)
          fin_cases k
          · exact absurd rfl hk
          · exact this
          · exact this
      · refine Or.inr ⟨M, hM, ?_, rfl, hn⟩
        by_contra hne
        refine hn ((scanned_iff A _).2 fun k => ?_)
        by_cases hk : k = 0
        · subst hk
          rw [hr] at h0 ⊢
          have := hM.1
          have hodd : M % 2 = 1 → angularRange M = (-(M / 2), M / 2) := by
            intro ho; simp [angularRange, ho]
          have heven : M % 2 ≠ 1 → angularRange M = (-(M / 2) + 1, M / 2) := by
            intro ho; simp [angularRange, ho]
          by_cases ho : M % 2 = 1
          · rw [hodd ho] at h0 ⊢
            simp [rangeOf, rangeInf, Bound.leInt, Bound.geInt] at h0 ⊢
            omega
          · rw [heven ho] at h0 ⊢
            simp [rangeOf, rangeInf, Bound.leInt, Bound.geInt] at h0 ⊢
            omega
        · exact dir_neg (hM.range12 k hk) _ (hx' k)

theorem rawTransform_zero (A : Atoms) (hA : Commuting A.ctype) (r : Vec) :
    A.rawTransform r 0 = r := by
  unfold Atoms.rawTransform
  cases h : A.ctype <;> rw [h] at hA <;> simp [Commuting] at hA <;>
    simp [Atoms.rawRotation, h, rotZ_zero, rotY_zero, ← zvec_zero]

theorem invOp_cancel (A : Atoms) (h : InversionClosed A) (x : Op) (hx : Scanned A x) (r : Vec) :
    A.rawTransform r (x + invOp A x) = r := by
  rcases (invOp_cases A h x hx).2 with e | ⟨M, hM, hM0, e, -⟩
  · rw [e, add_neg_cancel, rawTransform_zero A h.commuting]
  · have e2 : x + invOp A x = ![M, 0, 0] := by
      rw [e, hM0]; ext k; fin_cases k <;> simp <;> ring
    rw [e2, (rotation_turn A M hM M).2, (turn_eq_iff A M hM M 0).2 (by simp)]
    have : turn A 0 = 1 := by unfold turn; split <;> simp [rotZ_zero, rotY_zero]
    rw [this, one_mulVec]

theorem invOp_right (A : Atoms) (h : InversionClosed A) (x : Op) (hx : Scanned A x) (r : Vec) :
    A.rawTransform (A.rawTransform r x) (invOp A x) = r := by
  rw [rawTransform_add A h.commuting, invOp_cancel A h x hx]

theorem invOp_left (A : Atoms) (h : InversionClosed A) (x : Op) (hx : Scanned A x) (r : Vec) :
    A.rawTransform (A.rawTransform r (invOp A x)) x = r := by
  rw [rawTransform_add A h.commuting, add_comm, invOp_cancel A h x hx]

theorem invOp_invol (A : Atoms) (h : InversionClosed A) (x : Op) (hx : Scanned A x) :
    invOp A (invOp A x) = x := by
  rcases invOp_cases A h x hx with ⟨hs, e | ⟨M, hM, hM0, e, hn⟩⟩
  · rw [e]; unfold invOp; rw [if_pos (by simpa using hx)]; simp
  · have : ¬ Scanned A (-(invOp A x)) := by
      intro hc
      rw [e] at hc
      apply hn
      have hc' := (scanned_iff A _).1 hc
      have hx' := (scanned_iff A _).1 hx
      refine (scanned_iff A _).2 fun k => ?_
      by_cases hk : k = 0
      · subst hk; exact hc' 0
      · exact dir_neg (hM.range12 k hk) _ (hx' k)
    have e2 : invOp A (invOp A x) = ![(invOp A x) 0, -(invOp A x) 1, -(invOp A x) 2] := if_neg this
    rw [e2, e]; ext k; fin_cases k <;> simp

theorem invOp_zero_iff (A : Atoms) (h : InversionClosed A) (x : Op) (hx : Scanned A x) :
    invOp A x = 0 ↔ x = 0 := by
  have key : ∀ y, Scanned A y → y = 0 → invOp A y = 0 := by
    intro y hy e
    subst e
    have : Scanned A (-0) := by simpa using hy
    have e1 : invOp A 0 = -0 := if_pos this
    rw [e1, neg_zero]
  constructor
  · intro e
    have := key _ (invOp_cases A h x hx).1 e
    rwa [invOp_invol A h x hx] at this
  · exact key x hx

theorem rawTransform_dist (A : Atoms) (hA : Commuting A.ctype) (x : Op) (hx : Legal A x)
    (r s : Vec) : norm3 (A.rawTransform r x - A.rawTransform s x) = norm3 (r - s) := by
  rw [rawTransform_affine A hA.ne_tat x hx]
  have hax : AxisOk A x := fun e => absurd e hA.ne_sphere
  obtain ⟨R, hR, ho, -⟩ := c02_rotation_orthogonal A x hx hax
  rw [(c05_rotation_guard A x).1 hx] at hR
  simp only [Except.ok.injEq] at hR
  rw [hR]
  exact orth_norm ho _

theorem norm3_neg (v : Vec) : norm3 (-v) = norm3 v := by
  simp [norm3]

/-- Distance from `i` to the image of `j` = distance from `j` to the inverse image of `i`. -/
theorem dist_swap (A : Atoms) (h : InversionClosed A) (x : Op) (hx : Scanned A x) (r s : Vec) :
    norm3 (s - A.rawTransform r (invOp A x)) = norm3 (r - A.rawTransform s x) := by
  rw [← rawTransform_dist A h.commuting x hx.1, invOp_left A h x hx, ← norm3_neg]
  congr 1; abel

/-- The entry for the pair seen from the other atom. -/
noncomputable def swapNb (A : Atoms) (e : Nb) : Nb :=
  ⟨e.j, e.i, e.d, (e.d)⁻¹ • (A.pos e.j - A.rawTransform (A.pos e.i) (invOp A e.op)), invOp A e.op⟩

theorem swapNb_mem (A : Atoms) (h : InversionClosed A) (cutoff : Option ℝ) (e : Nb)
    (he : e ∈ nbList A cutoff) : swapNb A e ∈ nbList A cutoff := by
  have hA := h.commuting.ne_tat
  rw [mem_nbList A hA] at he ⊢
  obtain ⟨hi, hj, hs, hm, hd, -⟩ := he
  have hsw := dist_swap A h e.op hs (A.pos e.i) (A.pos e.j)
  refine ⟨hj, hi, (invOp_cases A h _ hs).1, ?_, ?_, ?_⟩
  · show maskOf cutoff (invOp A e.op) _ e.j e.i
    unfold maskOf at hm ⊢
    constructor
    · cases cutoff with
      | none => trivial
      | some c => show norm3 _ < c; exact hsw ▸ hm.1
    · rw [invOp_zero_iff A h _ hs]; exact fun hc => hm.2 ⟨hc.1, hc.2.symm⟩
  · show e.d = _; rw [hd]; exact hsw.symm
  · show (e.d)⁻¹ • _ = _; rw [hd]; congr 2; exact hsw.symm

theorem swapNb_invol (A : Atoms) (h : InversionClosed A) (cutoff : Option ℝ) (e : Nb)
    (he : e ∈ nbList A cutoff) : swapNb A (swapNb A e) = e := by
  rw [mem_nbList A h.commuting.ne_tat] at he
  obtain ⟨hi, hj, hs, hm, hd, hn⟩ := he
  cases e
  simp only [swapNb, invOp_invol A h _ hs] at *
  simp [hn, hd]

/-- Exchanging the two atoms of every entry only permutes the list. -/
theorem swap_perm (A : Atoms) (h : InversionClosed A) (cutoff : Option ℝ) :
    ((nbList A cutoff).map (swapNb A)).Perm (nbList A cutoff) := by
  refine (List.perm_ext_iff_of_nodup ?_ (nbList_nodup A cutoff)).2 fun e => ?_
  · refine (nbList_nodup A cutoff).map_on ?_
    intro a ha b hb hab
    rw [← swapNb_invol A h cutoff a ha, ← swapNb_invol A h cutoff b hb, hab]
  · rw [List.mem_map]
    constructor
    · rintro ⟨a, ha, rfl⟩; exact swapNb_mem A h cutoff a ha
    · intro he; exact ⟨_, swapNb_mem A h cutoff e he, swapNb_invol A h cutoff e he⟩

end Hotbit
