import Verif.Lemmas.Containers

/-!
# Properties C01–C05: symmetry operations of the containers

Specification vocabulary used here:

* `Legal A n` – every component of the operation lies in the (extended) interval reported by
  `get_symmetry_operation_ranges`, stated with extended reals;
* `IsRigid` – a map of space that preserves all distances.
-/

set_option linter.unusedSimpArgs false

namespace Hotbit

open Real Matrix

/-- Meaning of a range end as an extended real. -/
noncomputable def Bound.toEReal : Bound → EReal
  | .negInf => ⊥
  | .fin z => ((z : ℝ) : EReal)
  | .posInf => ⊤

/-- `n` lies within the ranges reported for the container. -/
def Legal (A : Atoms) (n : Op) : Prop :=
  ∀ i, (A.ranges i).1.toEReal ≤ ((n i : ℝ) : EReal) ∧ ((n i : ℝ) : EReal) ≤ (A.ranges i).2.toEReal

/-- The map preserves distances between all points. -/
def IsRigid (f : Vec → Vec) : Prop := ∀ r s, norm3 (f r - f s) = norm3 (r - s)

/-- The containers whose operations are combined by adding the triples. -/
def Commuting : CType → Prop
  | .bravais | .wedge | .chiral | .doubleChiral | .chiralWedge | .wedgeYAxis | .chiralGeneral => True
  | _ => False

/-! ## C05: the guard -/

theorem leInt_iff (b : Bound) (z : ℤ) : b.leInt z = true ↔ b.toEReal ≤ ((z : ℝ) : EReal) := by
  cases b <;> simp [Bound.leInt, Bound.toEReal]

theorem geInt_iff (b : Bound) (z : ℤ) : b.geInt z = true ↔ ((z : ℝ) : EReal) ≤ b.toEReal := by
  cases b <;> simp [Bound.geInt, Bound.toEReal]

theorem legal_iff (A : Atoms) (n : Op) :
    (((A.ranges 0).1.leInt (n 0) && (A.ranges 0).2.geInt (n 0)) &&
         (((A.ranges 1).1.leInt (n 1) && (A.ranges 1).2.geInt (n 1)) &&
         ((A.ranges 2).1.leInt (n 2) && (A.ranges 2).2.geInt (n 2)))) = true ↔ Legal A n := by
  simp only [Bool.and_eq_true, leInt_iff, geInt_iff, Legal]
  rw [Fin.forall_fin_succ, Fin.forall_fin_succ, Fin.forall_fin_succ]
  simp

/-- C05: `transform` returns for legal operations (with the container's image of the point) and
raises `ValueError` for all others. -/
theorem c05_transform_guard (A : Atoms) (r : Vec) (n : Op) :
    (Legal A n → A.transform r n = .ok (A.rawTransform r n)) ∧
    (¬ Legal A n → A.transform r n = .error .valueError) := by
  unfold Atoms.transform
  rw [checkOp_cases]
  constructor
  · intro h; rw [if_pos ((legal_iff A n).2 h)]; rfl
  · intro h; rw [if_neg (fun e => h ((legal_iff A n).1 e))]; rfl

/-- C05 for `rotation`. -/
theorem c05_rotation_guard (A : Atoms) (n : Op) :
    (Legal A n → A.rotation n = .ok (A.rawRotation n)) ∧
    (¬ Legal A n → A.rotation n = .error .valueError) := by
  unfold Atoms.rotation
  rw [checkOp_cases]
  constructor
  · intro h; rw [if_pos ((legal_iff A n).2 h)]; rfl
  · intro h; rw [if_neg (fun e => h ((legal_iff A n).1 e))]; rfl

/-- C05 as an equivalence: the call raises exactly for illegal operations. -/
theorem c05_raises_iff (A : Atoms) (r : Vec) (n : Op) :
    A.transform r n = .error .valueError ↔ ¬ Legal A n := by
  constructor
  · intro h hl
    rw [(c05_transform_guard A r n).1 hl] at h
    cases h
  · exact (c05_transform_guard A r n).2

/-- A wedge of angle `2π/5`, periodic in z with height 3, holding one atom. -/
noncomputable def exWedge5 : Atoms where
  ctype := .wedge
  atoms := [("C", ![1, 0, 0])]
  cell := !![0, 0, 0; 3, 0, 0; 2 * π / (5 : ℤ), 0, 0]
  pbc := ![true, false, true]

theorem exWedge5_ranges : exWedge5.ranges =
    ![(.fin (-2), .fin 2), (.fin 0, .fin 0), (.negInf, .posInf)] := by
  have : wedgeM exWedge5.wedgeAngle = 5 := by
    have := wedgeM_two_pi_div (M := 5) (by norm_num)
    simpa [Atoms.wedgeAngle, exWedge5] using this
  simp only [Atoms.ranges, exWedge5] at this ⊢
  rw [this]
  simp [angularRange, rangeOf, rangeZero, rangeInf, Atoms.wedgePbcz]

/-- Both sides of the guard occur: operation (2,0,-7) is legal, (3,0,0) is not. -/
example : Legal exWedge5 ![2, 0, -7] ∧ ¬ Legal exWedge5 ![3, 0, 0] := by
  constructor <;> rw [← legal_iff, exWedge5_ranges] <;> decide

/-! ## C01: composition -/

/-- The identity operation leaves every point in place (all ten container types). -/
theorem c01_identity (A : Atoms) (r : Vec) (h0 : Legal A 0) : A.transform r 0 = .ok r := by
  rw [(c05_transform_guard A r 0).1 h0]
  congr 1
  unfold Atoms.rawTransform
  cases hA : A.ctype <;>
    simp [Atoms.rawRotation, hA, rotZ_zero, rotY_zero, sphereRotation, slabTransform]
  all_goals (ext i; fin_cases i <;> simp [Matrix.vecHead, Matrix.vecTail])

/-- The unguarded operations of the commuting containers compose by adding the triples. -/
theorem rawTransform_add (A : Atoms) (hA : Commuting A.ctype) (r : Vec) (n m : Op) :
    A.rawTransform (A.rawTransform r n) m = A.rawTransform r (n + m) := by
  unfold Atoms.rawTransform
  cases h : A.ctype <;> rw [h] at hA <;> simp only [Commuting] at hA <;>
    simp only [Atoms.rawRotation, h]
  case bravais =>
    ext i; simp; ring
  case wedge =>
    cases A.wedgePbcz
    · simp only [Bool.false_eq_true, if_false]
      rw [zvec_zero, mulVec_rot_z_add]; simp [add_mul]
    · simp only [if_true, zvec_smul]
      rw [mulVec_rot_z_add]; simp [add_mul]
  case chiral =>
    rw [mulVec_rot_z_add]; simp [add_mul]
  case doubleChiral =>
    rw [mulVec_rot_z_add]
    simp only [Pi.add_apply, Int.cast_add]; ring_nf
  case chiralWedge =>
    simp only [zvec_smul]
    rw [mulVec_rot_z_add]
    simp only [Pi.add_apply, Int.cast_add]; ring_nf
  case wedgeYAxis =>
    cases A.wedgeYPbc
    · have : (0 : Vec) = ![0, 0, 0] := zvec_zero
      simp only [Bool.false_eq_true, if_false]
      rw [this, mulVec_rot_y_add]; simp [add_mul]
    · simp only [if_true, yvec_smul]
      rw [mulVec_rot_y_add]; simp [add_mul]
  case chiralGeneral =>
    simp only [zvec_smul, zvec_add]
    rw [mulVec_rot_z_add]
    simp only [Pi.add_apply, Int.cast_add]; ring_nf

/-- C01: performing `n` and then `m` is performing `n+m`, for every commuting container. -/
theorem c01_compose (A : Atoms) (hA : Commuting A.ctype) (r : Vec) (n m : Op)
    (hn : Legal A n) (hm : Legal A m) (hnm : Legal A (n + m)) :
    (do let r1 ← A.transform r n; A.transform r1 m) = A.transform r (n + m) := by
  rw [(c05_transform_guard A r n).1 hn, (c05_transform_guard A r _).1 hnm]
  show A.transform _ m = _
  rw [(c05_transform_guard A _ m).1 hm, rawTransform_add A hA]

/-- C01: `n` followed by `-n` returns to the starting point. -/
theorem c01_inverse (A : Atoms) (hA : Commuting A.ctype) (r : Vec) (n : Op)
    (h0 : Legal A 0) (hn : Legal A n) (hm : Legal A (-n)) :
    (do let r1 ← A.transform r n; A.transform r1 (-n)) = .ok r := by
  rw [c01_compose A hA r n (-n) hn hm (by simpa using h0), add_neg_cancel, c01_identity A r h0]

/-- C01: the order of two operations is irrelevant (even if their sum is out of range). -/
theorem c01_commute (A : Atoms) (hA : Commuting A.ctype) (r : Vec) (n m : Op)
    (hn : Legal A n) (hm : Legal A m) :
    (do let r1 ← A.transform r n; A.transform r1 m) =
    (do let r1 ← A.transform r m; A.transform r1 n) := by
  rw [(c05_transform_guard A r n).1 hn, (c05_transform_guard A r m).1 hm]
  show A.transform _ m = A.transform _ n
  rw [(c05_transform_guard A _ m).1 hm, (c05_transform_guard A _ n).1 hn,
    rawTransform_add A hA, rawTransform_add A hA, add_comm]

/-- C01 for `Slab`: composition holds as well if the two lattice vectors lie in the plane. -/
theorem c01_compose_slab (A : Atoms) (hA : A.ctype = .slab) (h0 : A.cell 0 2 = 0)
    (h1 : A.cell 1 2 = 0) (r : Vec) (n m : Op)
    (hn : Legal A n) (hm : Legal A m) (hnm : Legal A (n + m)) :
    (do let r1 ← A.transform r n; A.transform r1 m) = A.transform r (n + m) := by
  rw [(c05_transform_guard A r n).1 hn, (c05_transform_guard A r _).1 hnm]
  show A.transform _ m = _
  rw [(c05_transform_guard A _ m).1 hm]
  have b : ∀ k : Op, Legal A k → 0 ≤ k 2 ∧ k 2 ≤ 1 := by
    intro k hk
    have := hk 2
    simp only [Atoms.ranges, hA, Bound.toEReal] at this
    simp at this
    obtain ⟨h1, h2⟩ := this
    exact ⟨by exact_mod_cast h1, by exact_mod_cast h2⟩
  have bn := b n hn; have bm := b m hm; have bnm := b _ hnm
  simp only [Pi.add_apply] at bnm
  congr 1
  unfold Atoms.rawTransform
  simp only [hA, slabTransform]
  have c : (n 2 = 0 ∧ m 2 = 0) ∨ (n 2 = 1 ∧ m 2 = 0) ∨ (n 2 = 0 ∧ m 2 = 1) := by omega
  rcases c with ⟨e1, e2⟩ | ⟨e1, e2⟩ | ⟨e1, e2⟩ <;> simp only [Pi.add_apply, e1, e2] <;> ext i <;>
    fin_cases i <;> simp [-Matrix.cons_add, -Matrix.add_cons, h0, h1] <;> ring

/-- The identity is always legal except for a degenerate wedge. -/
theorem legal_zero (A : Atoms)
    (h : A.ctype = .wedge ∨ A.ctype = .wedgeYAxis → 1 ≤ wedgeM A.wedgeAngle)
    (h' : A.ctype = .chiralWedge → 1 ≤ wedgeM |A.wedgeAngle|) : Legal A 0 := by
  have fz : ∀ a : ℤ, ((0 : Op) : Fin 3 → ℤ) 0 = 0 := fun _ => rfl
  intro i
  unfold Atoms.ranges
  cases hA : A.ctype
  case bravais => cases hp : A.pbc i <;> simp [hp, rangeInf, rangeZero, Bound.toEReal]
  case wedge =>
    have := angularRange_mem_zero (h (Or.inl hA))
    fin_cases i
    · simp [rangeOf, Bound.toEReal]; exact_mod_cast this
    · simp [rangeZero, Bound.toEReal]
    · cases hp : A.wedgePbcz <;> simp [hp, rangeInf, rangeZero, Bound.toEReal]
  case wedgeYAxis =>
    have := angularRange_mem_zero (h (Or.inr hA))
    fin_cases i
    · simp [rangeOf, Bound.toEReal]; exact_mod_cast this
    · cases hp : A.wedgeYPbc <;> simp [hp, rangeInf, rangeZero, Bound.toEReal]
    · simp [rangeZero, Bound.toEReal]
  case chiralWedge =>
    have := angularRange_mem_zero (h' hA)
    fin_cases i
    · simp [rangeOf, Bound.toEReal]; exact_mod_cast this
    · simp [rangeZero, Bound.toEReal]
    · simp [rangeInf, Bound.toEReal]
  all_goals fin_cases i <;> simp [rangeInf, rangeZero, Bound.toEReal]

/-- Non-vacuity of C01: operations (1,0,4), (-2,0,3) and their sum are legal in `exWedge5`. -/
example : Commuting exWedge5.ctype ∧ Legal exWedge5 ![1, 0, 4] ∧ Legal exWedge5 ![-2, 0, 3] ∧
    Legal exWedge5 (![1, 0, 4] + ![-2, 0, 3]) := by
  refine ⟨trivial, ?_, ?_, ?_⟩ <;> rw [← legal_iff, exWedge5_ranges] <;> decide

/-! ## C02: rigid motions -/

/-- The rotation axis that the Sphere container computes is not the zero vector
(`sphere.py` divides by its norm); no condition for the other containers. -/
def AxisOk (A : Atoms) (n : Op) : Prop :=
  A.ctype = .sphere → ¬ (n 0 = n 1 ∧ n 1 = 0) →
    (A.sphereMode = 3 → A.sphereN1 ≠ 0 ∧ A.sphereN2 ≠ 0) ∧
    (A.sphereMode ≠ 3 →
      (fun i => A.sphereAngle1 * n 0 * A.sphereN1 i + A.sphereAngle2 * n 1 * A.sphereN2 i)
        ≠ (0 : Vec))

theorem sphere_orth (A : Atoms) (n : Op) (hs : A.ctype = .sphere) (h : AxisOk A n) :
    (sphereRotation A n)ᵀ * sphereRotation A n = 1 ∧ (sphereRotation A n).det = 1 := by
  unfold sphereRotation
  by_cases h0 : n 0 = n 1 ∧ n 1 = 0
  · simp [h0]
  · rw [if_neg h0]
    obtain ⟨h3, h4⟩ := h hs h0
    by_cases hm : A.sphereMode = 3
    · simp only [hm, if_true]
      obtain ⟨a1, a2⟩ := h3 hm
      refine ⟨orth_mul (orth_pow (rotationMatrix_orth a2 _) _) (orth_mul (orth_pow
        (rotationMatrix_orth a1 _) _) (orth_pow (orth_mul (rotationMatrix_orth a2 _)
        (rotationMatrix_orth a1 _)) _)), ?_⟩
      simp [Matrix.det_mul, Matrix.det_pow, rotationMatrix_det a1, rotationMatrix_det a2]
    · simp only [hm, if_false]
      exact ⟨rotationMatrix_orth (h4 hm) _, rotationMatrix_det (h4 hm) _⟩

theorem tat_axis (a : ℝ) : (![-sin (a / 2), cos (a / 2), 0] : Vec) ≠ 0 := by
  intro h
  have h0 := congrFun h 0
  have h1 := congrFun h 1
  simp at h0 h1
  have := sin_sq_add_cos_sq (a / 2)
  rw [h0, h1] at this; norm_num at this

theorem z_axis : (![0, 0, 1] : Vec) ≠ 0 := by
  intro h; have h0 := congrFun h 2; simp at h0

/-- C02: the rotation part of every operation is an orthogonal matrix, of determinant one except
for the reflecting operation of Slab (all ten container types). -/
theorem c02_rotation_orthogonal (A : Atoms) (n : Op) (hn : Legal A n) (hax : AxisOk A n) :
    ∃ R, A.rotation n = .ok R ∧ Rᵀ * R = 1 ∧
      R.det = (if A.ctype = .slab ∧ n 2 = 1 then -1 else 1) := by
  refine ⟨_, (c05_rotation_guard A n).1 hn, ?_⟩
  unfold Atoms.rawRotation
  cases hA : A.ctype <;> simp only []
  case sphere => simpa using sphere_orth A n hA hax
  case slab =>
    have : 0 ≤ n 2 ∧ n 2 ≤ 1 := by
      have := (legal_iff A n).2 hn
      simp [Atoms.ranges, hA, Bound.leInt, Bound.geInt] at this
      exact this.2.2
    by_cases h : n 2 = 0
    · simp [h]
    · have h1 : n 2 = 1 := by omega
      simp only [h, h1, if_true, if_false, and_self]
      constructor
      · ext i j; fin_cases i <;> fin_cases j <;>
          simp [Matrix.mul_apply, Fin.sum_univ_three, Matrix.transpose_apply]
      · simp [Matrix.det_fin_three]
  case twistAndTurn =>
    split
    · simp
    · refine ⟨orth_mul (rotationMatrix_orth (tat_axis _) _) (rotationMatrix_orth z_axis _), ?_⟩
      simp [Matrix.det_mul, rotationMatrix_det (tat_axis _), rotationMatrix_det z_axis]
  all_goals simp [rotZ_orth, rotY_orth, rotZ_det, rotY_det]

/-- The operation is affine with linear part `rotation(n)`; all containers but TwistAndTurn. -/
theorem rawTransform_affine (A : Atoms) (hA : A.ctype ≠ .twistAndTurn) (n : Op)
    (hn : Legal A n) (r s : Vec) :
    A.rawTransform r n - A.rawTransform s n = (A.rawRotation n).mulVec (r - s) := by
  unfold Atoms.rawTransform
  cases h : A.ctype <;> simp only []
  case twistAndTurn => exact absurd h hA
  case bravais => simp [Atoms.rawRotation, h]
  case slab =>
    have : 0 ≤ n 2 ∧ n 2 ≤ 1 := by
      have := (legal_iff A n).2 hn
      simp [Atoms.ranges, h, Bound.leInt, Bound.geInt] at this
      exact this.2.2
    simp only [Atoms.rawRotation, h, slabTransform]
    rcases (by omega : n 2 = 0 ∨ n 2 = 1) with e | e
    · simp [e]
    · simp only [e]
      ext i; fin_cases i <;> simp [Matrix.mulVec, dotProduct, Fin.sum_univ_three]
      ring
  all_goals (rw [Matrix.mulVec_sub]; try abel)

/-- C02: differences of images are the rotated differences, hence every operation is a rigid
motion (every container except TwistAndTurn). -/
theorem c02_rigid (A : Atoms) (hA : A.ctype ≠ .twistAndTurn) (n : Op) (hn : Legal A n)
    (hax : AxisOk A n) :
    ∃ R f, A.rotation n = .ok R ∧ (∀ r, A.transform r n = .ok (f r)) ∧
      (∀ r s, f r - f s = R.mulVec (r - s)) ∧ IsRigid f := by
  obtain ⟨R, hR, ho, -⟩ := c02_rotation_orthogonal A n hn hax
  have e : R = A.rawRotation n := by
    rw [(c05_rotation_guard A n).1 hn] at hR; exact (Except.ok.inj hR).symm
  refine ⟨R, fun r => A.rawTransform r n, hR, fun r => (c05_transform_guard A r n).1 hn, ?_, ?_⟩
  · intro r s; rw [e]; exact rawTransform_affine A hA n hn r s
  · intro r s; show norm3 (A.rawTransform r n - A.rawTransform s n) = _
    rw [rawTransform_affine A hA n hn, ← e, orth_norm ho]

/-- C02: in the commuting containers rotation matrices multiply when operations add. -/
theorem c02_rotation_hom (A : Atoms) (hA : Commuting A.ctype) (n m : Op)
    (hn : Legal A n) (hm : Legal A m) (hnm : Legal A (n + m)) :
    (do let P ← A.rotation n; let Q ← A.rotation m; return P * Q) = A.rotation (n + m) := by
  rw [(c05_rotation_guard A n).1 hn, (c05_rotation_guard A m).1 hm,
    (c05_rotation_guard A _).1 hnm]
  show Except.ok _ = _
  congr 1
  unfold Atoms.rawRotation
  cases h : A.ctype <;> rw [h] at hA <;> simp only [Commuting] at hA <;>
    simp only [← rotZ_add, ← rotY_add, Pi.add_apply, Int.cast_add, Matrix.one_mul] <;>
    (try congr 1) <;> ring

/-- Non-vacuity of C02 for the most restrictive container: Sphere in mode 4 with distinct axes. -/
noncomputable def exSphere : Atoms where
  ctype := .sphere
  atoms := [("C", ![0, 0, 5])]
  cell := !![0, 1/2, 1/3; 1, 0, 4; 0, 1, 0]
  pbc := ![true, true, false]

example : exSphere.ctype ≠ .twistAndTurn ∧ Legal exSphere ![2, -3, 0] ∧
    AxisOk exSphere ![2, -3, 0] := by
  refine ⟨by simp [exSphere], ?_, ?_⟩
  · rw [← legal_iff]; simp [Atoms.ranges, exSphere, rangeInf, rangeZero]; decide
  · intro _ _
    refine ⟨fun h => ?_, fun _ h => ?_⟩
    · have : exSphere.sphereMode = 4 := by
        have := pyInt_intCast 4; simpa [Atoms.sphereMode, exSphere] using this
      rw [this] at h; norm_num at h
    · have := congrFun h 0
      simp [exSphere, Atoms.sphereAngle1, Atoms.sphereAngle2, Atoms.sphereN1, Atoms.sphereN2] at this

/-! ## C03: the operations of a physical wedge -/

/-- A wedge-type container whose angle is `2π/M` (for ChiralWedge also `-2π/M`), as `set` enforces
for physical wedges. -/
def PhysicalWedge (A : Atoms) (M : ℤ) : Prop :=
  1 ≤ M ∧
  ((A.ctype = .wedge ∨ A.ctype = .wedgeYAxis) ∧ A.wedgeAngle = 2 * π / M ∨
   A.ctype = .chiralWedge ∧ |A.wedgeAngle| = 2 * π / M)

/-- The rotation about the wedge's axis by `k` times its angle. -/
noncomputable def turn (A : Atoms) (k : ℤ) : Mat :=
  if A.ctype = .wedgeYAxis then rotY (k * A.wedgeAngle) else rotZ (k * A.wedgeAngle)

/-- The operations that only use the angular direction and are accepted. -/
def AngularOps (A : Atoms) : Set ℤ := {k | Legal A ![k, 0, 0]}

theorem angularOps_eq (A : Atoms) (M : ℤ) (h : PhysicalWedge A M) :
    AngularOps A = Set.Icc (angularRange M).1 (angularRange M).2 := by
  obtain ⟨hM, h⟩ := h
  have hw := wedgeM_two_pi_div (M := M) (by omega)
  ext k
  simp only [AngularOps, Set.mem_ofPred_eq, Set.mem_Icc]
  rw [← legal_iff]
  rcases h with ⟨hc | hc, ha⟩ | ⟨hc, ha⟩ <;> simp only [Atoms.ranges, hc, ha, hw]
  · cases A.wedgePbcz <;> simp [rangeOf, rangeZero, rangeInf, Bound.leInt, Bound.geInt]
  · cases A.wedgeYPbc <;> simp [rangeOf, rangeZero, rangeInf, Bound.leInt, Bound.geInt]
  · simp [rangeOf, rangeZero, rangeInf, Bound.leInt, Bound.geInt]

theorem rotation_turn (A : Atoms) (M : ℤ) (h : PhysicalWedge A M) (k : ℤ) :
    A.rawRotation ![k, 0, 0] = turn A k ∧
    ∀ r, A.rawTransform r ![k, 0, 0] = (turn A k).mulVec r := by
  have key : A.rawRotation ![k, 0, 0] = turn A k := by
    rcases h.2 with ⟨hc | hc, ha⟩ | ⟨hc, ha⟩ <;> simp [Atoms.rawRotation, hc, turn, Atoms.wedgeAngle]
  refine ⟨key, fun r => ?_⟩
  rw [← key]
  rcases h.2 with ⟨hc | hc, ha⟩ | ⟨hc, ha⟩ <;> simp [Atoms.rawTransform, hc]

theorem turn_eq_iff (A : Atoms) (M : ℤ) (h : PhysicalWedge A M) (j k : ℤ) :
    turn A j = turn A k ↔ M ∣ j - k := by
  have hM : (M : ℝ) ≠ 0 := by have := h.1; exact_mod_cast (by omega : M ≠ 0)
  have hpi : (2 * π) ≠ 0 := by positivity
  have hang : A.wedgeAngle = 2 * π / M ∨ A.wedgeAngle = -(2 * π / M) := by
    rcases h.2 with ⟨-, ha⟩ | ⟨-, ha⟩
    · exact Or.inl ha
    · exact eq_or_eq_neg_of_abs_eq ha
  obtain ⟨σ, hσ, hang⟩ : ∃ σ : ℤ, (σ = 1 ∨ σ = -1) ∧ A.wedgeAngle = σ * (2 * π / M) := by
    rcases hang with e | e
    · exact ⟨1, Or.inl rfl, by simpa using e⟩
    · exact ⟨-1, Or.inr rfl, by simpa using e⟩
  constructor
  · intro e
    have : ∃ q : ℤ, (j : ℝ) * A.wedgeAngle - k * A.wedgeAngle = q * (2 * π) := by
      unfold turn at e
      split at e
      · exact rotY_inj e
      · exact rotZ_inj e
    obtain ⟨q, hq⟩ := this
    rw [hang] at hq
    have h2 : ((j - k : ℤ) : ℝ) * σ = ((q * M : ℤ) : ℝ) := by
      push_cast
      field_simp at hq
      linear_combination hq
    have h3 : (j - k) * σ = q * M := by exact_mod_cast h2
    refine ⟨q * σ, ?_⟩
    rcases hσ with rfl | rfl
    · linarith
    · linarith
  · rintro ⟨q, hq⟩
    have : (j : ℝ) * A.wedgeAngle = k * A.wedgeAngle + (q * σ : ℤ) * (2 * π) := by
      have : (j : ℝ) = k + M * q := by exact_mod_cast (by linarith : j = k + M * q)
      rw [this, hang]; push_cast; field_simp
    unfold turn
    rw [this, rotY_periodic, rotZ_periodic]

/-- C03: a physical wedge accepts exactly `M` angular operations. -/
theorem c03_count (A : Atoms) (M : ℤ) (h : PhysicalWedge A M) :
    ((AngularOps A).ncard : ℤ) = M ∧ 0 ∈ AngularOps A := by
  rw [angularOps_eq A M h]
  have := angularRange_spec (M := M)
  have h0 := angularRange_mem_zero h.1
  refine ⟨?_, h0⟩
  rw [← Finset.coe_Icc, Set.ncard_coe_finset, Int.card_Icc]
  have := h.1
  omega

/-- C03: different accepted angular operations are different rotations. -/
theorem c03_distinct (A : Atoms) (M : ℤ) (h : PhysicalWedge A M) (j k : ℤ)
    (hj : j ∈ AngularOps A) (hk : k ∈ AngularOps A) (hjk : j ≠ k) :
    A.rotation ![j, 0, 0] ≠ A.rotation ![k, 0, 0] := by
  have aj := hj; have ak := hk
  rw [angularOps_eq A M h] at aj ak
  rw [(c05_rotation_guard A _).1 hj, (c05_rotation_guard A _).1 hk,
    (rotation_turn A M h j).1, (rotation_turn A M h k).1]
  intro e
  have := (turn_eq_iff A M h j k).1 (Except.ok.inj e)
  obtain ⟨q, hq⟩ := this
  have hs := angularRange_spec (M := M)
  have h1 := aj.1; have h2 := aj.2; have h3 := ak.1; have h4 := ak.2
  have hM := h.1
  have : q = 0 := by
    by_contra hne
    rcases lt_or_gt_of_ne hne with hlt | hgt
    · nlinarith
    · nlinarith
  rw [this] at hq; omega

/-- C03: every integer number `z` of turns by the wedge angle is performed by exactly one accepted
operation. -/
theorem c03_complete (A : Atoms) (M : ℤ) (h : PhysicalWedge A M) (z : ℤ) :
    ∃! k, k ∈ AngularOps A ∧ ∀ r, A.transform r ![k, 0, 0] = .ok ((turn A z).mulVec r) := by
  have hM := h.1
  have hs := angularRange_spec (M := M)
  set lo := (angularRange M).1
  have hk : ∀ k, (k ∈ AngularOps A ∧ ∀ r, A.transform r ![k, 0, 0] = .ok ((turn A z).mulVec r)) ↔
      (lo ≤ k ∧ k ≤ (angularRange M).2) ∧ M ∣ k - z := by
    intro k
    rw [← turn_eq_iff A M h]
    constructor
    · rintro ⟨h1, h2⟩
      refine ⟨by rw [angularOps_eq A M h] at h1; exact h1, ?_⟩
      ext i j
      have e := h2 (Pi.single j 1)
      rw [(c05_transform_guard A _ _).1 h1, (rotation_turn A M h k).2] at e
      have := congrFun (Except.ok.inj e) i
      simpa using this
    · rintro ⟨h1, h2⟩
      have hm : k ∈ AngularOps A := by rw [angularOps_eq A M h]; exact h1
      refine ⟨hm, fun r => ?_⟩
      rw [(c05_transform_guard A _ _).1 hm, (rotation_turn A M h k).2, h2]
  simp only [hk]
  refine ⟨lo + (z - lo) % M, ⟨⟨?_, ?_⟩, ?_⟩, ?_⟩
  · have := Int.emod_nonneg (z - lo) (by omega : M ≠ 0); omega
  · have := Int.emod_lt_of_pos (z - lo) (by omega : 0 < M); omega
  · have := Int.emod_add_mul_ediv (z - lo) M
    exact ⟨-((z - lo) / M), by linarith⟩
  · rintro k ⟨⟨h1, h2⟩, q, hq⟩
    have : (z - lo) % M = k - lo := by
      rw [show z - lo = (k - lo) + M * (-q) by linarith, Int.add_mul_emod_self_left]
      exact Int.emod_eq_of_lt (by omega) (by omega)
    omega

/-- C03: hence two accepted angular operations in a row always amount to an accepted one. -/
theorem c03_closed (A : Atoms) (M : ℤ) (h : PhysicalWedge A M) (j k : ℤ)
    (hj : j ∈ AngularOps A) (hk : k ∈ AngularOps A) :
    ∃ l ∈ AngularOps A, ∀ r,
      (do let r1 ← A.transform r ![j, 0, 0]; A.transform r1 ![k, 0, 0]) = A.transform r ![l, 0, 0] := by
  obtain ⟨l, ⟨hl, e⟩, -⟩ := c03_complete A M h (j + k)
  refine ⟨l, hl, fun r => ?_⟩
  have hc : Commuting A.ctype := by
    rcases h.2 with ⟨hc | hc, -⟩ | ⟨hc, -⟩ <;> rw [hc] <;> trivial
  rw [e, (c05_transform_guard A r _).1 hj]
  show A.transform _ _ = _
  rw [(c05_transform_guard A _ _).1 hk, rawTransform_add A hc,
    ← (rotation_turn A M h (j + k)).2]
  simp

/-- Non-vacuity of C03: `exWedge5` is a physical wedge with `M = 5`. -/
example : PhysicalWedge exWedge5 5 :=
  ⟨by norm_num, Or.inl ⟨Or.inl rfl, by simp [exWedge5, Atoms.wedgeAngle]⟩⟩

/-! ## C04: the declared equivalent operations -/

/-- C04: in DoubleChiral with half-integer `x` (what `set` accepts) the glide operation done twice
is the operation declared as `equivalent` in the table. -/
theorem c04_double_chiral (A : Atoms) (hA : A.ctype = .doubleChiral)
    (q : ℤ) (hx : 2 * A.cell 0 1 = q) (eq : Op) (heq : (A.table 0).equivalent = some eq) (r : Vec) :
    (do let r1 ← A.transform r ![1, 0, 0]; A.transform r1 ![1, 0, 0]) = A.transform r eq := by
  have he : eq = ![0, 0, q] := by
    simp only [Atoms.table, hA, hx, pyRound_intCast] at heq
    split at heq
    · simpa using heq.symm
    · simp at heq
  have leg : ∀ a c : ℤ, 0 ≤ a → a ≤ 1 → Legal A ![a, 0, c] := by
    intro a c h0 h1
    rw [← legal_iff]
    simp [Atoms.ranges, hA, rangeZero, rangeInf, Bound.leInt, Bound.geInt, h0, h1]
  rw [he, (c05_transform_guard A _ _).1 (leg 1 0 (by norm_num) (by norm_num)),
    (c05_transform_guard A _ _).1 (leg 0 q (by norm_num) (by norm_num))]
  show A.transform _ _ = _
  rw [(c05_transform_guard A _ _).1 (leg 1 0 (by norm_num) (by norm_num)),
    rawTransform_add A (by rw [hA]; trivial)]
  congr 1
  simp only [Atoms.rawTransform, Atoms.rawRotation, hA]
  have e1 : ((![1, 0, 0] + ![1, 0, 0] : Op) 2 : ℝ) * A.cell 1 0
      + ((![1, 0, 0] + ![1, 0, 0] : Op) 0 : ℝ) * (π + A.cell 1 0 * A.cell 0 1)
      = (q : ℝ) * A.cell 1 0 + (1 : ℤ) * (2 * π) := by
    simp; rw [← hx]; ring
  have e2 : (((![1, 0, 0] + ![1, 0, 0] : Op) 2 : ℝ)
      + ((![1, 0, 0] + ![1, 0, 0] : Op) 0 : ℝ) * A.cell 0 1) * A.cell 2 0 = q * A.cell 2 0 := by
    rw [← hx]; norm_num; exact Or.inl rfl
  rw [e1, e2, rotZ_periodic]
  simp

/-- C04, `x = 0`: without a declared equivalent operation the glide operation is an involution
(its table entry says `M = 2`). -/
theorem c04_double_chiral_zero (A : Atoms) (hA : A.ctype = .doubleChiral) (hx : A.cell 0 1 = 0)
    (r : Vec) :
    (do let r1 ← A.transform r ![1, 0, 0]; A.transform r1 ![1, 0, 0]) = .ok r := by
  have leg : Legal A ![1, 0, 0] := by
    rw [← legal_iff]
    simp [Atoms.ranges, hA, rangeZero, rangeInf, Bound.leInt, Bound.geInt]
  rw [(c05_transform_guard A _ _).1 leg]
  show A.transform _ _ = _
  rw [(c05_transform_guard A _ _).1 leg, rawTransform_add A (by rw [hA]; trivial)]
  congr 1
  simp only [Atoms.rawTransform, Atoms.rawRotation, hA, hx]
  have e1 : ((![1, 0, 0] + ![1, 0, 0] : Op) 2 : ℝ) * A.cell 1 0
      + ((![1, 0, 0] + ![1, 0, 0] : Op) 0 : ℝ) * (π + A.cell 1 0 * 0)
      = 0 + (1 : ℤ) * (2 * π) := by
    norm_num; exact Or.inl rfl
  rw [e1, rotZ_periodic, rotZ_zero]
  ext i; fin_cases i <;> simp

/-- C04 for Slab with in-plane lattice vectors and half-integer `x`. -/
theorem c04_slab (A : Atoms) (hA : A.ctype = .slab) (h0 : A.cell 0 2 = 0) (h1 : A.cell 1 2 = 0)
    (q0 q1 : ℤ) (hx0 : 2 * A.slabX 0 = q0) (hx1 : 2 * A.slabX 1 = q1)
    (eq : Op) (heq : (A.table 2).equivalent = some eq) (r : Vec) :
    (do let r1 ← A.transform r ![0, 0, 1]; A.transform r1 ![0, 0, 1]) = A.transform r eq := by
  have he : eq = ![q0, q1, 0] := by
    simp only [Atoms.table, hA, hx0, hx1, pyRound_intCast] at heq
    split at heq
    · simpa using heq.symm
    · simp at heq
  have leg : ∀ a b c : ℤ, 0 ≤ c → c ≤ 1 → Legal A ![a, b, c] := by
    intro a b c h0 h1
    rw [← legal_iff]
    simp [Atoms.ranges, hA, rangeInf, Bound.leInt, Bound.geInt, h0, h1]
  rw [he, (c05_transform_guard A _ _).1 (leg 0 0 1 (by norm_num) (by norm_num)),
    (c05_transform_guard A _ _).1 (leg q0 q1 0 (by norm_num) (by norm_num))]
  show A.transform _ _ = _
  rw [(c05_transform_guard A _ _).1 (leg 0 0 1 (by norm_num) (by norm_num))]
  congr 1
  simp only [Atoms.rawTransform, hA, slabTransform]
  ext i; fin_cases i <;> simp [-Matrix.cons_add, -Matrix.add_cons, h0, h1, ← hx0, ← hx1] <;> ring

/-- A polyethylene-like double chain: angle 1/2, height 2, x = 1/2. -/
noncomputable def exDouble : Atoms where
  ctype := .doubleChiral
  atoms := [("C", ![1, 0, 0])]
  cell := !![0, 1/2, 0; 1/2, 0, 0; 2, 0, 0]
  pbc := ![true, false, true]

/-- Non-vacuity of C04: `exDouble` declares the equivalent operation (0,0,1). -/
example : exDouble.ctype = .doubleChiral ∧ 2 * exDouble.cell 0 1 = (1 : ℤ) ∧
    (exDouble.table 0).equivalent = some ![0, 0, 1] := by
  have h : 2 * exDouble.cell 0 1 = ((1 : ℤ) : ℝ) := by simp [exDouble]
  refine ⟨rfl, h, ?_⟩
  have ht : exDouble.ctype = .doubleChiral := rfl
  have hc : exDouble.cell 0 1 = 1/2 := by simp [exDouble]
  simp only [Atoms.table, ht, h, pyRound_intCast]
  rw [if_pos (by rw [hc, abs_of_pos] <;> norm_num)]
  simp

/-- Slab with glide x = (1/2, 0). -/
noncomputable def exSlab : Atoms where
  ctype := .slab
  atoms := [("C", ![1, 0, 1])]
  cell := !![3, 0, 0; 0, 4, 0; 0, 0, 9]
  pbc := fun _ => true
  slabX := ![1/2, 0]

example : exSlab.cell 0 2 = 0 ∧ exSlab.cell 1 2 = 0 ∧ 2 * exSlab.slabX 0 = (1 : ℤ) ∧
    2 * exSlab.slabX 1 = (0 : ℤ) ∧ (exSlab.table 2).equivalent = some ![1, 0, 0] := by
  have h0 : 2 * exSlab.slabX 0 = ((1 : ℤ) : ℝ) := by simp [exSlab]
  have h1 : 2 * exSlab.slabX 1 = ((0 : ℤ) : ℝ) := by simp [exSlab]
  refine ⟨by simp [exSlab], by simp [exSlab], h0, h1, ?_⟩
  have ht : exSlab.ctype = .slab := rfl
  have hc : exSlab.slabX 0 = 1/2 := by simp [exSlab]
  simp only [Atoms.table, ht, h0, h1, pyRound_intCast]
  rw [if_pos (Or.inl (by rw [hc, abs_of_pos] <;> norm_num))]
  simp

end Hotbit
