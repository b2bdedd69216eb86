import Verif.Model.Saddle
import Verif.Lemmas.Containers
import Verif.Props.Containers
import Verif.Lemmas.Telescope

/-!
# C120: containers made by name; the saddle container

* `c120_made` – which names `Atoms(container=…)` accepts; `c120_made_fails` – three container
  classes that are offered cannot be made.
* `c120_set` – parameters that are set are kept, the others unchanged.
* `c120_unset` – an operation of a container without its parameters raises.
* `c120_rigid` – the operations are rigid motions, `rotation` is their rotation part.
* `c120_compose_partial` – operations along one direction compose by adding their numbers.
* `c120_order_fails` – operations along different directions do not, for any parameters that bend
  both directions.
-/

namespace Hotbit

open Matrix Real

/-- A container is made exactly for the plain cell and the nine kinds that can be stored. -/
theorem c120_made (name : String) :
    (∃ c, makeContainer name = .ok c) ↔
      name ∈ ["Bravais", "Wedge", "Chiral", "DoubleChiral", "Sphere", "Slab", "ChiralWedge",
        "WedgeYAxis", "TwistAndTurn", "ChiralGeneral"] := by
  unfold makeContainer
  constructor
  · intro ⟨c, h⟩
    split_ifs at h with h1 h2 h3 h4
    · simp [h3]
    · simp only [magicNames, List.mem_cons, List.not_mem_nil, or_false] at h4
      simp only [List.mem_cons, List.not_mem_nil, or_false]
      tauto
  · intro h
    simp only [List.mem_cons, List.not_mem_nil, or_false] at h
    rcases h with h | h | h | h | h | h | h | h | h | h <;> subst h <;>
      simp [containerClasses, magicNames]

/-- Three of the container classes cannot be made. -/
theorem c120_made_fails :
    makeContainer "Saddle" = .error .valueError ∧
    makeContainer "Gaussian" = .error .notImplementedError ∧
    makeContainer "ContainerTest1" = .error .valueError := by
  simp [makeContainer, containerClasses, magicNames]

/-- Parameters that are given are stored; those that are not given stay. -/
theorem c120_set (S : Saddle) (a b R : Option ℝ) :
    ((S.set a b R).angle1 = if a.isSome then a else S.angle1) ∧
    ((S.set a b R).angle2 = if b.isSome then b else S.angle2) ∧
    ((S.set a b R).R = if R.isSome then R else S.R) ∧
    (∀ C : Saddle, C.angle1.isSome → C.angle2.isSome → C.R.isSome → S.setFrom C = C) := by
  refine ⟨?_, ?_, ?_, ?_⟩
  · cases a <;> rfl
  · cases b <;> rfl
  · cases R <;> rfl
  · rintro ⟨a, b, R⟩ h1 h2 h3
    cases a <;> cases b <;> cases R <;> simp_all [Saddle.setFrom, Saddle.set]

/-- Any operation but the identity raises until all parameters have been set. -/
theorem c120_unset (S : Saddle) (n : Op) (r : Vec) (hn : n 0 ≠ 0 ∨ n 1 ≠ 0)
    (h : S.angle1 = none ∨ S.angle2 = none ∨ S.R = none) :
    S.transform r n = .error .typeError := by
  have h0 : ¬ (n 0 = n 1 ∧ n 1 = 0) := by
    rintro ⟨h1, h2⟩
    rcases hn with hn | hn
    · exact hn (h1.trans h2)
    · exact hn h2
  unfold Saddle.transform
  rw [if_neg h0]
  rcases S with ⟨a, b, R⟩
  cases a <;> cases b <;> cases R <;>
    simp_all [optVal, Bind.bind, Except.bind]

theorem saddle_axis1 (a : ℝ) : rotationMatrix Saddle.n1 a = rotY a := by
  have h : norm3 ![0, 1, 0] = 1 := by simp [norm3]
  ext i j; fin_cases i <;> fin_cases j <;> simp [rotationMatrix, rotY, Saddle.n1, h]

theorem saddle_axis2 (a : ℝ) :
    rotationMatrix Saddle.n2 a = !![1, 0, 0; 0, cos a, -sin a; 0, sin a, cos a] := by
  have h : norm3 ![1, 0, 0] = 1 := by simp [norm3]
  ext i j; fin_cases i <;> fin_cases j <;> simp [rotationMatrix, Saddle.n2, h]

theorem saddle_n1_ne : Saddle.n1 ≠ 0 := fun h => by have := congrFun h 1; simp [Saddle.n1] at this
theorem saddle_n2_ne : Saddle.n2 ≠ 0 := fun h => by have := congrFun h 0; simp [Saddle.n2] at this

theorem saddle_mul_iter (Q : Mat) (k : ℕ) : (fun rot : Mat => Q * rot)^[k] 1 = Q ^ k := by
  induction k with
  | zero => rfl
  | succ k ih => rw [Function.iterate_succ_apply', ih, ← pow_succ']

theorem saddle_affine_iter (P Q : Mat) (A : Vec) (k : ℕ) (r s : Vec) :
    (fun rp : Vec => A + P.mulVec (Q.mulVec rp - A))^[k] r -
      (fun rp : Vec => A + P.mulVec (Q.mulVec rp - A))^[k] s = ((P * Q) ^ k).mulVec (r - s) := by
  induction k with
  | zero => simp
  | succ k ih =>
    rw [Function.iterate_succ_apply', Function.iterate_succ_apply', pow_succ', ← mulVec_mulVec,
      ← ih, ← mulVec_mulVec, add_sub_add_left_eq_sub, ← mulVec_sub, sub_sub_sub_cancel_right,
      ← mulVec_sub]

theorem saddle_pow_orth (P : Mat) (h : Pᵀ * P = 1) (k : ℕ) : (P ^ k)ᵀ * P ^ k = 1 := by
  induction k with
  | zero => simp
  | succ k ih =>
    rw [pow_succ, transpose_mul, Matrix.mul_assoc, ← Matrix.mul_assoc (P ^ k)ᵀ, ih,
      Matrix.one_mul, h]

/-- Every operation is a rigid motion without reflection; `rotation` gives its rotation part. -/
theorem c120_rigid (a b R : ℝ) (n : Op) :
    ∃ Q f, (Saddle.mk a b R).rotation n = .ok Q ∧
      (∀ r, (Saddle.mk a b R).transform r n = .ok (f r)) ∧
      Qᵀ * Q = 1 ∧ Q.det = 1 ∧ (∀ r s, f r - f s = Q.mulVec (r - s)) ∧ IsRigid f := by
  have key : ∀ (Q : Mat) (f : Vec → Vec), Qᵀ * Q = 1 → (∀ r s, f r - f s = Q.mulVec (r - s)) →
      IsRigid f := by
    intro Q f hQ hf r s
    rw [hf]
    exact norm3_orth Q hQ _
  by_cases h : n 0 = n 1 ∧ n 1 = 0
  · refine ⟨1, id, if_pos h, fun r => if_pos h, by simp, by simp, by simp, ?_⟩
    exact key 1 id (by simp) (by simp)
  · set P := rotationMatrix Saddle.n2 (b * n 1 / 50)
    set Q := rotationMatrix Saddle.n1 (a * n 0 / 50)
    have o : (P * Q)ᵀ * (P * Q) = 1 := by
      rw [transpose_mul, Matrix.mul_assoc, ← Matrix.mul_assoc Pᵀ,
        rotationMatrix_orth saddle_n2_ne, Matrix.one_mul, rotationMatrix_orth saddle_n1_ne]
    refine ⟨(P * Q) ^ 50, _, (if_neg h).trans ?_, fun r => (if_neg h).trans rfl,
      saddle_pow_orth _ o _, ?_, fun r s => saddle_affine_iter P Q _ 50 r s,
      key _ _ (saddle_pow_orth _ o _) fun r s => saddle_affine_iter P Q _ 50 r s⟩
    · exact congrArg _ (saddle_mul_iter (P * Q) 50)
    · rw [det_pow, det_mul, rotationMatrix_det saddle_n2_ne, rotationMatrix_det saddle_n1_ne]
      norm_num

theorem saddle_rot_pow {v : Vec} (h : v ≠ 0) (t : ℝ) (k : ℕ) :
    rotationMatrix v t ^ k = rotationMatrix v (k * t) := by
  induction k with
  | zero => simp [rotationMatrix_zero]
  | succ k ih => rw [pow_succ, ih, ← rotationMatrix_add h]; congr 1; push_cast; ring

/-- An operation in the first direction turns about the y axis. -/
theorem saddle_first (a b R : ℝ) (n : ℤ) (r : Vec) :
    (Saddle.mk a b R).transform r ![n, 0, 0] = .ok ((rotationMatrix Saddle.n1 (a * n)).mulVec r) := by
  by_cases h : n = 0
  · subst h
    exact (if_pos ⟨rfl, rfl⟩).trans (by simp [rotationMatrix_zero])
  · refine (if_neg fun k => h (k.1.trans k.2)).trans (congrArg Except.ok ?_)
    have h2 : rotationMatrix Saddle.n2 (b * ((![n, 0, 0] : Op) 1 : ℤ) / 50) = 1 := by
      have : b * ((![n, 0, 0] : Op) 1 : ℤ) / 50 = 0 := by simp
      rw [this, rotationMatrix_zero]
    rw [h2]
    have h3 : ∀ (Q : Mat) (A : Vec) (k : ℕ),
        (fun rp : Vec => A + (1 : Mat).mulVec (Q.mulVec rp - A))^[k] r = (Q ^ k).mulVec r := by
      intro Q A k
      induction k with
      | zero => simp
      | succ k ih => rw [Function.iterate_succ_apply', ih]; simp [pow_succ']
    rw [h3, saddle_rot_pow saddle_n1_ne]
    congr 2
    simp
    ring

/-- An operation in the second direction turns about the line parallel to the x axis at height
`2 R`. -/
theorem saddle_second (a b R : ℝ) (n : ℤ) (r : Vec) :
    (Saddle.mk a b R).transform r ![0, n, 0] =
      .ok (![0, 0, 2 * R] + (rotationMatrix Saddle.n2 (b * n)).mulVec (r - ![0, 0, 2 * R])) := by
  by_cases h : n = 0
  · subst h
    refine (if_pos ⟨rfl, rfl⟩).trans (congrArg Except.ok ?_)
    have : b * ((0 : ℤ) : ℝ) = 0 := by simp
    rw [this, rotationMatrix_zero, one_mulVec, add_sub_cancel]
  · refine (if_neg fun k => h k.2).trans (congrArg Except.ok ?_)
    have h2 : rotationMatrix Saddle.n1 (a * ((![0, n, 0] : Op) 0 : ℤ) / 50) = 1 := by
      have : a * ((![0, n, 0] : Op) 0 : ℤ) / 50 = 0 := by simp
      rw [this, rotationMatrix_zero]
    rw [h2]
    have h3 : ∀ (Q : Mat) (A : Vec) (k : ℕ),
        (fun rp : Vec => A + Q.mulVec ((1 : Mat).mulVec rp - A))^[k] r
          = A + (Q ^ k).mulVec (r - A) := by
      intro Q A k
      induction k with
      | zero => simp
      | succ k ih => rw [Function.iterate_succ_apply', ih]; simp [pow_succ', sub_eq_add_neg]
    rw [h3, saddle_rot_pow saddle_n2_ne]
    congr 3
    simp
    ring

theorem saddle_bind (x : Vec) (f : Vec → Except Exn Vec) : (Except.ok x >>= f) = f x := rfl

/-- Operations along one of the two directions compose by adding their numbers.  For operations
along both directions see `c120_order_fails`. -/
theorem c120_compose_partial (a b R : ℝ) (n m : ℤ) (r : Vec) :
    (do let s ← (Saddle.mk a b R).transform r ![n, 0, 0]
        (Saddle.mk a b R).transform s ![m, 0, 0]) = (Saddle.mk a b R).transform r ![n + m, 0, 0] ∧
    (do let s ← (Saddle.mk a b R).transform r ![0, n, 0]
        (Saddle.mk a b R).transform s ![0, m, 0]) = (Saddle.mk a b R).transform r ![0, n + m, 0] := by
  constructor
  · rw [saddle_first, saddle_first]
    refine (saddle_first a b R m _).trans (congrArg Except.ok ?_)
    rw [mulVec_mulVec, ← rotationMatrix_add saddle_n1_ne]
    congr 2; push_cast; ring
  · rw [saddle_second, saddle_second]
    refine (saddle_second a b R m _).trans (congrArg Except.ok ?_)
    rw [add_sub_cancel_left, mulVec_mulVec, ← rotationMatrix_add saddle_n2_ne]
    congr 3; push_cast; ring

theorem saddle_order (a b R : ℝ) (ha : cos a ≠ 1) (hb : cos b ≠ 1) (hR : R ≠ 0) :
    ∃ r, ((Saddle.mk a b R).transform r ![1, 0, 0] >>= fun s =>
      (Saddle.mk a b R).transform s ![0, 1, 0]) ≠ ((Saddle.mk a b R).transform r ![0, 1, 0] >>=
        fun s => (Saddle.mk a b R).transform s ![1, 0, 0]) := by
  by_contra hc
  push Not at hc
  have e : ∀ r : Vec, ![0, 0, 2 * R] + (rotationMatrix Saddle.n2 b).mulVec
        ((rotationMatrix Saddle.n1 a).mulVec r - ![0, 0, 2 * R]) =
      (rotationMatrix Saddle.n1 a).mulVec (![0, 0, 2 * R] +
        (rotationMatrix Saddle.n2 b).mulVec (r - ![0, 0, 2 * R])) := by
    intro r
    have h := hc r
    rw [saddle_first, saddle_second] at h
    rw [saddle_bind, saddle_bind, saddle_first, saddle_second] at h
    have h2 := Except.ok.inj h
    simpa using h2
  simp only [saddle_axis1, saddle_axis2] at e
  have e0 := congrFun (e 0) 2
  simp [rotY, mulVec, dotProduct, Fin.sum_univ_three] at e0
  have : R * ((1 - cos b) * (1 - cos a)) = 0 := by linarith
  rcases mul_eq_zero.1 this with h | h
  · exact hR h
  · rcases mul_eq_zero.1 h with h | h
    · exact hb (by linarith)
    · exact ha (by linarith)

/-- Whenever both directions are really bent, a step in the first and one in the second direction
lead to different points depending on their order; so the operations cannot all compose by adding
their numbers. -/
theorem c120_order_fails (a b R : ℝ) (ha : cos a ≠ 1) (hb : cos b ≠ 1) (hR : R ≠ 0) :
    (∃ r, (do let s ← (Saddle.mk a b R).transform r ![1, 0, 0]
              (Saddle.mk a b R).transform s ![0, 1, 0]) ≠
          (do let s ← (Saddle.mk a b R).transform r ![0, 1, 0]
              (Saddle.mk a b R).transform s ![1, 0, 0])) ∧
    ¬ ∀ (n m : Op) (r : Vec), Saddle.legal n → Saddle.legal m →
        (do let s ← (Saddle.mk a b R).transform r n
            (Saddle.mk a b R).transform s m) = (Saddle.mk a b R).transform r (n + m) := by
  have main := saddle_order a b R ha hb hR
  refine ⟨main, fun hall => ?_⟩
  obtain ⟨r, hr⟩ := main
  have e : (![1, 0, 0] + ![0, 1, 0] : Op) = ![0, 1, 0] + ![1, 0, 0] := by
    ext i; fin_cases i <;> rfl
  have h1 := hall ![1, 0, 0] ![0, 1, 0] r rfl rfl
  have h2 := hall ![0, 1, 0] ![1, 0, 0] r rfl rfl
  rw [e] at h1
  exact hr (h1.trans h2.symm)

/-- The operations compose for no choice of two right angles. -/
example : cos (π / 2) ≠ 1 ∧ (1 : ℝ) ≠ 0 := by simp

/-- A concrete step: a quarter turn takes the point `(0,0,1)` to `(1,0,0)`. -/
example : (Saddle.mk (some (π / 2)) (some (π / 2)) (some 1)).transform ![0, 0, 1] ![1, 0, 0]
    = .ok ![1, 0, 0] := by
  rw [saddle_first, saddle_axis1]
  congr 1
  ext i; fin_cases i <;> simp [rotY, mulVec, dotProduct, Fin.sum_univ_three]

end Hotbit
