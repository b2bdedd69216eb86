import Verif.Model.ContainerSet
import Verif.Spec.ContainerSet
import Verif.Props.Rotations
import Mathlib.Analysis.Real.Pi.Bounds

/-!
# C106: setting container parameters
-/

namespace Hotbit

open Real Matrix

/-! ## C106 -/

theorem optWrite_cell (A : Atoms) (i j : Fin 3) (v : Option ℝ) (a b : Fin 3) :
    (optWrite A i j v).cell a b = if a = i ∧ b = j then v.getD (A.cell a b) else A.cell a b := by
  cases v with
  | none => simp [optWrite]
  | some x => simp [optWrite, wedgeWrite, setEntry]

@[simp] theorem optWrite_rest (A : Atoms) (i j : Fin 3) (v : Option ℝ) :
    (optWrite A i j v).atoms = A.atoms ∧ (optWrite A i j v).ctype = A.ctype ∧ (optWrite A i j v).pbc = A.pbc ∧
      (optWrite A i j v).slabX = A.slabX := by
  cases v <;> simp [optWrite, wedgeWrite]

/-- C106: `Chiral.set` without scaling: given parameters are read back, others and the atoms stay. -/
theorem c106_chiral (A : Atoms) (hA : A.ctype = .chiral) (angle height : Option ℝ) :
    ∃ A', chiralSet A { angle := angle, height := height } = (A', none) ∧
      A'.getPar .angle = .ok (.real (angle.getD (A.cell 2 0))) ∧ A.getPar .angle = .ok (.real (A.cell 2 0)) ∧
      A'.getPar .height = .ok (.real (height.getD (A.cell 1 0))) ∧ A.getPar .height = .ok (.real (A.cell 1 0)) ∧
      A'.atoms = A.atoms ∧ A'.pbc = A.pbc ∧ A'.ctype = A.ctype := by
  refine ⟨optWrite (optWrite A 2 0 angle) 1 0 height, by simp [chiralSet], ?_, ?_, ?_, ?_, ?_⟩
  all_goals simp [Atoms.getPar, par, hA, optWrite_cell]

/-- C106: `DoubleChiral.set` without scaling, for integer and half-integer `x`. -/
theorem c106_doubleChiral (A : Atoms) (hA : A.ctype = .doubleChiral) (angle height x : Option ℝ)
    (hx : ∀ v, x = some v → ∃ n : ℤ, 2 * v = n) :
    ∃ A', doubleChiralSet A { angle := angle, height := height, x := x } = (A', none) ∧
      A'.getPar .angle = .ok (.real (angle.getD (A.cell 1 0))) ∧ A.getPar .angle = .ok (.real (A.cell 1 0)) ∧
      A'.getPar .height = .ok (.real (height.getD (A.cell 2 0))) ∧ A.getPar .height = .ok (.real (A.cell 2 0)) ∧
      A'.getPar .x = .ok (.real (x.getD (A.cell 0 1))) ∧ A.getPar .x = .ok (.real (A.cell 0 1)) ∧
      A'.atoms = A.atoms ∧ A'.pbc = A.pbc ∧ A'.ctype = A.ctype := by
  refine ⟨optWrite (optWrite (optWrite A 1 0 angle) 2 0 height) 0 1 x, ?_, ?_, ?_, ?_, ?_, ?_⟩
  · unfold doubleChiralSet
    rw [if_neg (by simp), if_neg, if_pos rfl]
    rintro ⟨v, h1, h2⟩
    obtain ⟨n, hn⟩ := hx v h1
    apply h2
    unfold halfInteger
    rw [hn, pyRound_eq_of_abs_lt (z := n) (by norm_num)]
    norm_num
  all_goals simp [Atoms.getPar, par, hA, optWrite_cell]

/-- C106: any other offset is refused, and nothing is changed. -/
theorem c106_offset (A : Atoms) (a : DoubleChiralArgs) (v : ℝ) (hv : a.x = some v) (hc : a.container = none)
    (h : ∀ n : ℤ, 1e-15 ≤ |2 * v - n|) : doubleChiralSet A a = (A, some .assertionError) := by
  unfold doubleChiralSet
  rw [if_neg (by simp [hc]), if_pos]
  refine ⟨v, hv, ?_⟩
  unfold halfInteger
  rw [abs_sub_comm]
  exact not_lt.2 (h _)

example : ∀ n : ℤ, (1e-15 : ℝ) ≤ |2 * (1 / 4 : ℝ) - n| := by
  intro n
  rcases lt_or_ge (0 : ℤ) n with h | h
  · have : (1 : ℝ) ≤ n := by exact_mod_cast h
    rw [abs_of_nonpos (by linarith)]; linarith
  · have : (n : ℝ) ≤ 0 := by exact_mod_cast h
    rw [abs_of_nonneg (by linarith)]; linarith

/-- The angle asked for. -/
noncomputable def askedAngle (M : Option ℤ) (angle : Option ℝ) (old : ℝ) : ℝ :=
  match M, angle with
  | some m, _ => 2 * π / m
  | none, some v => v
  | none, none => old

theorem moveAll_ok (A : Atoms) (f : Vec → Except Exn Vec) (g : Vec → Vec) (h : ∀ r, f r = .ok (g r)) :
    moveAll A f = (A.mapPos g, none) := by
  have hm : ∀ l : List (String × Vec),
      l.mapM (fun p => do let r ← f p.2; return (p.1, r)) = (.ok (l.map fun p => (p.1, g p.2)) : Except Exn _) := by
    intro l
    induction l with
    | nil => rfl
    | cons p l ih =>
      rw [List.mapM_cons, ih, h]
      rfl
  unfold moveAll
  rw [hm]
  rfl

/-- The number returned by `phival`. -/
noncomputable def phiOf (x y : ℝ) : ℝ := Classical.choose (c52_returns x y)

theorem phiOf_spec (x y : ℝ) : phival x y = .ok (phiOf x y) ∧ 0 ≤ phiOf x y ∧ phiOf x y < 2 * π ∧
    |x - √(x ^ 2 + y ^ 2) * cos (phiOf x y)| ≤ 3e-16 ∧ |y - √(x ^ 2 + y ^ 2) * sin (phiOf x y)| ≤ 3e-16 :=
  Classical.choose_spec (c52_returns x y)

theorem phiOf_exact (x y : ℝ) (hx : x = 0 ∨ 1e-16 < |x|) (hy : y = 0 ∨ 1e-16 < |y|) :
    x = √(x ^ 2 + y ^ 2) * cos (phiOf x y) ∧ y = √(x ^ 2 + y ^ 2) * sin (phiOf x y) := by
  obtain ⟨φ, h1, -, -, h4, h5⟩ := c52_exact x y hx hy
  have := (phiOf_spec x y).1
  rw [h1] at this
  cases this
  exact ⟨h4, h5⟩

noncomputable def fanMoved (old new : ℝ) (r : Vec) : Vec :=
  ![√(r 0 ^ 2 + r 1 ^ 2) * cos (phiOf (r 0) (r 1) * (new / old)), √(r 0 ^ 2 + r 1 ^ 2) * sin (phiOf (r 0) (r 1) * (new / old)), r 2]

theorem fanMove_ok (old new : ℝ) (r : Vec) : fanMove old new r = .ok (fanMoved old new r) := by
  unfold fanMove
  rw [(phiOf_spec (r 0) (r 1)).1]
  rfl

noncomputable def fanMovedY (old new : ℝ) (r : Vec) : Vec :=
  ![√(r 2 ^ 2 + r 0 ^ 2) * sin (phiOf (r 2) (r 0) * (new / old)), r 1, √(r 2 ^ 2 + r 0 ^ 2) * cos (phiOf (r 2) (r 0) * (new / old))]

theorem fanMoveY_ok (old new : ℝ) (r : Vec) : fanMoveY old new r = .ok (fanMovedY old new r) := by
  unfold fanMoveY
  rw [(phiOf_spec (r 2) (r 0)).1]
  rfl

/-- What a successful angle step of `ChiralWedge.set` leaves. -/
theorem chiralWedgeAngle_ok (A : Atoms) (a : ChiralWedgeArgs) (A' : Atoms) (hgiven : a.angle.isSome ∨ a.M.isSome)
    (h : chiralWedgeAngle A a = (A', none)) :
    A'.cell = setEntry (setEntry A.cell 2 0 (askedAngle a.M a.angle (A.cell 2 0))) 1 1 (boolFloat a.physical) ∧
    A'.ctype = A.ctype ∧ A'.pbc = A.pbc ∧
    A'.atoms = (if a.scaleAtoms then (A.mapPos (fanMoved (A.cell 2 0) (A'.cell 2 0))).atoms else A.atoms) ∧
    (a.scaleAtoms = true → 1e-10 ≤ |A.cell 2 0|) ∧
    1e-6 ≤ |A'.cell 2 0| ∧ A'.cell 2 0 ≤ π ∧
    (a.physical = true → ∃ m : ℤ, abs ((m : ℝ) - 2 * π / abs (A'.cell 2 0)) ≤ 1e-12) := by
  unfold chiralWedgeAngle at h
  rw [if_neg] at h
  swap
  · intro hc; rw [if_pos hc] at h; simp at h
  have key : ∀ (m : ℤ) (v : ℝ), chiralWedgeCheck (wedgeWrite (wedgeWrite A 2 0 v) 1 1 (boolFloat a.physical)) (A.cell 2 0) m a.scaleAtoms = (A', none) →
      A'.cell = setEntry (setEntry A.cell 2 0 v) 1 1 (boolFloat a.physical) ∧
      A'.ctype = A.ctype ∧ A'.pbc = A.pbc ∧
      A'.atoms = (if a.scaleAtoms then (A.mapPos (fanMoved (A.cell 2 0) (A'.cell 2 0))).atoms else A.atoms) ∧
      (a.scaleAtoms = true → 1e-10 ≤ |A.cell 2 0|) ∧
      1e-6 ≤ |A'.cell 2 0| ∧ A'.cell 2 0 ≤ π ∧
      (a.physical = true → ∃ m : ℤ, abs ((m : ℝ) - 2 * π / abs (A'.cell 2 0)) ≤ 1e-12) := by
    intro m v hk
    unfold chiralWedgeCheck at hk
    set B := wedgeWrite (wedgeWrite A 2 0 v) 1 1 (boolFloat a.physical) with hB
    have hB1 : B.cell = setEntry (setEntry A.cell 2 0 v) 1 1 (boolFloat a.physical) := rfl
    have hB2 : B.atoms = A.atoms := rfl
    by_cases h1 : |B.cell 2 0| < 1e-6
    · rw [if_pos h1] at hk; simp at hk
    rw [if_neg h1] at hk
    by_cases h2 : B.cell 2 0 > π
    · rw [if_pos h2] at hk; simp at hk
    rw [if_neg h2] at hk
    by_cases h3 : abs ((m : ℝ) - 2 * π / abs (B.cell 2 0)) > 1e-12 ∧ pyRound (B.cell 1 1) ≠ 0
    · rw [if_pos h3] at hk; simp at hk
    rw [if_neg h3] at hk
    have hphys : a.physical = true → ∃ m : ℤ, abs ((m : ℝ) - 2 * π / abs (B.cell 2 0)) ≤ 1e-12 := by
      intro hp
      refine ⟨m, ?_⟩
      by_contra hm
      refine h3 ⟨not_le.1 hm, ?_⟩
      have : B.cell 1 1 = 1 := by simp [hB1, setEntry, boolFloat, hp]
      rw [this, pyRound_eq_of_abs_lt (z := 1) (by norm_num)]
      norm_num
    by_cases hs : a.scaleAtoms = true
    · rw [if_pos hs] at hk
      by_cases h4 : |A.cell 2 0| < 1e-10
      · rw [if_pos h4] at hk; simp at hk
      rw [if_neg h4, moveAll_ok _ _ _ (fanMove_ok _ _)] at hk
      simp only [Prod.mk.injEq, and_true] at hk
      subst hk
      refine ⟨rfl, rfl, rfl, ?_, fun _ => not_lt.1 h4, not_lt.1 h1, not_lt.1 h2, hphys⟩
      rw [if_pos hs]; rfl
    · rw [if_neg hs] at hk
      simp only [Prod.mk.injEq, and_true] at hk
      subst hk
      refine ⟨rfl, rfl, rfl, ?_, fun h => absurd h hs, not_lt.1 h1, not_lt.1 h2, hphys⟩
      rw [if_neg hs]; exact hB2
  unfold chiralWedgeStep at h
  cases hM : a.M with
  | some m =>
    rw [hM] at h
    simp only at h
    by_cases h0 : m = 0
    · rw [if_pos h0] at h; simp at h
    · rw [if_neg h0] at h
      exact key m _ h
  | none =>
    rw [hM] at h
    cases hang : a.angle with
    | none => simp [hM, hang] at hgiven
    | some v =>
      rw [hang] at h
      simp only at h
      by_cases h0 : v = 0
      · rw [if_pos h0] at h; simp at h
      · rw [if_neg h0] at h
        exact key _ _ h

/-- What a successful angle step of `WedgeYAxis.set` leaves. -/
theorem wedgeYAngle_ok (A : Atoms) (a : WedgeYArgs) (A' : Atoms) (hgiven : a.angle.isSome ∨ a.M.isSome)
    (h : wedgeYAngle A a = (A', none)) :
    A'.cell = setEntry (setEntry A.cell 2 0 (askedAngle a.M a.angle (A.cell 2 0))) 1 1 (boolFloat a.physical) ∧
    A'.ctype = A.ctype ∧ A'.pbc = A.pbc ∧
    A'.atoms = (if a.scaleAtoms then (A.mapPos (fanMovedY (A.cell 2 0) (A'.cell 2 0))).atoms else A.atoms) ∧
    (a.scaleAtoms = true → 1e-10 ≤ |A.cell 2 0|) ∧
    1e-6 ≤ A'.cell 2 0 ∧ A'.cell 2 0 ≤ π ∧
    (a.physical = true → ∃ m : ℤ, |(m : ℝ) - 2 * π / A'.cell 2 0| ≤ 1e-12) := by
  unfold wedgeYAngle at h
  rw [if_neg] at h
  swap
  · intro hc; rw [if_pos hc] at h; simp at h
  have key : ∀ (m : ℤ) (v : ℝ), wedgeYCheck (wedgeWrite (wedgeWrite A 2 0 v) 1 1 (boolFloat a.physical)) (A.cell 2 0) m a.scaleAtoms = (A', none) →
      A'.cell = setEntry (setEntry A.cell 2 0 v) 1 1 (boolFloat a.physical) ∧
      A'.ctype = A.ctype ∧ A'.pbc = A.pbc ∧
      A'.atoms = (if a.scaleAtoms then (A.mapPos (fanMovedY (A.cell 2 0) (A'.cell 2 0))).atoms else A.atoms) ∧
      (a.scaleAtoms = true → 1e-10 ≤ |A.cell 2 0|) ∧
      1e-6 ≤ A'.cell 2 0 ∧ A'.cell 2 0 ≤ π ∧
      (a.physical = true → ∃ m : ℤ, |(m : ℝ) - 2 * π / A'.cell 2 0| ≤ 1e-12) := by
    intro m v hk
    unfold wedgeYCheck at hk
    set B := wedgeWrite (wedgeWrite A 2 0 v) 1 1 (boolFloat a.physical) with hB
    have hB1 : B.cell = setEntry (setEntry A.cell 2 0 v) 1 1 (boolFloat a.physical) := rfl
    have hB2 : B.atoms = A.atoms := rfl
    by_cases h1 : B.cell 2 0 < 1e-6
    · rw [if_pos h1] at hk; simp at hk
    rw [if_neg h1] at hk
    by_cases h2 : B.cell 2 0 > π
    · rw [if_pos h2] at hk; simp at hk
    rw [if_neg h2] at hk
    by_cases h3 : |(m : ℝ) - 2 * π / B.cell 2 0| > 1e-12 ∧ pyRound (B.cell 1 1) ≠ 0
    · rw [if_pos h3] at hk; simp at hk
    rw [if_neg h3] at hk
    have hphys : a.physical = true → ∃ m : ℤ, |(m : ℝ) - 2 * π / B.cell 2 0| ≤ 1e-12 := by
      intro hp
      refine ⟨m, ?_⟩
      by_contra hm
      refine h3 ⟨not_le.1 hm, ?_⟩
      have : B.cell 1 1 = 1 := by simp [hB1, setEntry, boolFloat, hp]
      rw [this, pyRound_eq_of_abs_lt (z := 1) (by norm_num)]
      norm_num
    by_cases hs : a.scaleAtoms = true
    · rw [if_pos hs] at hk
      by_cases h4 : |A.cell 2 0| < 1e-10
      · rw [if_pos h4] at hk; simp at hk
      rw [if_neg h4, moveAll_ok _ _ _ (fanMoveY_ok _ _)] at hk
      simp only [Prod.mk.injEq, and_true] at hk
      subst hk
      refine ⟨rfl, rfl, rfl, ?_, fun _ => not_lt.1 h4, not_lt.1 h1, not_lt.1 h2, hphys⟩
      rw [if_pos hs]; rfl
    · rw [if_neg hs] at hk
      simp only [Prod.mk.injEq, and_true] at hk
      subst hk
      refine ⟨rfl, rfl, rfl, ?_, fun h => absurd h hs, not_lt.1 h1, not_lt.1 h2, hphys⟩
      rw [if_neg hs]; exact hB2
  unfold wedgeYStep at h
  cases hM : a.M with
  | some m =>
    rw [hM] at h
    simp only at h
    by_cases h0 : m = 0
    · rw [if_pos h0] at h; simp at h
    · rw [if_neg h0] at h
      exact key m _ h
  | none =>
    rw [hM] at h
    cases hang : a.angle with
    | none => simp [hM, hang] at hgiven
    | some v =>
      rw [hang] at h
      simp only at h
      by_cases h0 : v = 0
      · rw [if_pos h0] at h; simp at h
      · rw [if_neg h0] at h
        exact key _ _ h


/-- `getPar` of the scalar parameters of a chiral wedge. -/
theorem chiralWedge_get (A : Atoms) (hA : A.ctype = .chiralWedge) :
    A.getPar .angle = .ok (.real (A.cell 2 0)) ∧ A.getPar .height = .ok (.real (A.cell 1 0)) ∧
    A.getPar .twist = .ok (.real (A.cell 0 1)) ∧ A.getPar .physical = .ok (.bool (decide (pyRound (A.cell 1 1) ≠ 0))) := by
  simp [Atoms.getPar, par, hA]

theorem wedgeY_get (A : Atoms) (hA : A.ctype = .wedgeYAxis) :
    A.getPar .angle = .ok (.real (A.cell 2 0)) ∧ A.getPar .height = .ok (.real (A.cell 1 0)) ∧
    A.getPar .pbc = .ok (.bool (A.pbc 1)) ∧ A.getPar .physical = .ok (.bool (decide (pyRound (A.cell 1 1) ≠ 0))) := by
  simp [Atoms.getPar, par, hA]

theorem round_boolFloat (b : Bool) : decide (pyRound (boolFloat b) ≠ 0) = b := by
  cases b
  · have : pyRound (boolFloat false) = 0 := pyRound_eq_of_abs_lt (by norm_num [boolFloat])
    simp [this]
  · have : pyRound (boolFloat true) = 1 := pyRound_eq_of_abs_lt (by norm_num [boolFloat])
    simp [this]

theorem stretchHeight_cell (A : Atoms) (c : Fin 3) (s : Bool) (h : Option ℝ) (a b : Fin 3) :
    (stretchHeight A c s h).cell a b = if a = 1 ∧ b = 0 then h.getD (A.cell a b) else A.cell a b := by
  cases h with
  | none => simp [stretchHeight]
  | some v => cases s <;> simp [stretchHeight, wedgeWrite, setEntry]

theorem stretchHeight_rest (A : Atoms) (c : Fin 3) (s : Bool) (h : Option ℝ) :
    (stretchHeight A c s h).ctype = A.ctype ∧ (stretchHeight A c s h).pbc = A.pbc ∧
      (s = false → (stretchHeight A c s h).atoms = A.atoms) := by
  cases h <;> cases s <;> simp [stretchHeight, wedgeWrite]

/-- C106: a call of `ChiralWedge.set` that raises nothing leaves the parameters asked for, the others as they were, and an angle
which is not too small, not above `π`, and the `m`-th part of the full angle if it is to be physical. Without scaling the atoms stay. -/
theorem c106_chiralWedge (A : Atoms) (hA : A.ctype = .chiralWedge) (a : ChiralWedgeArgs) (A' : Atoms)
    (h : chiralWedgeSet A a = (A', none)) :
    A'.ctype = .chiralWedge ∧ A'.pbc = A.pbc ∧ (a.scaleAtoms = false → A'.atoms = A.atoms) ∧
    A'.getPar .angle = .ok (.real (askedAngle a.M a.angle (A.cell 2 0))) ∧ A.getPar .angle = .ok (.real (A.cell 2 0)) ∧
    A'.getPar .height = .ok (.real (a.height.getD (A.cell 1 0))) ∧ A.getPar .height = .ok (.real (A.cell 1 0)) ∧
    A'.getPar .twist = .ok (.real (a.twist.getD (A.cell 0 1))) ∧ A.getPar .twist = .ok (.real (A.cell 0 1)) ∧
    A'.getPar .physical = (if a.angle.isSome ∨ a.M.isSome then .ok (.bool a.physical) else A.getPar .physical) ∧
    (a.angle.isSome ∨ a.M.isSome → 1e-6 ≤ |A'.cell 2 0| ∧ A'.cell 2 0 ≤ π ∧
      (a.physical = true → ∃ m : ℤ, abs ((m : ℝ) - 2 * π / abs (A'.cell 2 0)) ≤ 1e-12)) := by
  unfold chiralWedgeSet at h
  by_cases hc : a.container.isSome
  · rw [if_pos hc] at h; simp at h
  rw [if_neg hc] at h
  have main : ∀ A1 : Atoms, A1.ctype = .chiralWedge → A1.pbc = A.pbc →
      A1.cell 2 0 = askedAngle a.M a.angle (A.cell 2 0) → A1.cell 1 0 = A.cell 1 0 → A1.cell 0 1 = A.cell 0 1 →
      (match a.twist with
        | none => (stretchHeight A1 2 a.scaleAtoms a.height, none)
        | some t => if a.scaleAtoms then (stretchHeight A1 2 a.scaleAtoms a.height, some Exn.notImplementedError)
            else (wedgeWrite (stretchHeight A1 2 a.scaleAtoms a.height) 0 1 t, none)) = (A', none) →
      A'.ctype = .chiralWedge ∧ A'.pbc = A.pbc ∧ (a.scaleAtoms = false → A'.atoms = A1.atoms) ∧
      A'.cell 2 0 = askedAngle a.M a.angle (A.cell 2 0) ∧ A'.cell 1 0 = a.height.getD (A.cell 1 0) ∧
      A'.cell 0 1 = a.twist.getD (A.cell 0 1) ∧ A'.cell 1 1 = A1.cell 1 1 := by
    intro A1 h1 h2 h3 h4 h5 h6
    have hr := stretchHeight_rest A1 2 a.scaleAtoms a.height
    have hcell := stretchHeight_cell A1 2 a.scaleAtoms a.height
    cases ht : a.twist with
    | none =>
      rw [ht] at h6
      simp only [Prod.mk.injEq, and_true] at h6
      subst h6
      refine ⟨hr.1.trans h1, hr.2.1.trans h2, hr.2.2, ?_, ?_, ?_, ?_⟩ <;> simp [hcell, h3, h4, h5]
    | some t =>
      rw [ht] at h6
      cases hs : a.scaleAtoms with
      | true => simp [hs] at h6
      | false =>
        simp only [hs, Bool.false_eq_true, if_false, Prod.mk.injEq, and_true] at h6
        rw [hs] at hr hcell
        subst h6
        refine ⟨hr.1.trans h1, hr.2.1.trans h2, fun _ => hr.2.2 rfl, ?_, ?_, ?_, ?_⟩ <;>
          simp [wedgeWrite, setEntry, hcell, h3, h4]
  by_cases hg : a.angle.isSome ∨ a.M.isSome
  · rw [if_pos hg] at h
    cases hA1 : chiralWedgeAngle A a with
    | mk A1 e =>
      rw [hA1] at h
      cases e with
      | some e => simp at h
      | none =>
        obtain ⟨k1, k2, k3, k4, -, k5, k6, k7⟩ := chiralWedgeAngle_ok A a A1 hg hA1
        obtain ⟨m1, m2, m3, m4, m5, m6, m7⟩ := main A1 (k2.trans hA) k3 (by rw [k1]; simp [setEntry]) (by rw [k1]; simp [setEntry])
          (by rw [k1]; simp [setEntry]) h
        have h20 : A'.cell 2 0 = A1.cell 2 0 := by rw [m4, k1]; simp [setEntry]
        obtain ⟨g1, g2, g3, g4⟩ := chiralWedge_get A' m1
        obtain ⟨f1, f2, f3, f4⟩ := chiralWedge_get A hA
        refine ⟨m1, m2, fun hs => ?_, by rw [g1, m4], f1, by rw [g2, m5], f2, by rw [g3, m6], f3, ?_, fun _ => ?_⟩
        · rw [m3 hs, k4, if_neg (by simp [hs])]
        · rw [if_pos hg, g4, m7, k1]
          simp only [setEntry, and_self, if_true]
          rw [round_boolFloat]
        · rw [h20]; exact ⟨k5, k6, k7⟩
  · rw [if_neg hg] at h
    have ha : askedAngle a.M a.angle (A.cell 2 0) = A.cell 2 0 := by
      unfold askedAngle
      cases hM : a.M <;> cases hh : a.angle <;> simp_all
    obtain ⟨m1, m2, m3, m4, m5, m6, m7⟩ := main A hA rfl ha.symm rfl rfl h
    obtain ⟨g1, g2, g3, g4⟩ := chiralWedge_get A' m1
    obtain ⟨f1, f2, f3, f4⟩ := chiralWedge_get A hA
    refine ⟨m1, m2, m3, by rw [g1, m4], f1, by rw [g2, m5], f2, by rw [g3, m6], f3, ?_, fun hh => absurd hh hg⟩
    rw [if_neg hg, g4, f4, m7]

/-- C106: every whole part of the full angle can be set, with any height and twist. -/
theorem c106_chiralWedge_M (A : Atoms) (M : ℤ) (hM : 2 ≤ M) (hM' : M ≤ 6000000) (height twist : Option ℝ) :
    ∃ A', chiralWedgeSet A { M := some M, height := height, twist := twist } = (A', none) := by
  have hMr : (2 : ℝ) ≤ M := by exact_mod_cast hM
  have hMr' : (M : ℝ) ≤ 6000000 := by exact_mod_cast hM'
  have hM0 : M ≠ 0 := by omega
  have hpi := pi_pos
  have hp3 := pi_gt_three
  have hpos : 0 < 2 * π / M := by positivity
  unfold chiralWedgeSet
  rw [if_neg (by simp), if_pos (by simp)]
  have : ∃ B, chiralWedgeAngle A { M := some M, height := height, twist := twist } = (B, none) := by
    unfold chiralWedgeAngle chiralWedgeStep
    rw [if_neg (by simp)]
    simp only [if_neg hM0]
    unfold chiralWedgeCheck
    have hc : (wedgeWrite (wedgeWrite A 2 0 (2 * π / M)) 1 1 (boolFloat true)).cell 2 0 = 2 * π / M := by
      simp [wedgeWrite, setEntry]
    simp only [hc]
    rw [abs_of_pos hpos, if_neg, if_neg, if_neg]
    · exact ⟨_, rfl⟩
    · have : 2 * π / (2 * π / (M : ℝ)) = M := by field_simp
      rw [this]; norm_num
    · rw [gt_iff_lt, not_lt, div_le_iff₀ (by linarith)]
      nlinarith
    · rw [not_lt, le_div_iff₀ (by linarith)]
      linarith
  obtain ⟨B, hB⟩ := this
  rw [hB]
  cases twist with
  | none => exact ⟨_, rfl⟩
  | some t => exact ⟨_, rfl⟩

/-- C106: the same with the angle given, which may be negative. -/
theorem c106_chiralWedge_angle (A : Atoms) (M : ℤ) (hM : 2 ≤ M) (hM' : M ≤ 6000000) (ang : ℝ)
    (ha : |ang| = 2 * π / M) (height twist : Option ℝ) :
    ∃ A', chiralWedgeSet A { angle := some ang, height := height, twist := twist } = (A', none) := by
  have hMr : (2 : ℝ) ≤ M := by exact_mod_cast hM
  have hMr' : (M : ℝ) ≤ 6000000 := by exact_mod_cast hM'
  have hpi := pi_pos
  have hp3 := pi_gt_three
  have hpos : 0 < 2 * π / M := by positivity
  have h0 : ang ≠ 0 := fun h => by rw [h, abs_zero] at ha; linarith
  have hle : 2 * π / M ≤ π := by
    rw [div_le_iff₀ (by linarith)]
    nlinarith
  have hround : |pyRound (2 * π / ang)| = M := by
    rcases abs_choice ang with h | h <;> rw [h] at ha
    · rw [ha, show 2 * π / (2 * π / (M : ℝ)) = ((M : ℤ) : ℝ) by field_simp, pyRound_intCast, abs_of_pos (by omega)]
    · have : ang = -(2 * π / M) := by linarith
      rw [this, show 2 * π / (-(2 * π / (M : ℝ))) = ((-M : ℤ) : ℝ) by push_cast; field_simp, pyRound_intCast,
        abs_neg, abs_of_pos (by omega)]
  unfold chiralWedgeSet
  rw [if_neg (by simp), if_pos (by simp)]
  have : ∃ B, chiralWedgeAngle A { angle := some ang, height := height, twist := twist } = (B, none) := by
    unfold chiralWedgeAngle chiralWedgeStep
    rw [if_neg (by simp)]
    simp only [if_neg h0, hround]
    unfold chiralWedgeCheck
    have hc : (wedgeWrite (wedgeWrite A 2 0 ang) 1 1 (boolFloat true)).cell 2 0 = ang := by
      simp [wedgeWrite, setEntry]
    simp only [hc]
    rw [ha, if_neg, if_neg, if_neg]
    · exact ⟨_, rfl⟩
    · have : 2 * π / (2 * π / (M : ℝ)) = M := by field_simp
      rw [this]; norm_num
    · have := le_abs_self ang
      rw [gt_iff_lt, not_lt]; linarith
    · rw [not_lt, le_div_iff₀ (by linarith)]
      linarith
  obtain ⟨B, hB⟩ := this
  rw [hB]
  cases twist with
  | none => exact ⟨_, rfl⟩
  | some t => exact ⟨_, rfl⟩

/-- Hypotheses of `c106_chiralWedge_angle`: a negative angle. -/
example (A : Atoms) : ∃ A', chiralWedgeSet A { angle := some (-(2 * π / (5 : ℤ))) } = (A', none) :=
  c106_chiralWedge_angle A 5 (by norm_num) (by norm_num) _ (by
    rw [abs_neg, abs_of_pos]
    have := pi_pos
    positivity) none none

/-- C106: the same for `WedgeYAxis.set`. -/
theorem c106_wedgeY (A : Atoms) (hA : A.ctype = .wedgeYAxis) (a : WedgeYArgs) (A' : Atoms)
    (h : wedgeYSet A a = (A', none)) :
    A'.ctype = .wedgeYAxis ∧ (a.scaleAtoms = false → A'.atoms = A.atoms) ∧
    A'.getPar .angle = .ok (.real (askedAngle a.M a.angle (A.cell 2 0))) ∧ A.getPar .angle = .ok (.real (A.cell 2 0)) ∧
    A'.getPar .height = .ok (.real (a.height.getD (A.cell 1 0))) ∧ A.getPar .height = .ok (.real (A.cell 1 0)) ∧
    A'.getPar .pbc = .ok (.bool (a.pbc.getD (A.pbc 1))) ∧ A.getPar .pbc = .ok (.bool (A.pbc 1)) ∧
    A'.getPar .physical = (if a.angle.isSome ∨ a.M.isSome then .ok (.bool a.physical) else A.getPar .physical) ∧
    (a.angle.isSome ∨ a.M.isSome → 1e-6 ≤ A'.cell 2 0 ∧ A'.cell 2 0 ≤ π ∧
      (a.physical = true → ∃ m : ℤ, |(m : ℝ) - 2 * π / A'.cell 2 0| ≤ 1e-12)) := by
  unfold wedgeYSet at h
  by_cases hc : a.container.isSome
  · rw [if_pos hc] at h; simp at h
  rw [if_neg hc] at h
  have main : ∀ A1 : Atoms, A1.ctype = .wedgeYAxis → A1.pbc = A.pbc →
      A1.cell 2 0 = askedAngle a.M a.angle (A.cell 2 0) → A1.cell 1 0 = A.cell 1 0 →
      (match a.pbc with
        | none => (stretchHeight A1 1 a.scaleAtoms a.height, none)
        | some b => ({ stretchHeight A1 1 a.scaleAtoms a.height with pbc := ![true, b, false] }, none)) = (A', (none : Option Exn)) →
      A'.ctype = .wedgeYAxis ∧ A'.pbc 1 = a.pbc.getD (A.pbc 1) ∧ (a.scaleAtoms = false → A'.atoms = A1.atoms) ∧
      A'.cell 2 0 = askedAngle a.M a.angle (A.cell 2 0) ∧ A'.cell 1 0 = a.height.getD (A.cell 1 0) ∧
      A'.cell 1 1 = A1.cell 1 1 := by
    intro A1 h1 h2 h3 h4 h6
    have hr := stretchHeight_rest A1 1 a.scaleAtoms a.height
    have hcell := stretchHeight_cell A1 1 a.scaleAtoms a.height
    cases ht : a.pbc with
    | none =>
      rw [ht] at h6
      simp only [Prod.mk.injEq, and_true] at h6
      subst h6
      refine ⟨hr.1.trans h1, by rw [hr.2.1, h2]; rfl, hr.2.2, ?_, ?_, ?_⟩ <;> simp [hcell, h3, h4]
    | some t =>
      rw [ht] at h6
      simp only [Prod.mk.injEq, and_true] at h6
      subst h6
      refine ⟨hr.1.trans h1, by simp, hr.2.2, ?_, ?_, ?_⟩ <;> simp [hcell, h3, h4]
  by_cases hg : a.angle.isSome ∨ a.M.isSome
  · rw [if_pos hg] at h
    cases hA1 : wedgeYAngle A a with
    | mk A1 e =>
      rw [hA1] at h
      cases e with
      | some e => simp at h
      | none =>
        obtain ⟨k1, k2, k3, k4, -, k5, k6, k7⟩ := wedgeYAngle_ok A a A1 hg hA1
        obtain ⟨m1, m2, m3, m4, m5, m7⟩ := main A1 (k2.trans hA) k3 (by rw [k1]; simp [setEntry]) (by rw [k1]; simp [setEntry]) h
        have h20 : A'.cell 2 0 = A1.cell 2 0 := by rw [m4, k1]; simp [setEntry]
        obtain ⟨g1, g2, g3, g4⟩ := wedgeY_get A' m1
        obtain ⟨f1, f2, f3, f4⟩ := wedgeY_get A hA
        refine ⟨m1, fun hs => ?_, by rw [g1, m4], f1, by rw [g2, m5], f2, by rw [g3, m2], f3, ?_, fun _ => ?_⟩
        · rw [m3 hs, k4, if_neg (by simp [hs])]
        · rw [if_pos hg, g4, m7, k1]
          simp only [setEntry, and_self, if_true]
          rw [round_boolFloat]
        · rw [h20]; exact ⟨k5, k6, k7⟩
  · rw [if_neg hg] at h
    have ha : askedAngle a.M a.angle (A.cell 2 0) = A.cell 2 0 := by
      unfold askedAngle
      cases hM : a.M <;> cases hh : a.angle <;> simp_all
    obtain ⟨m1, m2, m3, m4, m5, m7⟩ := main A hA rfl ha.symm rfl h
    obtain ⟨g1, g2, g3, g4⟩ := wedgeY_get A' m1
    obtain ⟨f1, f2, f3, f4⟩ := wedgeY_get A hA
    refine ⟨m1, m3, by rw [g1, m4], f1, by rw [g2, m5], f2, by rw [g3, m2], f3, ?_, fun hh => absurd hh hg⟩
    rw [if_neg hg, g4, f4, m7]

/-- C106: every whole part of the full angle can be set for `WedgeYAxis`, with any height and periodicity. -/
theorem c106_wedgeY_M (A : Atoms) (M : ℤ) (hM : 2 ≤ M) (hM' : M ≤ 6000000) (height : Option ℝ) (pbc : Option Bool) :
    ∃ A', wedgeYSet A { M := some M, height := height, pbc := pbc } = (A', none) := by
  have hMr : (2 : ℝ) ≤ M := by exact_mod_cast hM
  have hMr' : (M : ℝ) ≤ 6000000 := by exact_mod_cast hM'
  have hM0 : M ≠ 0 := by omega
  have hpi := pi_pos
  have hp3 := pi_gt_three
  have hpos : 0 < 2 * π / M := by positivity
  unfold wedgeYSet
  rw [if_neg (by simp), if_pos (by simp)]
  have : ∃ B, wedgeYAngle A { M := some M, height := height, pbc := pbc } = (B, none) := by
    unfold wedgeYAngle wedgeYStep
    rw [if_neg (by simp)]
    simp only [if_neg hM0]
    unfold wedgeYCheck
    have hc : (wedgeWrite (wedgeWrite A 2 0 (2 * π / M)) 1 1 (boolFloat true)).cell 2 0 = 2 * π / M := by
      simp [wedgeWrite, setEntry]
    simp only [hc]
    rw [if_neg, if_neg, if_neg]
    · exact ⟨_, rfl⟩
    · have : 2 * π / (2 * π / (M : ℝ)) = M := by field_simp
      rw [this]; norm_num
    · rw [gt_iff_lt, not_lt, div_le_iff₀ (by linarith)]
      nlinarith
    · rw [not_lt, le_div_iff₀ (by linarith)]
      linarith
  obtain ⟨B, hB⟩ := this
  rw [hB]
  cases pbc with
  | none => exact ⟨_, rfl⟩
  | some t => exact ⟨_, rfl⟩

/-- C106: `ChiralGeneral.set` for the default `physical=False`. -/
theorem c106_chiralGeneral (A : Atoms) (hA : A.ctype = .chiralGeneral) (t1 a1 t2 a2 : Option ℝ) :
    ∃ A', chiralGeneralSet A { trans1 := t1, angle1 := a1, trans2 := t2, angle2 := a2 } = (A', none) ∧
      A'.getPar .trans1 = .ok (.real (t1.getD (A.cell 1 0))) ∧ A.getPar .trans1 = .ok (.real (A.cell 1 0)) ∧
      A'.getPar .angle1 = .ok (.real (a1.getD (A.cell 2 0))) ∧ A.getPar .angle1 = .ok (.real (A.cell 2 0)) ∧
      A'.getPar .trans2 = .ok (.real (t2.getD (A.cell 0 1))) ∧ A.getPar .trans2 = .ok (.real (A.cell 0 1)) ∧
      A'.getPar .angle2 = .ok (.real (a2.getD (A.cell 1 1))) ∧ A.getPar .angle2 = .ok (.real (A.cell 1 1)) ∧
      A'.atoms = A.atoms ∧ A'.pbc = A.pbc ∧ A'.ctype = A.ctype := by
  refine ⟨optWrite (optWrite (optWrite (optWrite (optWrite A 1 0 t1) 2 0 a1) 0 1 t2) 1 1 a2) 2 1 (some (boolFloat false)),
    by simp [chiralGeneralSet], ?_, ?_, ?_, ?_, ?_, ?_, ?_, ?_, ?_⟩
  all_goals simp [Atoms.getPar, par, hA, optWrite_cell]

/-- C106: `TwistAndTurn.set` without scaling; a radius that is given (not zero) is read back. -/
theorem c106_twistAndTurn (A : Atoms) (hA : A.ctype = .twistAndTurn) (hp : A.pbc = ![false, false, true]) (b t R : Option ℝ) :
    ∃ A', tatSet A { bendAngle := b, twistAngle := t, R := R } = (A', none) ∧
      A'.getPar .bendAngle = .ok (.real (b.getD (A.cell 0 1))) ∧ A.getPar .bendAngle = .ok (.real (A.cell 0 1)) ∧
      A'.getPar .twistAngle = .ok (.real (t.getD (A.cell 0 2))) ∧ A.getPar .twistAngle = .ok (.real (A.cell 0 2)) ∧
      (∀ v, R = some v → 1e-16 ≤ |v| → A'.getPar .R = .ok (.real v)) ∧
      (R = none → A'.getPar .R = A.getPar .R) ∧
      A'.atoms = A.atoms ∧ A'.pbc = A.pbc ∧ A'.ctype = A.ctype := by
  refine ⟨{ tatSetR (tatSetTwist (tatSetBend A false b) false t) false R with pbc := ![false, false, true] },
    by simp [tatSet], ?_⟩
  have hct : (tatSetR (tatSetTwist (tatSetBend A false b) false t) false R).ctype = .twistAndTurn := by
    cases b <;> cases t <;> cases R <;> simp [tatSetBend, tatSetTwist, tatSetR, wedgeWrite, hA]
  have hat : (tatSetR (tatSetTwist (tatSetBend A false b) false t) false R).atoms = A.atoms := by
    cases b <;> cases t <;> cases R <;> simp [tatSetBend, tatSetTwist, tatSetR, wedgeWrite]
  have h01 : (tatSetR (tatSetTwist (tatSetBend A false b) false t) false R).cell 0 1 = b.getD (A.cell 0 1) := by
    cases b <;> cases t <;> cases R <;> simp [tatSetBend, tatSetTwist, tatSetR, wedgeWrite, setEntry]
  have h02 : (tatSetR (tatSetTwist (tatSetBend A false b) false t) false R).cell 0 2 = t.getD (A.cell 0 2) := by
    cases b <;> cases t <;> cases R <;> simp [tatSetBend, tatSetTwist, tatSetR, wedgeWrite, setEntry]
  have h12 : (tatSetR (tatSetTwist (tatSetBend A false b) false t) false R).cell 1 2 = R.getD (A.cell 1 2) := by
    cases b <;> cases t <;> cases R <;> simp [tatSetBend, tatSetTwist, tatSetR, wedgeWrite, setEntry]
  refine ⟨?_, ?_, ?_, ?_, ?_, ?_, hat, hp.symm, ?_⟩
  · simp [Atoms.getPar, hct, par, h01]
  · simp [Atoms.getPar, hA, par]
  · simp [Atoms.getPar, hct, par, h02]
  · simp [Atoms.getPar, hA, par]
  · rintro v rfl hv
    simp only [Atoms.getPar, hct, par]
    simp only [Atoms.tatR, h12, Option.getD_some, if_neg (not_lt.2 hv)]
    simp
  · rintro rfl
    simp only [Atoms.getPar, hct, hA, par]
    simp only [Atoms.tatR, h12, Option.getD_none, Atoms.positions, hat]
    simp
  · rw [hA]; exact hct

/-- C106: parameters of another container cannot be copied: `set(container=...)` raises `AttributeError` for each kind with
parameters in the cell, whatever the containers. -/
theorem c106_copy_fails (A B : Atoms) :
    chiralSet A { container := some B } = (A, some .attributeError) ∧
    doubleChiralSet A { container := some B } = (A, some .attributeError) ∧
    chiralWedgeSet A { container := some B } = (A, some .attributeError) ∧
    wedgeYSet A { container := some B } = (A, some .attributeError) ∧
    tatSet A { container := some B } = (A, some .attributeError) ∧
    chiralGeneralSet A { container := some B } = (A, some .attributeError) ∧
    sphereSet A { container := some B } = (A, some .attributeError) ∧
    slabSet A (some B) none = (A, some .valueError) := by
  refine ⟨?_, ?_, ?_, ?_, ?_, ?_, ?_, rfl⟩
  · simp [chiralSet]
  · simp [doubleChiralSet]
  · simp [chiralWedgeSet]
  · simp [wedgeYSet]
  · simp [tatSet]
  · simp [chiralGeneralSet]
  · simp [sphereSet]

/-- C106: the offset of a slab can never be set. -/
theorem c106_slab_fails (A : Atoms) (x : Fin 2 → ℝ) : slabSet A none (some x) = (A, some .valueError) := rfl

/-- C106: `set_container` with the type of the container raises `TypeError`, with another type `AssertionError`. -/
theorem c106_type_fails (A : Atoms) (t : CType) (set : Atoms → Eff) (hA : A.ctype ≠ .bravais) :
    setContainer A (some t) set = (A, some (if t = A.ctype then .typeError else .assertionError)) := by
  unfold setContainer
  by_cases h : t = A.ctype
  · subst h
    simp [hA]
  · simp [h]

/-- C106: a `mode` for `TwistAndTurn` raises `KeyError`, after the other parameters were set. -/
theorem c106_mode_fails (A : Atoms) (b m : ℝ) : ∃ A', tatSet A { bendAngle := some b, mode := some m } = (A', some .keyError) ∧
    A'.cell 0 1 = b := by
  refine ⟨_, by simp only [tatSet]; rfl, ?_⟩
  simp [tatSetBend, tatSetTwist, tatSetR, wedgeWrite, setEntry]

/-- C106: `Sphere.set` for two axes in the xy plane: angles and axes are read back. -/
theorem c106_sphere (A : Atoms) (hA : A.ctype = .sphere) (a1 a2 : ℝ) (n1 n2 : Vec) (h1 : n1 2 = 0) (h2 : n2 2 = 0) :
    ∃ A', sphereSet A { angle1 := some a1, angle2 := some a2, n1 := some n1, n2 := some n2 } = (A', none) ∧
      A'.getPar .angle1 = .ok (.real a1) ∧ A'.getPar .angle2 = .ok (.real a2) ∧ A'.sphereN1 = n1 ∧ A'.sphereN2 = n2 ∧
      A'.pbc = ![true, true, false] ∧ A'.atoms = A.atoms ∧ A'.cell 1 2 = A.cell 1 2 := by
  have hs1 : |n1 2| < 1e-10 := by rw [h1]; norm_num
  have hs2 : |n2 2| < 1e-10 := by rw [h2]; norm_num
  refine ⟨_, by simp only [sphereSet, sphereAxis, if_pos hs1, if_pos hs2, Option.isSome_none, Bool.false_eq_true, if_false]; rfl, ?_⟩
  refine ⟨?_, ?_, ?_, ?_, rfl, rfl, ?_⟩
  · simp [Atoms.getPar, hA, par, optWrite, wedgeWrite, setEntry]
  · simp [Atoms.getPar, hA, par, optWrite, wedgeWrite, setEntry]
  · ext i; fin_cases i <;> simp [Atoms.sphereN1, optWrite, wedgeWrite, setEntry, h1]
  · ext i; fin_cases i <;> simp [Atoms.sphereN2, optWrite, wedgeWrite, setEntry, h2]
  · simp [optWrite, wedgeWrite, setEntry]

/-- C106: the rotation axes are not normalised: two half turns around the x axis are a full turn, `(1,1,0)` leaves every point where
it is; with the first axis given as `(2,0,0)` it does not. -/
theorem c106_axes_fails (A : Atoms) (hA : A.ctype = .sphere) :
    ∃ A1 A2 : Atoms,
      sphereSet A { angle1 := some π, angle2 := some π, n1 := some ![1, 0, 0], n2 := some ![1, 0, 0], mode := some 4 } = (A1, none) ∧
      sphereSet A { angle1 := some π, angle2 := some π, n1 := some ![2, 0, 0], n2 := some ![1, 0, 0], mode := some 4 } = (A2, none) ∧
      (A1.rawTransform ![0, 0, 1] ![1, 1, 0]) 2 = 1 ∧ (A2.rawTransform ![0, 0, 1] ![1, 1, 0]) 2 ≠ 1 := by
  have h0 : |(![1, 0, 0] : Vec) 2| < 1e-10 := by
    change |(0 : ℝ)| < 1e-10
    norm_num
  have h2 : |(![2, 0, 0] : Vec) 2| < 1e-10 := by
    change |(0 : ℝ)| < 1e-10
    norm_num
  have hp : pyInt (4 : ℝ) = 4 := by
    have : (4 : ℝ) = ((4 : ℤ) : ℝ) := by norm_num
    unfold pyInt
    rw [if_pos (by norm_num)]
    exact_mod_cast Int.floor_intCast (4 : ℤ)
  have hpi := pi_pos
  refine ⟨_, _, by simp only [sphereSet, sphereAxis, if_pos h0, Option.isSome_none, Bool.false_eq_true, if_false]; rfl,
    by simp only [sphereSet, sphereAxis, if_pos h0, if_pos h2, Option.isSome_none, Bool.false_eq_true, if_false]; rfl, ?_, ?_⟩
  · have hs : √(π ^ 2 + π ^ 2 + 2 * π * π) = 2 * π := by
      rw [show π ^ 2 + π ^ 2 + 2 * π * π = (2 * π) ^ 2 by ring, sqrt_sq (by positivity)]
    simp [Atoms.rawTransform, Atoms.rawRotation, optWrite, wedgeWrite, hA, sphereRotation, Atoms.sphereMode, setEntry, hp,
      Atoms.sphereAngle1, Atoms.sphereAngle2, Atoms.sphereN1, Atoms.sphereN2, rotationMatrix, mulVec, dotProduct, Fin.sum_univ_three, hs]
  · have hs : √(π ^ 2 + π ^ 2 + 2 * π * π * 2) = π * √6 := by
      rw [show π ^ 2 + π ^ 2 + 2 * π * π * 2 = π ^ 2 * 6 by ring, sqrt_mul (by positivity), sqrt_sq hpi.le]
    simp [Atoms.rawTransform, Atoms.rawRotation, optWrite, wedgeWrite, hA, sphereRotation, Atoms.sphereMode, setEntry, hp,
      Atoms.sphereAngle1, Atoms.sphereAngle2, Atoms.sphereN1, Atoms.sphereN2, rotationMatrix, mulVec, dotProduct, Fin.sum_univ_three, hs]
    rw [cos_eq_one_iff]
    rintro ⟨n, hn⟩
    have h6 : √6 = 2 * n := by
      have : π * √6 = π * (2 * n) := by rw [← hn]; ring
      exact mul_left_cancel₀ hpi.ne' this
    have h7 : (4 * n ^ 2 : ℝ) = 6 := by
      have := sq_sqrt (show (0 : ℝ) ≤ 6 by norm_num)
      rw [h6] at this
      linarith
    have h8 : 4 * n ^ 2 = 6 := by exact_mod_cast h7
    omega

end Hotbit
