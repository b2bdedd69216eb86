import Verif.Props.KPoints

set_option linter.unusedSimpArgs false

/-! Helper lemmas: what a successful mesh construction computes. -/

namespace Hotbit

open Real

theorem applyEquivalent_eq (A : Atoms) (hslab : A.ctype ≠ .slab) (k : Vec) :
    applyEquivalent A.table A.numberOfTransformations [0, 1, 2] false k
      = .ok (shear A k) := by
  unfold shear
  cases ht : A.ctype with
  | slab => exact absurd ht hslab
  | doubleChiral =>
    have hM : A.numberOfTransformations 0 = some 2 := by
      simp [Atoms.numberOfTransformations, Atoms.ranges, ht]
    by_cases hx : 1e-12 < |A.cell 0 1|
    · simp only [applyEquivalent, Atoms.table, ht, if_pos hx, Matrix.cons_val_zero,
        Matrix.cons_val_one, Matrix.cons_val, hM, dotOp]
      simp only [Bool.false_eq_true, if_false, ne_eq, not_true, if_true]
      congr 1
      ext i; fin_cases i <;> simp
    · have hr : pyRound (2 * A.cell 0 1) = 0 := by
        have := pyRound_eq_of_abs_lt (x := 2 * A.cell 0 1) (z := 0) (by
          push_cast
          rw [sub_zero, abs_mul]
          norm_num at hx ⊢
          linarith)
        exact this
      simp only [applyEquivalent, Atoms.table, ht, if_neg hx, Matrix.cons_val_zero,
        Matrix.cons_val_one, Matrix.cons_val, hr]
      congr 1
      ext i; fin_cases i <;> simp
  | bravais =>
    simp only [applyEquivalent, Atoms.table, ht]
    cases A.pbc 0 <;> cases A.pbc 1 <;> cases A.pbc 2 <;> simp
  | wedge => simp only [applyEquivalent, Atoms.table, ht]; cases A.wedgePbcz <;> simp
  | wedgeYAxis => simp only [applyEquivalent, Atoms.table, ht]; cases A.wedgeYPbc <;> simp
  | chiral => simp [applyEquivalent, Atoms.table, ht]
  | sphere => simp [applyEquivalent, Atoms.table, ht]
  | chiralWedge => simp [applyEquivalent, Atoms.table, ht]
  | twistAndTurn => simp [applyEquivalent, Atoms.table, ht]
  | chiralGeneral => simp [applyEquivalent, Atoms.table, ht]

theorem kMesh_ok (A : Atoms) (n : Fin 3 → ℤ) (physical : Bool) (s : KSampling)
    (h : kMesh A n physical = .ok s) :
    (∀ i, 1 ≤ n i) ∧ A.ctype ≠ .slab ∧
    s.points = ((meshPoints (meshLine (A.numberOfTransformations 0).isNone (n 0))
      (meshLine (A.numberOfTransformations 1).isNone (n 1))
      (meshLine (A.numberOfTransformations 2).isNone (n 2))).map (shear A)).foldl
        (mergePoint (1 / ((n 0 * n 1 * n 2 : ℤ) : ℝ))) [] := by
  have pos : ∀ M m l, m ≠ 0 → kLine M m physical = .ok l → 1 ≤ m := by
    intro M m l h0 hl
    by_contra hneg
    have : m < 0 := by omega
    unfold kLine at hl
    cases M <;> simp [this] at hl
    split at hl <;> simp at hl
  have hslab : A.ctype ≠ .slab := by
    intro hs
    simp [kMesh, Atoms.getTable, hs, bind, Except.bind] at h
  simp only [kMesh, Atoms.getTable, if_neg hslab, bind, Except.bind, pure, Except.pure] at h
  by_cases h0 : n 0 = 0 ∨ n 1 = 0 ∨ n 2 = 0
  · simp [h0, throw, throwThe, MonadExceptOf.throw] at h
  simp only [if_neg h0] at h
  push Not at h0
  cases ha : kLine (A.numberOfTransformations 0) (n 0) physical with
  | error e => simp [ha] at h
  | ok a =>
  cases hb : kLine (A.numberOfTransformations 1) (n 1) physical with
  | error e => simp [ha, hb] at h
  | ok b =>
  cases hc : kLine (A.numberOfTransformations 2) (n 2) physical with
  | error e => simp [ha, hb, hc] at h
  | ok c =>
  have p0 := pos _ _ _ h0.1 ha
  have p1 := pos _ _ _ h0.2.1 hb
  have p2 := pos _ _ _ h0.2.2 hc
  have e0 := c11_line _ _ _ p0 _ ha
  have e1 := c11_line _ _ _ p1 _ hb
  have e2 := c11_line _ _ _ p2 _ hc
  have hshear := applyEquivalent_eq A hslab
  rw [ha, hb, hc] at h
  simp only at h
  rw [mapM_ok_of_forall _ (shear A) _ (fun k _ => hshear k)] at h
  simp only [Except.ok.injEq] at h
  refine ⟨?_, hslab, ?_⟩
  · intro i; fin_cases i
    · exact p0
    · exact p1
    · exact p2
  · rw [← h, e0, e1, e2]


/-- Two values are equal or at least `t` apart. -/
def SepLine (t : ℝ) (x y : ℝ) : Prop := t ≤ |x - y|

theorem meshLine_sep (inf : Bool) (n : ℤ) (hn : 1 ≤ n) (hn' : n ≤ 10 ^ 10) :
    (meshLine inf n).Pairwise (SepLine 2e-10) := by
  have hn0 : (0 : ℝ) < n := by exact_mod_cast hn
  have hn1 : (n : ℝ) ≤ 10 ^ 10 := by exact_mod_cast hn'
  unfold meshLine
  rw [List.pairwise_map]
  refine List.pairwise_lt_range.imp ?_
  intro a b hab
  have hab' : (a : ℝ) + 1 ≤ b := by exact_mod_cast hab
  have key : meshCoord inf n b - meshCoord inf n a = 2 * π * ((b : ℝ) - a) / n := by
    cases inf <;> simp only [meshCoord, if_true, Bool.false_eq_true, if_false] <;> ring
  have h1 : (2e-10 : ℝ) ≤ 2 * π * ((b : ℝ) - a) / n := by
    rw [le_div_iff₀ hn0]
    have : (3 : ℝ) < π := pi_gt_three
    norm_num at hn1 ⊢
    nlinarith
  unfold SepLine
  rw [abs_sub_comm, key]
  exact h1.trans (le_abs_self _)

theorem meshPoints_length (a b c : List ℝ) :
    (meshPoints a b c).length = a.length * b.length * c.length := by
  simp [meshPoints, List.length_flatMap, mul_assoc]

theorem mem_meshPoints (a b c : List ℝ) (p : Vec) :
    p ∈ meshPoints a b c ↔ p 0 ∈ a ∧ p 1 ∈ b ∧ p 2 ∈ c := by
  simp only [meshPoints, List.mem_flatMap, List.mem_map]
  constructor
  · rintro ⟨x, hx, y, hy, z, hz, rfl⟩
    exact ⟨hx, hy, hz⟩
  · rintro ⟨hx, hy, hz⟩
    exact ⟨_, hx, _, hy, _, hz, by ext i; fin_cases i <;> rfl⟩

theorem meshPoints_far (A : Atoms) (a b c : List ℝ) (t : ℝ) (ha : a.Pairwise (SepLine t))
    (hb : b.Pairwise (SepLine t)) (hc : c.Pairwise (SepLine t)) :
    ((meshPoints a b c).map (shear A)).Pairwise (FarApart t) := by
  have h2 : ∀ p q : Vec, SepLine t (p 2) (q 2) → FarApart t (shear A p) (shear A q) := by
    intro p q h
    refine ⟨2, ?_⟩
    unfold shear
    split <;> exact h
  have h1 : ∀ p q : Vec, SepLine t (p 1) (q 1) → FarApart t (shear A p) (shear A q) := by
    intro p q h
    refine ⟨1, ?_⟩
    unfold shear
    split <;> exact h
  have h0 : ∀ p q : Vec, SepLine t (p 0) (q 0) → p 2 = q 2 →
      FarApart t (shear A p) (shear A q) := by
    intro p q h he
    refine ⟨0, ?_⟩
    unfold shear
    split
    · simp only [Matrix.cons_val_zero, he]
      unfold SepLine at h
      convert h using 2; ring
    · exact h
  -- the last coordinates are equal or apart
  have hcc : ∀ z ∈ c, ∀ z' ∈ c, z = z' ∨ SepLine t z z' := by
    intro z hz z' hz'
    by_cases he : z = z'
    · exact Or.inl he
    · right
      have : Std.Symm (SepLine t) := ⟨fun x y h => by unfold SepLine at *; rwa [abs_sub_comm]⟩
      exact hc.forall hz hz' he
  rw [List.pairwise_map]
  unfold meshPoints
  rw [List.pairwise_flatMap]
  constructor
  · intro x _
    rw [List.pairwise_flatMap]
    constructor
    · intro y _
      rw [List.pairwise_map]
      exact hc.imp fun h => h2 _ _ h
    · refine hb.imp ?_
      intro y y' h p hp q hq
      obtain ⟨z, _, rfl⟩ := List.mem_map.1 hp
      obtain ⟨z', _, rfl⟩ := List.mem_map.1 hq
      exact h1 _ _ h
  · refine ha.imp ?_
    intro x x' h p hp q hq
    obtain ⟨y, _, hp⟩ := List.mem_flatMap.1 hp
    obtain ⟨y', _, hq⟩ := List.mem_flatMap.1 hq
    obtain ⟨z, hz, rfl⟩ := List.mem_map.1 hp
    obtain ⟨z', hz', rfl⟩ := List.mem_map.1 hq
    rcases hcc z hz z' hz' with rfl | hs
    · exact h0 _ _ h rfl
    · exact h2 _ _ hs

/-- The outcome of a successful `setup_k_sampling`. -/
theorem setup_ok_iff (A : Atoms) (width : ℝ) (kpts : KSpec) (physical rsK : Bool)
    (s : KSampling) : setupKSampling A width kpts physical rsK = .ok s ↔
    ¬ (kGuard kpts ∧ width < 1e-10) ∧ kRaw A kpts physical rsK = .ok s ∧
      kCheck A s.points = .ok () := by
  unfold setupKSampling
  by_cases hg : kGuard kpts ∧ width < 1e-10
  · simp [hg]
  · simp only [if_neg hg, bind, Except.bind, pure, Except.pure]
    cases hk : kRaw A kpts physical rsK with
    | error e => simp
    | ok s' =>
      simp only [Except.ok.injEq]
      cases hc : kCheck A s'.points with
      | error e =>
        simp only [reduceCtorEq, false_iff, not_and]
        rintro - rfl
        simp [hc]
      | ok u =>
        simp only [Except.ok.injEq]
        constructor
        · rintro rfl; exact ⟨hg, rfl, hc⟩
        · exact fun h => h.2.1

theorem setup_tuple_ok (A : Atoms) (width : ℝ) (n : Fin 3 → ℤ) (physical rsK : Bool)
    (s : KSampling) (h : setupKSampling A width (.tuple n) physical rsK = .ok s) :
    kMesh A n physical = .ok s ∧ kCheck A s.points = .ok () :=
  ((setup_ok_iff ..).1 h).2

theorem mergeAll_mem (w : ℝ) (mesh : List Vec) :
    ∀ q ∈ mesh.foldl (mergePoint w) [], q.1 ∈ mesh := by
  suffices ∀ (R L : List Vec) (acc : List (Vec × ℝ)), (∀ q ∈ acc, q.1 ∈ L) →
      ∀ q ∈ R.foldl (mergePoint w) acc, q.1 ∈ L ++ R by
    simpa using this mesh [] [] (by simp)
  intro R
  induction R with
  | nil => intro L acc h; simpa using h
  | cons p R ih =>
    intro L acc h
    have := ih (L ++ [p]) (mergePoint w acc p) ?_
    · simpa using this
    · intro q hq
      unfold mergePoint at hq
      split at hq
      · obtain ⟨a, ha, rfl⟩ := List.mem_map.1 hq
        refine List.mem_append_left _ ?_
        split <;> exact h a ha
      · rcases List.mem_append.1 hq with hq | hq
        · exact List.mem_append_left _ (h q hq)
        · rw [List.mem_singleton] at hq; subst hq; simp

end Hotbit
