import Verif.Props.Telescope

/-!
# C45, C83: cases of the telescoped multipole expansion, and its cache
-/

namespace Hotbit

open Finset

set_option linter.unusedSimpArgs false
set_option linter.unusedSectionVars false

/-! ### The centre -/

/-- In a Bravais lattice every centre is half-way between opposite images. -/
theorem c45_bravais_centre (A : Atoms) (h : A.ctype = .bravais) (c : Vec) : CentreSymmetric A c := by
  intro z _
  ext i
  simp only [Atoms.rawTransform, h, Pi.add_apply, Pi.smul_apply, smul_eq_mul, Pi.neg_apply, Int.cast_neg]
  ring

/-- With a screw axis the centre has to lie on the axis. -/
theorem c45_chiral_centre (A : Atoms) (h : A.ctype = .chiral) (c : Vec) (h0 : c 0 = 0) (h1 : c 1 = 0) :
    CentreSymmetric A c := by
  intro z _
  ext i
  simp only [Atoms.rawTransform, Atoms.rawRotation, h, Pi.add_apply, Pi.smul_apply, smul_eq_mul]
  fin_cases i <;>
    simp [rotZ, Matrix.mulVec, dotProduct, Fin.sum_univ_three, h0, h1] <;> ring

theorem c45_chiralGeneral_centre (A : Atoms) (h : A.ctype = .chiralGeneral) (c : Vec) (h0 : c 0 = 0) (h1 : c 1 = 0) :
    CentreSymmetric A c := by
  intro z _
  ext i
  simp only [Atoms.rawTransform, Atoms.rawRotation, h, Pi.add_apply, Pi.smul_apply, smul_eq_mul]
  fin_cases i <;>
    simp [rotZ, Matrix.mulVec, dotProduct, Fin.sum_univ_three, h0, h1] <;> ring

/-! ### A chain that meets the hypotheses -/

/-- Two atoms in a cell of length 10, periodic in one direction. -/
noncomputable def chainAtoms : Atoms :=
  { ctype := .bravais, atoms := [("H", ![-1, 0, 0]), ("H", ![1, 0, 0])],
    cell := !![10, 0, 0; 0, 10, 0; 0, 0, 10], pbc := ![true, false, false] }

def chainN : Op := ![3, 3, 3]
def chainK : Op := ![3, 1, 1]

theorem chain_ranges : chainAtoms.ranges = ![rangeInf, rangeZero, rangeZero] := by
  funext d
  fin_cases d <;> simp [chainAtoms, Atoms.ranges]

theorem chain_init : ∃ s, mpInit 4 (.seq [chainN 0, chainN 1, chainN 2]) (.seq [chainK 0, chainK 1, chainK 2]) none = .ok s := by
  unfold mpInit
  simp [IntArg.toList, chainN, chainK]

theorem chain_regular : RegularCase chainAtoms chainN chainK 3 (chargeCentre none chainAtoms) := by
  refine ⟨trivial, ?_, ?_, by norm_num, ?_, ?_, Or.inr ⟨0, by rw [chain_ranges]; rfl⟩,
    c45_bravais_centre _ rfl _⟩
  · intro d; rw [chain_ranges]; fin_cases d <;> simp
  · intro d; exact ⟨1, by norm_num, by fin_cases d <;> rfl⟩
  · intro d; rw [chain_ranges]
    fin_cases d
    · intro _; rfl
    · intro h; exact absurd h.symm rangeInf_ne
    · intro h; exact absurd h.symm rangeInf_ne
  · intro d; rw [chain_ranges]
    fin_cases d
    · intro h; exact absurd h rangeInf_ne
    · intro _; rfl
    · intro _; rfl

theorem chain_centre : chargeCentre none chainAtoms = 0 := by
  ext i
  fin_cases i <;> simp [chargeCentre, chainAtoms, Atoms.positions]

theorem chain_box (j : ℕ) (z : Op) (h : z ∈ imageBox chainAtoms chainN j) :
    -((3 ^ j - 1) / 2) ≤ z 0 ∧ z 0 ≤ (3 ^ j - 1) / 2 ∧ z 1 = 0 ∧ z 2 = 0 := by
  rw [imageBox_eq, mem_boxF] at h
  have h0 := h 0
  have h1 := h 1
  have h2 := h 2
  unfold halfWidth at h0 h1 h2
  rw [chain_ranges] at h0 h1 h2
  simp [rangeInf_ne.symm, chainN] at h0 h1 h2
  omega

theorem chain_far (z : Op) (h : z ∈ imageBox chainAtoms chainN 2 \ imageBox chainAtoms chainN 1) :
    z 1 = 0 ∧ z 2 = 0 ∧ 2 ≤ |z 0| := by
  rw [Finset.mem_sdiff] at h
  have h2 := chain_box 2 z h.1
  refine ⟨h2.2.2.1, h2.2.2.2, ?_⟩
  by_contra hc
  apply h.2
  rw [imageBox_eq, mem_boxF]
  have hz : -1 ≤ z 0 ∧ z 0 ≤ 1 := by
    rw [← abs_le]; omega
  intro d
  unfold halfWidth
  rw [chain_ranges]
  fin_cases d
  · simp [chainN]; exact hz
  · simp [rangeInf_ne.symm, chainN, h2.2.2.1]
  · simp [rangeInf_ne.symm, chainN, h2.2.2.2]

theorem chain_transform (r : Vec) (z : Op) (h1 : z 1 = 0) (h2 : z 2 = 0) :
    chainAtoms.rawTransform r z = ![r 0 + 10 * z 0, r 1, r 2] := by
  ext i
  fin_cases i <;> simp [Atoms.rawTransform, chainAtoms, h1, h2] <;> ring

theorem norm3_axis (x : ℝ) : norm3 ![x, 0, 0] = |x| := by
  simp [norm3, Real.sqrt_sq_eq_abs]

theorem chain_block (j : ℕ) (q : List ℝ) (a : ℝ × Vec)
    (h : a ∈ blockCharges chainAtoms chainN j (q.zip chainAtoms.positions)) :
    norm3 a.2 ≤ 10 * ((3 : ℝ) ^ j - 1) / 2 + 1 := by
  unfold blockCharges imageCharges at h
  rw [List.mem_flatMap] at h
  obtain ⟨z, hz, h⟩ := h
  rw [List.mem_map] at h
  obtain ⟨b, hb, rfl⟩ := h
  have hb2 := (List.of_mem_zip hb).2
  obtain ⟨h0, h0', h1, h2⟩ := chain_box j z (Finset.mem_toList.1 hz)
  have hz0 : |(z 0 : ℝ)| ≤ ((3 : ℝ) ^ j - 1) / 2 := by
    have e : |z 0| ≤ ((3 : ℤ) ^ j - 1) / 2 := abs_le.2 ⟨h0, h0'⟩
    have e2 : 2 * |z 0| ≤ (3 : ℤ) ^ j - 1 := by omega
    have e3 : (2 * |(z 0 : ℝ)|) ≤ (3 : ℝ) ^ j - 1 := by exact_mod_cast e2
    linarith
  rw [chain_transform _ _ h1 h2]
  simp only [Atoms.positions, chainAtoms, List.map_cons, List.map_nil, List.mem_cons, List.not_mem_nil, or_false] at hb2
  have key : ∀ y : ℝ, |y| ≤ 1 → norm3 ![y + 10 * (z 0 : ℝ), 0, 0] ≤ 10 * ((3 : ℝ) ^ j - 1) / 2 + 1 := by
    intro y hy
    rw [norm3_axis]
    refine (abs_add_le _ _).trans ?_
    rw [abs_mul, abs_of_nonneg (by norm_num : (0 : ℝ) ≤ 10)]
    linarith
  rcases hb2 with e | e
  · rw [e]; simpa using key (-1) (by norm_num)
  · rw [e]; simpa using key 1 (by norm_num)

theorem chain_distance (j : ℕ) (w : Op) (hw : w ∈ imageBox chainAtoms chainN 2 \ imageBox chainAtoms chainN 1) :
    20 * (3 : ℝ) ^ j ≤ norm3 (chainAtoms.rawTransform 0 (blockOp chainN j w) - 0) := by
  obtain ⟨h1, h2, h0⟩ := chain_far w hw
  rw [chain_transform _ _ (by simp [blockOp, h1]) (by simp [blockOp, h2]), sub_zero]
  have e : (![(0 : Vec) 0 + 10 * ((blockOp chainN j w 0 : ℤ) : ℝ), (0 : Vec) 1, (0 : Vec) 2] : Vec) =
      ![10 * ((w 0 : ℝ) * 3 ^ j), 0, 0] := by
    simp [blockOp, chainN]
  rw [e, norm3_axis, abs_mul, abs_mul, abs_of_nonneg (by norm_num : (0 : ℝ) ≤ 10),
    abs_of_nonneg (by positivity : (0 : ℝ) ≤ 3 ^ j)]
  have h0' : (2 : ℝ) ≤ |(w 0 : ℝ)| := by exact_mod_cast h0
  have : (0 : ℝ) < 3 ^ j := by positivity
  nlinarith

theorem chain_separated (q : List ℝ) (b : ℝ × Vec) (hb : b ∈ q.zip chainAtoms.positions) :
    Separated chainAtoms chainN 3 (q.zip chainAtoms.positions) (chargeCentre none chainAtoms) b.2 := by
  intro j hj w hw a ha
  rw [chain_centre, sub_zero, sub_zero]
  have h1 := chain_block j q a ha
  have h2 := chain_distance j w hw
  have h3 : norm3 b.2 ≤ 1 := by
    have hb2 := (List.of_mem_zip hb).2
    simp only [Atoms.positions, chainAtoms, List.map_cons, List.map_nil, List.mem_cons, List.not_mem_nil, or_false] at hb2
    rcases hb2 with e | e
    · rw [e, norm3_axis]; norm_num
    · rw [e, norm3_axis]; norm_num
  have : (1 : ℝ) ≤ 3 ^ j := one_le_pow₀ (by norm_num)
  linarith

theorem chain_ne : ∀ j < 3 - 1, ∀ x ∈ imageBox chainAtoms chainN 2 \ imageBox chainAtoms chainN 1,
    chainAtoms.rawTransform (chargeCentre none chainAtoms) (blockOp chainN j x) ≠ chargeCentre none chainAtoms := by
  intro j _ x hx e
  rw [chain_centre] at e
  have := chain_distance j x hx
  rw [e, sub_zero, norm3_eq_zero.2 rfl] at this
  have : (0 : ℝ) < 3 ^ j := by positivity
  linarith

/-- All hypotheses of `c45_potential` hold for the chain. -/
example (s : MP)
    (hs : mpInit 4 (.seq [chainN 0, chainN 1, chainN 2]) (.seq [chainK 0, chainK 1, chainK 2]) none = .ok s)
    (junk : Moments) :
    ∃ phi, mpPotential (mpUpdate junk s chainAtoms [1, -1]).1 = .ok phi ∧ phi.length = 2 := by
  obtain ⟨phi, e, l, -⟩ := c45_potential (q := [1, -1]) hs chain_regular junk chain_ne (chain_separated _)
  exact ⟨phi, e, by simpa [chainAtoms, Atoms.positions] using l⟩

/-! ### Cases that are not summed as documented -/

/-- An object with `n` and `k` (the other attributes do not matter here). -/
def mpWith (n k : Op) : MP :=
  { lmax := 1, n1 := fun d => -((n d - 1) / 2), n2 := fun d => n d / 2, m1 := fun d => -((n d ^ 2 - 1) / 2),
    m2 := fun d => n d ^ 2 / 2, k := k }

theorem mpWith_init (n k : Op) (s : MP)
    (hs : mpInit 1 (.seq [n 0, n 1, n 2]) (.seq [k 0, k 1, k 2]) none = .ok s) : s = mpWith n k := by
  unfold mpInit at hs
  split_ifs at hs
  simp only [Except.ok.injEq] at hs
  have e3 : ∀ (f : Op) (d : Fin 3), (IntArg.seq [f 0, f 1, f 2]).toList.getD d 0 = f d := by
    intro f d; fin_cases d <;> rfl
  simp only [e3] at hs
  rw [← hs]; rfl

/-- C45 fails for even `n`: with `n=2`, `k=3` cell `-1` counts twice and cell `3` not at all (the documentation
promises `n**k = 8` cells). -/
theorem c45_even_fails : (visitedCells (mpWith ![2, 2, 2] ![3, 1, 1]) ![rangeInf, rangeZero, rangeZero]).count ![-1, 0, 0] = 2 ∧
    (visitedCells (mpWith ![2, 2, 2] ![3, 1, 1]) ![rangeInf, rangeZero, rangeZero]).count ![3, 0, 0] = 0 := by
  decide

set_option maxRecDepth 100000 in
/-- C45 fails for different `k` in two periodic directions: with `n=3`, `k=(3,2,1)` cell `(0,2,0)` is one of the
`3²` cells in the second direction, but it is missed. -/
theorem c45_unequal_fails : (visitedCells (mpWith ![3, 3, 3] ![3, 2, 1]) ![rangeInf, rangeInf, rangeZero]).count ![0, 2, 0] = 0 := by
  decide

/-- C45 fails for a finite symmetry direction (here a wedge with four sectors, periodic in z): of the cells two
periods away only the sector of the atoms themselves is summed. -/
theorem c45_finite_fails :
    (visitedCells (mpWith ![3, 3, 3] ![1, 1, 2]) ![(.fin (-1), .fin 2), rangeZero, rangeInf]).count ![1, 0, 1] = 1 ∧
    (visitedCells (mpWith ![3, 3, 3] ![1, 1, 2]) ![(.fin (-1), .fin 2), rangeZero, rangeInf]).count ![0, 0, 2] = 1 ∧
    (visitedCells (mpWith ![3, 3, 3] ![1, 1, 2]) ![(.fin (-1), .fin 2), rangeZero, rangeInf]).count ![1, 0, 2] = 0 := by
  decide

/-- The wedge with four sectors has the ranges of `c45_finite_fails`. -/
theorem wedge_four (A : Atoms) (h : A.ctype = .wedge) (ha : A.wedgeAngle = 2 * Real.pi / (4 : ℤ)) (hp : A.wedgePbcz = true) :
    A.ranges = ![(.fin (-1), .fin 2), rangeZero, rangeInf] := by
  have := wedgeM_two_pi_div (M := 4) (by norm_num)
  unfold Atoms.ranges
  simp only [h, ha, hp]
  rw [this]
  rfl

/-! ### Rotating operations and a centre off the axis -/

/-- One atom off the axis of a twofold screw. -/
noncomputable def screwAtoms : Atoms :=
  { ctype := .chiral, atoms := [("H", ![1, 0, 0])], cell := !![0, 0, 0; 1, 0, 0; Real.pi, 0, 0], pbc := ![false, false, true] }

theorem screw_transform (m : ℤ) (hm : m = -1 ∨ m = 0 ∨ m = 1) (x z : ℝ) :
    screwAtoms.rawTransform ![x, 0, z] ![0, 0, m] = ![x * (1 - 2 * m ^ 2), 0, z + m] := by
  rcases hm with rfl | rfl | rfl <;>
  · ext i
    fin_cases i <;> simp [screwAtoms, Atoms.rawTransform, Atoms.rawRotation, rotZ, Matrix.mulVec, dotProduct,
      Fin.sum_univ_three] <;> norm_num <;> ring

theorem screw_ranges : screwAtoms.ranges = ![rangeZero, rangeZero, rangeInf] := rfl

theorem screw_case : TeleCase (mpWith ![3, 3, 3] ![1, 1, 3]) screwAtoms ![3, 3, 3] 3 0 := by
  refine ⟨trivial, ?_, ?_, fun d => rfl, fun d => rfl, fun d => rfl, fun d => rfl, by norm_num, ?_, ?_, rfl,
    c45_chiral_centre _ rfl _ rfl rfl⟩
  · intro d; rw [screw_ranges]; fin_cases d <;> simp
  · intro d; exact ⟨1, by norm_num, by fin_cases d <;> rfl⟩
  · intro d; rw [screw_ranges]
    fin_cases d
    · intro h; exact absurd h.symm rangeInf_ne
    · intro h; exact absurd h.symm rangeInf_ne
    · intro _; rfl
  · intro d; rw [screw_ranges]
    fin_cases d
    · intro _; rfl
    · intro _; rfl
    · intro h; exact absurd h rangeInf_ne

theorem screw_ops : cellOps (collapse (fun d => decide ((mpWith ![3, 3, 3] ![1, 1, 3]).k d - 2 ≤ ((0 : ℕ) : ℤ)))
    fun d => nFromRanges2 ((mpWith ![3, 3, 3] ![1, 1, 3]).n1 d) ((mpWith ![3, 3, 3] ![1, 1, 3]).n2 d)
      (screwAtoms.ranges d)) = [![0, 0, -1], ![0, 0, 0], ![0, 0, 1]] := by
  rw [screw_ranges]
  decide

/-- C45 fails for a rotating operation when the centre is off the axis (the default is the mean of the
positions): after one pass the moments are not those of the three cells about the stored centre. -/
theorem c45_centre_fails (junk : Moments) :
    ∃ st, teleStep (mpWith ![3, 3, 3] ![1, 1, 3]) screwAtoms junk
      ⟨getMoments 1 [(1, ![1, 0, 0])] ![1, 0, 0], ![1, 0, 0], 1, [getMoments 1 [(1, ![1, 0, 0])] ![1, 0, 0]], [![1, 0, 0]]⟩ 0 = .ok st ∧
      ¬ IsMoments 1 st.T ([![0, 0, -1], ![0, 0, 0], ![0, 0, 1]].flatMap (imageCharges screwAtoms [(1, ![1, 0, 0])])) st.c := by
  have hb1 : blockOp ![3, 3, 3] 0 = id := by funext x d; simp [blockOp]
  have hlev : (1 : Op) = fun d => (![3, 3, 3] : Op) d ^ 0 := by funext d; simp
  have hmem : ∀ x ∈ ([![0, 0, -1], ![0, 0, 0], ![0, 0, 1]] : List Op), x ∈ imageBox screwAtoms ![3, 3, 3] 1 := by
    intro x hx
    rw [← screw_ops, screw_case.collapse_tele 0 (by norm_num)] at hx
    exact (screw_case.mem_near x).1 hx
  obtain ⟨T, e, hT⟩ := teleSum_ok (c := ![1, 0, 0]) screw_case 1 0 junk _ [(1, ![1, 0, 0])] (c60_moments 1 _ _)
    [![0, 0, -1], ![0, 0, 0], ![0, 0, 1]] Moments.zero [] hmem (isMoments_zero _ _)
  have hc : teleCentre screwAtoms [![0, 0, -1], ![0, 0, 0], ![0, 0, 1]] 1 ![1, 0, 0] = .ok ![-1 / 3, 0, 0] := by
    unfold teleCentre
    rw [mapM_ok_of_forall (fun x => screwAtoms.transform ![1, 0, 0] (mulOp x 1))
      (fun x => screwAtoms.rawTransform ![1, 0, 0] x) _ (by
        intro x hx
        have := screw_case.transform_ok (i := 0) (hmem x hx) ![1, 0, 0]
        rw [hb1] at this
        rw [show mulOp x 1 = x by funext d; simp [mulOp]]
        exact this)]
    show Except.ok _ = Except.ok _
    congr 1
    have t1 := screw_transform (-1) (by norm_num) 1 0
    have t2 := screw_transform 0 (by norm_num) 1 0
    have t3 := screw_transform 1 (by norm_num) 1 0
    simp only [List.map_cons, List.map_nil, List.sum_cons, List.sum_nil, List.length_cons, List.length_nil, t1, t2, t3]
    ext i
    fin_cases i <;> norm_num
  refine ⟨⟨T, ![-1 / 3, 0, 0], mulOp 1 ((mpWith ![3, 3, 3] ![1, 1, 3]).n2 - (mpWith ![3, 3, 3] ![1, 1, 3]).n1 + 1),
    [getMoments 1 [(1, ![1, 0, 0])] ![1, 0, 0]] ++ [T], [![1, 0, 0]] ++ [![-1 / 3, 0, 0]]⟩, ?_, ?_⟩
  · unfold teleStep
    dsimp only
    rw [screw_ops, hc]
    have e' : teleSum screwAtoms 1 junk [![0, 0, -1], ![0, 0, 0], ![0, 0, 1]] 1 ![1, 0, 0]
      (getMoments 1 [(1, ![1, 0, 0])] ![1, 0, 0]) = .ok T := by rw [hlev]; exact e
    rw [show (mpWith ![3, 3, 3] ![1, 1, 3]).lmax = 1 from rfl, e']
    rfl
  · intro hbad
    rw [hb1, List.nil_append] at hT
    simp only [id] at hT
    have d1 := (c60_dipole 1 le_rfl _ _ _ hT).1
    have d2 := (c60_dipole 1 le_rfl _ _ _ hbad).1
    rw [d1] at d2
    have t1 := screw_transform (-1) (by norm_num) 1 0
    have t2 := screw_transform 0 (by norm_num) 1 0
    have t3 := screw_transform 1 (by norm_num) 1 0
    simp only [List.flatMap_cons, List.flatMap_nil, imageCharges, List.map_cons, List.map_nil, List.map_append,
      List.append_nil, List.sum_append, List.sum_cons, List.sum_nil, t1, t2, t3] at d2
    norm_num at d2

/-! ### C83: the cache -/

/-- The same system with other positions. -/
def SameSystem (A B : Atoms) : Prop :=
  A.ctype = B.ctype ∧ A.cell = B.cell ∧ A.pbc = B.pbc ∧ A.slabX = B.slabX ∧
    A.atoms.map Prod.fst = B.atoms.map Prod.fst

theorem SameSystem.eq {A B : Atoms} (h : SameSystem A B) (hp : A.positions = B.positions) : A = B := by
  obtain ⟨h1, h2, h3, h4, h5⟩ := h
  have ha : A.atoms = B.atoms := by
    unfold Atoms.positions at hp
    have e : ∀ l : List (String × Vec), l = (l.map Prod.fst).zip (l.map Prod.snd) := by
      intro l; rw [List.zip_map']; simp
    rw [e A.atoms, e B.atoms, h5, hp]
  cases A; cases B
  simp only at h1 h2 h3 h4 ha
  subst h1 h2 h3 h4 ha
  rfl

/-- A history of updates; the outcome is that of the last one. -/
noncomputable def mpRun (junk : Moments) : MP → List (Atoms × List ℝ) → MP × Except Exn Unit
  | s, [] => (s, .ok ())
  | s, [a] => mpUpdate junk s a.1 a.2
  | s, a :: b :: l => mpRun junk (mpUpdate junk s a.1 a.2).1 (b :: l)

/-- The constructor's parameters of two objects agree. -/
def SameParams (s t : MP) : Prop :=
  s.lmax = t.lmax ∧ s.n1 = t.n1 ∧ s.n2 = t.n2 ∧ s.m1 = t.m1 ∧ s.m2 = t.m2 ∧ s.k = t.k ∧ s.r0v = t.r0v

theorem body_congr {s t : MP} (h : SameParams s t) (hr : s.r = t.r) (hq : s.q = t.q) (A : Atoms) (junk : Moments)
    (qr : List (ℝ × Vec)) (c : Vec) (M0 : Moments) : mpBody s A junk qr c M0 = mpBody t A junk qr c M0 := by
  obtain ⟨h1, h2, h3, h4, h5, h6, h7⟩ := h
  cases s; cases t
  simp only at h1 h2 h3 h4 h5 h6 h7 hr hq
  subst h1 h2 h3 h4 h5 h6 h7 hr hq
  rfl

/-- `_update` overwrites everything but the parameters. -/
theorem compute_congr {s t : MP} (h : SameParams s t) (junk : Moments) (A : Atoms) (q : List ℝ)
    (ht : (mpCompute junk t A q).2 = .ok ()) : mpCompute junk s A q = mpCompute junk t A q := by
  obtain ⟨h1, h2, h3, h4, h5, h6, h7⟩ := h
  cases s; cases t
  simp only at h1 h2 h3 h4 h5 h6 h7
  subst h1 h2 h3 h4 h5 h6 h7
  unfold mpCompute at ht ⊢
  dsimp only [mpCentre] at ht ⊢
  split at ht
  · simp at ht
  · rename_i e
    split
    · rename_i e'
      exact absurd (e'.symm.trans e) (by simp)
    · rename_i e'
      have := e'.symm.trans e
      simp only [Except.ok.injEq] at this
      rw [this]

theorem body_params {s t : MP} {A : Atoms} {junk : Moments} {qr : List (ℝ × Vec)} {c : Vec} {M0 : Moments}
    (h : mpBody s A junk qr c M0 = .ok t) : SameParams t s ∧ t.r = s.r ∧ t.q = s.q := by
  unfold mpBody at h
  dsimp only at h
  split at h
  · cases h
  · simp only [bind, Except.bind, pure, Except.pure] at h
    split at h
    · cases h
    split at h
    · cases h
    split at h
    · cases h
    cases h
    exact ⟨⟨rfl, rfl, rfl, rfl, rfl, rfl, rfl⟩, rfl, rfl⟩

theorem compute_params (junk : Moments) (s : MP) (A : Atoms) (q : List ℝ) :
    SameParams (mpCompute junk s A q).1 s ∧ (mpCompute junk s A q).1.r = some A.positions ∧
      (mpCompute junk s A q).1.q = some q := by
  unfold mpCompute
  dsimp only
  split
  · exact ⟨⟨rfl, rfl, rfl, rfl, rfl, rfl, rfl⟩, rfl, rfl⟩
  · rename_i e
    exact body_params e

theorem update_fresh {s : MP} (h : s.r = none) (junk : Moments) (A : Atoms) (q : List ℝ) :
    mpUpdate junk s A q = mpCompute junk s A q := by
  unfold mpUpdate; rw [if_pos (.inl h)]

/-- One more update of an object whose last update was successful. -/
theorem update_again {s : MP} (h : s.r = none) (junk : Moments) {A B : Atoms} (hAB : SameSystem B A) (p q : List ℝ)
    (hB : (mpCompute junk s B p).2 = .ok ()) (hA : (mpCompute junk s A q).2 = .ok ()) :
    mpUpdate junk (mpCompute junk s B p).1 A q = mpCompute junk s A q := by
  obtain ⟨h1, h2, h3⟩ := compute_params junk s B p
  unfold mpUpdate
  rw [h2, h3]
  simp only [reduceCtorEq, or_self, if_false]
  split
  · exact compute_congr h1 junk A q hA
  · rename_i hn
    push Not at hn
    obtain ⟨e1, e2⟩ := hn
    have e3 := hAB.eq (Option.some.inj e1)
    subst e3
    cases e2
    exact Prod.ext rfl hB.symm

/-- C83.  As long as only positions and charges change, and no update raises, an object that has been updated
any number of times before is in the same state as a new object updated once, whatever the history was: the
test for changes never keeps a stale potential, field or expansion. -/
theorem c83_history (s : MP) (hs : s.r = none) (junk : Moments) (A : Atoms) (q : List ℝ) (l : List (Atoms × List ℝ))
    (hl : ∀ a ∈ l, SameSystem a.1 A ∧ (mpUpdate junk s a.1 a.2).2 = .ok ())
    (hA : (mpUpdate junk s A q).2 = .ok ()) :
    mpRun junk s (l ++ [(A, q)]) = mpUpdate junk s A q := by
  have main : ∀ (l : List (Atoms × List ℝ)) (B : Atoms) (p : List ℝ), SameSystem B A →
      (mpCompute junk s B p).2 = .ok () →
      (∀ a ∈ l, SameSystem a.1 A ∧ (mpUpdate junk s a.1 a.2).2 = .ok ()) →
      mpRun junk (mpCompute junk s B p).1 (l ++ [(A, q)]) = mpUpdate junk s A q := by
    intro l
    induction l with
    | nil =>
      intro B p hB hok _
      rw [update_fresh hs] at hA ⊢
      exact update_again hs junk hB p q hok hA
    | cons a l ih =>
      intro B p hB hok hl
      have ha := hl a (by simp)
      rw [update_fresh hs] at ha
      have hBa : SameSystem B a.1 := by
        obtain ⟨h1, h2, h3, h4, h5⟩ := hB
        obtain ⟨g1, g2, g3, g4, g5⟩ := ha.1
        exact ⟨h1.trans g1.symm, h2.trans g2.symm, h3.trans g3.symm, h4.trans g4.symm, h5.trans g5.symm⟩
      have e := update_again hs junk hBa p a.2 hok ha.2
      cases l with
      | nil =>
        show mpRun junk (mpUpdate junk (mpCompute junk s B p).1 a.1 a.2).1 ([] ++ [(A, q)]) = _
        rw [e]
        exact ih a.1 a.2 ha.1 ha.2 (by simp)
      | cons b l =>
        show mpRun junk (mpUpdate junk (mpCompute junk s B p).1 a.1 a.2).1 ((b :: l) ++ [(A, q)]) = _
        rw [e]
        exact ih a.1 a.2 ha.1 ha.2 (fun x hx => hl x (by simp at hx ⊢; tauto))
  cases l with
  | nil => rfl
  | cons a l =>
    have ha := hl a (by simp)
    rw [update_fresh hs] at ha
    have e : mpRun junk s ((a :: l) ++ [(A, q)]) = mpRun junk (mpUpdate junk s a.1 a.2).1 (l ++ [(A, q)]) := by
      cases l <;> rfl
    rw [e, update_fresh hs]
    exact main l a.1 a.2 ha.1 ha.2 (fun x hx => hl x (by simp [hx]))

/-- The hypotheses of `c83_history` hold for the chain and any charges. -/
example (s : MP)
    (hs : mpInit 4 (.seq [chainN 0, chainN 1, chainN 2]) (.seq [chainK 0, chainK 1, chainK 2]) none = .ok s)
    (junk : Moments) (l : List (List ℝ)) (q : List ℝ) :
    mpRun junk s (l.map (fun p => (chainAtoms, p)) ++ [(chainAtoms, q)]) = mpUpdate junk s chainAtoms q := by
  have ok : ∀ p, (mpUpdate junk s chainAtoms p).2 = .ok () :=
    fun p => (c45_moments (q := p) hs chain_regular junk chain_ne).1
  refine c83_history s (init_fields hs).2.2.2.1 junk _ _ _ ?_ (ok q)
  intro a ha
  obtain ⟨p, -, rfl⟩ := List.mem_map.1 ha
  exact ⟨⟨rfl, rfl, rfl, rfl, rfl⟩, ok p⟩

/-! ### What the cache misses -/

/-- One atom in a cell of length `a`, periodic in one direction. -/
noncomputable def oneAtom (a : ℝ) : Atoms :=
  { ctype := .bravais, atoms := [("H", ![0, 0, 0])], cell := !![a, 0, 0; 0, 1, 0; 0, 0, 1], pbc := ![true, false, false] }

theorem one_ranges (a : ℝ) : (oneAtom a).ranges = ![rangeInf, rangeZero, rangeZero] := by
  funext d
  fin_cases d <;> simp [oneAtom, Atoms.ranges]

theorem one_regular (a : ℝ) (c : Vec) : RegularCase (oneAtom a) ![3, 3, 3] ![1, 1, 1] 1 c := by
  refine ⟨trivial, ?_, ?_, by norm_num, ?_, ?_, Or.inl rfl, c45_bravais_centre _ rfl _⟩
  · intro d; rw [one_ranges]; fin_cases d <;> simp
  · intro d; exact ⟨1, by norm_num, by fin_cases d <;> rfl⟩
  · intro d _; fin_cases d <;> rfl
  · intro d _; fin_cases d <;> rfl

theorem one_box (a : ℝ) : imageBox (oneAtom a) ![3, 3, 3] 1 \ {0} = {![-1, 0, 0], ![1, 0, 0]} := by
  ext z
  rw [Finset.mem_sdiff, imageBox_eq, mem_boxF, Finset.mem_singleton, Finset.mem_insert, Finset.mem_singleton,
    Fin.forall_fin_succ, Fin.forall_fin_succ, Fin.forall_fin_succ, funext_iff, funext_iff, funext_iff]
  unfold halfWidth
  rw [one_ranges]
  simp [Fin.forall_fin_succ, rangeInf_ne.symm]
  omega

theorem one_potential (a : ℝ) (ha : 0 < a) (s : MP)
    (hs : mpInit 1 (.seq [3, 3, 3]) (.seq [1, 1, 1]) none = .ok s) (junk : Moments) :
    mpPotential (mpUpdate junk s (oneAtom a) [1]).1 = .ok [2 / a] := by
  obtain ⟨phi, e, l, h⟩ := c45_potential (q := [1]) (n := ![3, 3, 3]) (k := ![1, 1, 1]) (K := 1) (A := oneAtom a)
    (r0 := none) hs (one_regular a _) junk (by omega) (fun b _ j hj => by omega)
  rw [e]
  have hz : [(1 : ℝ)].zip (oneAtom a).positions = [(1, ![0, 0, 0])] := rfl
  have h0 := h 0 (1, ![0, 0, 0]) rfl
  rw [hz] at l h0
  have hf : farBound (oneAtom a) ![3, 3, 3] 1 (1 : ℤ).toNat [(1, ![0, 0, 0])] (chargeCentre none (oneAtom a)) ![0, 0, 0] = 0 := by
    simp [farBound]
  have hc : chargeCentre none (oneAtom a) = ![0, 0, 0] := by
    ext i; fin_cases i <;> simp [chargeCentre, oneAtom, Atoms.positions]
  have hl : latticePot (oneAtom a) ![3, 3, 3] 1 [(1, ![0, 0, 0])] 0 ![0, 0, 0] = 2 / a := by
    unfold latticePot
    rw [one_box, Finset.sum_pair (by decide)]
    have t1 : (oneAtom a).rawTransform ![0, 0, 0] ![-1, 0, 0] = ![-a, 0, 0] := by
      ext i; fin_cases i <;> simp [Atoms.rawTransform, oneAtom] <;> rfl
    have t2 : (oneAtom a).rawTransform ![0, 0, 0] ![1, 0, 0] = ![a, 0, 0] := by
      ext i; fin_cases i <;> simp [Atoms.rawTransform, oneAtom] <;> rfl
    simp only [imageCharges, List.map_cons, List.map_nil, t1, t2]
    simp [chargePot, norm3_axis, abs_of_pos ha]
    ring
  simp only at h0
  rw [hf, hl, hc, sub_self, zero_dotProduct, sub_zero] at h0
  have h1 := abs_nonpos_iff.1 h0
  match phi, l with
  | [x], _ =>
    simp at h1
    rw [show x = 2 / a by linarith]

/-- C83 fails when the cell changes (here to twice the length): the potential of the old cell is returned. -/
theorem c83_cell_fails (s : MP) (hs : mpInit 1 (.seq [3, 3, 3]) (.seq [1, 1, 1]) none = .ok s) (junk : Moments) :
    mpPotential (mpRun junk s [(oneAtom 1, [1]), (oneAtom 2, [1])]).1 = .ok [2] ∧
      mpPotential (mpUpdate junk s (oneAtom 2) [1]).1 = .ok [1] := by
  have e1 := one_potential 1 one_pos s hs junk
  have e2 := one_potential 2 two_pos s hs junk
  norm_num at e1 e2
  refine ⟨?_, e2⟩
  have hn : s.r = none := (init_fields hs).2.2.2.1
  obtain ⟨-, h2, h3⟩ := compute_params junk s (oneAtom 1) [1]
  show mpPotential (mpUpdate junk (mpUpdate junk s (oneAtom 1) [1]).1 (oneAtom 2) [1]).1 = _
  rw [update_fresh hn] at e1 ⊢
  unfold mpUpdate
  rw [h2, h3, if_neg (by simp), if_neg (by simp [oneAtom, Atoms.positions])]
  exact e1

theorem one_init : ∃ s, mpInit 1 (.seq [3, 3, 3]) (.seq [1, 1, 1]) none = .ok s := by
  unfold mpInit; simp [IntArg.toList]

/-- C83 fails after an error: `k=2` is refused for directions that are not periodic, but the second call with the
same atoms and charges succeeds, and the potential does not exist. -/
theorem c83_error_fails (s : MP) (hs : mpInit 1 (.seq [3, 3, 3]) (.seq [2, 2, 2]) none = .ok s) (junk : Moments) (a : ℝ) :
    (mpUpdate junk s (oneAtom a) [1]).2 = .error .valueError ∧
      (mpRun junk s [(oneAtom a, [1]), (oneAtom a, [1])]).2 = .ok () ∧
      mpPotential (mpRun junk s [(oneAtom a, [1]), (oneAtom a, [1])]).1 = .error .attributeError := by
  have hn : s.r = none := (init_fields hs).2.2.2.1
  have hs' : s = mpWith ![3, 3, 3] ![2, 2, 2] := mpWith_init ![3, 3, 3] ![2, 2, 2] s hs
  have hb : ∀ t : MP, t.k = ![2, 2, 2] → ∀ qr c M0, mpBody t (oneAtom a) junk qr c M0 = .error .valueError := by
    intro t ht qr c M0
    unfold mpBody
    dsimp only
    rw [if_pos ⟨1, by rw [one_ranges]; simp [rangeZero], by rw [ht]; decide⟩]
    rfl
  have hm : mpCompute junk s (oneAtom a) [1] = ({ s with
      r := some (oneAtom a).positions
      q := some [1]
      M := [getMoments s.lmax ([1].zip (oneAtom a).positions) (mpCentre s (oneAtom a))]
      r0 := [mpCentre s (oneAtom a)] }, .error .valueError) := by
    unfold mpCompute
    dsimp only
    rw [hb _ (by rw [hs']; rfl)]
  have hu : mpUpdate junk (mpCompute junk s (oneAtom a) [1]).1 (oneAtom a) [1] =
      ((mpCompute junk s (oneAtom a) [1]).1, .ok ()) := by
    rw [hm]
    unfold mpUpdate
    dsimp only
    rw [if_neg (by simp), if_neg (by simp)]
  refine ⟨?_, ?_, ?_⟩
  · rw [update_fresh hn, hm]
  · show (mpUpdate junk (mpUpdate junk s (oneAtom a) [1]).1 (oneAtom a) [1]).2 = _
    rw [update_fresh hn, hu]
  · show mpPotential (mpUpdate junk (mpUpdate junk s (oneAtom a) [1]).1 (oneAtom a) [1]).1 = _
    rw [update_fresh hn, hu, hm, hs']
    rfl

end Hotbit
