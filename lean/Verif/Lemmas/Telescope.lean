import Verif.Lemmas.Boxes
import Verif.Lemmas.MultipoleFar
import Verif.Spec.Telescope
import Mathlib.Data.List.GetD

/-!
# The telescoped multipoles and the local expansion
-/

namespace Hotbit

open Finset

set_option linter.unusedSimpArgs false
set_option linter.unusedSectionVars false

theorem rangeInf_ne : rangeInf ≠ rangeZero := by unfold rangeInf rangeZero; intro h; injection h with h1 h2; cases h1

theorem momV_perm {a b : List (ℝ × Vec)} (h : a.Perm b) (c : Vec) (l : ℕ) (m : ℤ) : momV a c l m = momV b c l m := by
  unfold momV
  exact (h.map _).sum_eq

theorem IsMoments.perm {p : ℕ} {M : Moments} {a b : List (ℝ × Vec)} {c : Vec} (h : IsMoments p M a c)
    (hp : a.Perm b) : IsMoments p M b c := by
  rw [isMoments_iff] at *
  simpa only [momV_perm hp] using h

theorem isMoments_zero (p : ℕ) (c : Vec) : IsMoments p Moments.zero [] c := by
  rw [isMoments_iff]; simp [momV, Moments.zero]

/-- What the theorems assume about the object `s` and the atoms. -/
structure TeleCase (s : MP) (A : Atoms) (n : Op) (K : ℕ) (c : Vec) : Prop where
  comm : Commuting A.ctype
  pure : PureRanges A
  odd : ∀ d, ∃ h : ℤ, 0 ≤ h ∧ n d = 2 * h + 1
  n1 : ∀ d, s.n1 d = -((n d - 1) / 2)
  n2 : ∀ d, s.n2 d = n d / 2
  m1 : ∀ d, s.m1 d = -((n d ^ 2 - 1) / 2)
  m2 : ∀ d, s.m2 d = n d ^ 2 / 2
  hK : 1 ≤ K
  kPer : ∀ d, A.ranges d = rangeInf → s.k d = K
  kZero : ∀ d, A.ranges d = rangeZero → s.k d = 1
  kMax : s.kMax = K
  centre : CentreSymmetric A c

section
variable {s : MP} {A : Atoms} {n : Op} {K : ℕ} {c : Vec}

theorem TeleCase.n_pow (t : TeleCase s A n K c) (j : ℕ) (d : Fin 3) :
    ∃ h : ℤ, 0 ≤ h ∧ n d ^ j = 2 * h + 1 := by
  obtain ⟨h, h0, e⟩ := t.odd d
  induction j with
  | zero => exact ⟨0, le_refl _, by simp⟩
  | succ j ih =>
    obtain ⟨g, g0, eg⟩ := ih
    refine ⟨2 * g * h + g + h, by positivity, ?_⟩
    rw [pow_succ, eg, e]; ring

theorem TeleCase.pow_pos (t : TeleCase s A n K c) (j : ℕ) (d : Fin 3) : 0 < n d ^ j := by
  obtain ⟨h, h0, e⟩ := t.n_pow j d
  omega

theorem TeleCase.half_nonneg (t : TeleCase s A n K c) (j : ℕ) : 0 ≤ halfWidth A n j := by
  intro d
  unfold halfWidth
  have := t.pow_pos j d
  simp only [Pi.zero_apply]
  split_ifs <;> omega

/-- A block of `n^(j+i)` cells is divided into `n^i` blocks of `n^j` cells. -/
theorem TeleCase.half_add (t : TeleCase s A n K c) (i j : ℕ) :
    bigBox (halfWidth A n i) (halfWidth A n j) (fun d => n d ^ j) = halfWidth A n (j + i) := by
  funext d
  obtain ⟨g, g0, eg⟩ := t.n_pow j d
  obtain ⟨f, f0, ef⟩ := t.n_pow i d
  have e : n d ^ (j + i) = (2 * g + 1) * (2 * f + 1) := by rw [pow_add, eg, ef]
  unfold bigBox mulOp halfWidth
  simp only [Pi.add_apply]
  split_ifs
  · rw [e, eg, ef]
    rw [show (2 * g + 1 - 1) / 2 = g by omega, show (2 * f + 1 - 1) / 2 = f by omega,
      show (2 * g + 1) * (2 * f + 1) - 1 = 2 * (g + f * (2 * g + 1)) by ring]
    omega
  · ring

theorem TeleCase.half_cond (t : TeleCase s A n K c) (i j : ℕ) (d : Fin 3) :
    halfWidth A n i d = 0 ∨ n d ^ j = 2 * halfWidth A n j d + 1 := by
  obtain ⟨g, g0, eg⟩ := t.n_pow j d
  unfold halfWidth
  split_ifs
  · right; omega
  · left; rfl

theorem imageBox_eq (A : Atoms) (n : Op) (j : ℕ) : imageBox A n j = boxF (halfWidth A n j) := rfl

theorem TeleCase.sum_blocks {R : Type*} [AddCommMonoid R] (t : TeleCase s A n K c) (i j : ℕ) (g : Op → R) :
    ∑ x ∈ imageBox A n i, ∑ y ∈ imageBox A n j, g (y + blockOp n j x) = ∑ z ∈ imageBox A n (j + i), g z := by
  have := big_sum (halfWidth A n i) (halfWidth A n j) (fun d => n d ^ j) (t.half_nonneg i) (t.half_nonneg j)
    (t.half_cond i j) g
  rw [t.half_add] at this
  exact this

theorem TeleCase.perm_blocks (t : TeleCase s A n K c) (i j : ℕ) (ops : List Op) (hn : ops.Nodup)
    (hm : ∀ x, x ∈ ops ↔ x ∈ imageBox A n i) :
    (ops.flatMap fun x => (imageBox A n j).toList.map fun y => y + blockOp n j x).Perm
      (imageBox A n (j + i)).toList := by
  have := big_perm (halfWidth A n i) (halfWidth A n j) (fun d => n d ^ j) (t.half_nonneg i) (t.half_nonneg j)
    (t.half_cond i j) ops hn hm
  rw [t.half_add] at this
  exact this

/-- Operations that vanish in the directions without operations are legal. -/
theorem TeleCase.legal (t : TeleCase s A n K c) (z : Op) (hz : ∀ d, A.ranges d = rangeZero → z d = 0) :
    Legal A z := by
  intro d
  rcases t.pure d with h | h
  · rw [h]; simp [rangeInf, Bound.toEReal]
  · rw [h, hz d h]; simp [rangeZero, Bound.toEReal]

theorem TeleCase.zero_of_mem (t : TeleCase s A n K c) {j : ℕ} {x : Op} (hx : x ∈ imageBox A n j) (d : Fin 3)
    (h : A.ranges d = rangeZero) : x d = 0 := by
  rw [imageBox_eq, mem_boxF] at hx
  have := hx d
  unfold halfWidth at this
  rw [if_neg (by rw [h]; exact rangeInf_ne.symm)] at this
  omega

theorem TeleCase.block_zero (t : TeleCase s A n K c) {j i : ℕ} {x : Op} (hx : x ∈ imageBox A n j) (d : Fin 3)
    (h : A.ranges d = rangeZero) : blockOp n i x d = 0 := by
  unfold blockOp; rw [t.zero_of_mem hx d h, zero_mul]

theorem TeleCase.transform_ok (t : TeleCase s A n K c) {j i : ℕ} {x : Op} (hx : x ∈ imageBox A n j) (r : Vec) :
    A.transform r (blockOp n i x) = .ok (A.rawTransform r (blockOp n i x)) :=
  (c05_transform_guard A r _).1 (t.legal _ (t.block_zero hx))

theorem TeleCase.rotation_ok (t : TeleCase s A n K c) {j i : ℕ} {x : Op} (hx : x ∈ imageBox A n j) :
    A.rotation (blockOp n i x) = .ok (A.rawRotation (blockOp n i x)) :=
  (c05_rotation_guard A _).1 (t.legal _ (t.block_zero hx))

/-- The loops of the telescoping. -/
theorem TeleCase.mem_near (t : TeleCase s A n K c) (x : Op) :
    x ∈ cellOps (fun d => nFromRanges2 (s.n1 d) (s.n2 d) (A.ranges d)) ↔ x ∈ imageBox A n 1 := by
  rw [mem_cellOps, imageBox_eq, mem_boxF]
  refine forall_congr' fun d => ?_
  obtain ⟨h, h0, e⟩ := t.odd d
  have e1 := t.n1 d
  have e2 := t.n2 d
  unfold halfWidth
  rcases t.pure d with hr | hr
  · rw [hr, if_pos rfl, pow_one]
    simp only [nFromRanges2, rangeInf]
    omega
  · rw [hr, if_neg rangeInf_ne.symm]
    simp only [nFromRanges2, rangeZero]
    omega

theorem TeleCase.collapse_tele (t : TeleCase s A n K c) (k : ℕ) (hk : k + 2 < K) :
    collapse (fun d => decide (s.k d - 2 ≤ (k : ℤ))) (fun d => nFromRanges2 (s.n1 d) (s.n2 d) (A.ranges d)) =
      fun d => nFromRanges2 (s.n1 d) (s.n2 d) (A.ranges d) := by
  funext d
  simp only [collapse]
  rcases t.pure d with hr | hr
  · rw [t.kPer d hr, if_neg]
    simp only [decide_eq_true_eq]; omega
  · rw [hr]; simp [nFromRanges2, rangeZero]

theorem TeleCase.mem_far (t : TeleCase s A n K c) (k : ℕ) (hk : k + 1 < K) (x : Op) :
    x ∈ cellOps (collapse (fun d => decide (s.k d - 1 ≤ (k : ℤ)))
      (fun d => nFromRanges2 (s.m1 d) (s.m2 d) (A.ranges d))) ↔ x ∈ imageBox A n 2 := by
  have e : collapse (fun d => decide (s.k d - 1 ≤ (k : ℤ))) (fun d => nFromRanges2 (s.m1 d) (s.m2 d) (A.ranges d)) =
      fun d => nFromRanges2 (s.m1 d) (s.m2 d) (A.ranges d) := by
    funext d
    simp only [collapse]
    rcases t.pure d with hr | hr
    · rw [t.kPer d hr, if_neg]
      simp only [decide_eq_true_eq]; omega
    · rw [hr]; simp [nFromRanges2, rangeZero]
  rw [e, mem_cellOps, imageBox_eq, mem_boxF]
  refine forall_congr' fun d => ?_
  obtain ⟨h, h0, e⟩ := t.n_pow 2 d
  have e1 := t.m1 d
  have e2 := t.m2 d
  rw [e] at e1 e2
  unfold halfWidth
  rcases t.pure d with hr | hr
  · rw [hr, if_pos rfl, e]
    simp only [nFromRanges2, rangeInf]
    omega
  · rw [hr, if_neg rangeInf_ne.symm]
    simp only [nFromRanges2, rangeZero]
    omega

theorem TeleCase.inner_iff (t : TeleCase s A n K c) (x : Op) (hx : x ∈ imageBox A n 2) :
    innerCell s x = true ↔ x ∈ imageBox A n 1 := by
  rw [imageBox_eq, mem_boxF]
  unfold innerCell
  simp only [Bool.not_eq_true', Bool.or_eq_false_iff, decide_eq_false_iff_not, not_exists, not_lt]
  rw [← forall_and]
  refine forall_congr' fun d => ?_
  obtain ⟨h, h0, e⟩ := t.odd d
  have e1 := t.n1 d
  have e2 := t.n2 d
  unfold halfWidth
  rcases t.pure d with hr | hr
  · rw [if_pos hr, pow_one]; omega
  · rw [if_neg (by rw [hr]; exact rangeInf_ne.symm)]
    have := t.zero_of_mem hx d hr
    omega

/-- The image of a block. -/
theorem block_image (hA : Commuting A.ctype) (j : ℕ) (qr : List (ℝ × Vec)) (w : Op) :
    imageCharges A (blockCharges A n j qr) w =
      ((imageBox A n j).toList.map fun y => y + w).flatMap (imageCharges A qr) := by
  unfold blockCharges imageCharges
  rw [List.map_flatMap, List.flatMap_map]
  congr 1
  funext y
  rw [List.map_map]
  refine List.map_congr_left fun a _ => ?_
  simp only [Function.comp_apply, rawTransform_add A hA]

/-- Rotated moments shifted to the image of the centre are the moments of the image. -/
theorem image_moments (hA : Commuting A.ctype) (p : ℕ) (M : Moments) (qr : List (ℝ × Vec)) (c : Vec)
    (hM : IsMoments p M qr c) (w : Op) :
    IsMoments p (transformMoments (A.rawRotation w) p M) (imageCharges A qr w) (A.rawTransform c w) := by
  have ho : A.rawRotation w * (A.rawRotation w).transpose = 1 :=
    mul_eq_one_comm.1 (rawRotation_orth A hA w)
  have := c78_image (A.rawRotation w) ho p M qr c (A.rawTransform c w - (A.rawRotation w).mulVec c) hM
  rw [sub_add_cancel] at this
  convert this using 1
  unfold imageCharges
  refine List.map_congr_left fun a _ => ?_
  have e := rawTransform_sub A hA w a.2 c
  rw [Matrix.mulVec_sub] at e
  rw [Prod.mk.injEq]
  refine ⟨rfl, ?_⟩
  rw [sub_add_eq_add_sub, add_sub_assoc, ← e, add_sub_cancel]

/-! ## The telescoped multipoles -/

theorem mulOp_level (x : Op) (j : ℕ) : mulOp x (fun d => n d ^ j) = blockOp n j x := rfl

theorem teleSum_ok {c' : Vec} (t : TeleCase s A n K c') (p j : ℕ) (junk M : Moments) (qb : List (ℝ × Vec))
    (hM : IsMoments p M qb c) : ∀ (ops : List Op) (T0 : Moments) (q0 : List (ℝ × Vec)),
    (∀ x ∈ ops, x ∈ imageBox A n 1) → IsMoments p T0 q0 c →
    ∃ T, ops.foldlM (fun T x => do
      let r1 ← A.transform c (mulOp x fun d => n d ^ j)
      let R ← A.rotation (mulOp x fun d => n d ^ j)
      return m2m (r1 - c) p (transformMoments R p M) T junk) T0 = .ok T ∧
      IsMoments p T (q0 ++ ops.flatMap fun x => imageCharges A qb (blockOp n j x)) c
  | [], T0, q0, _, h => ⟨T0, rfl, by simpa using h⟩
  | x :: ops, T0, q0, hx, h => by
    have hx0 := hx x List.mem_cons_self
    have step := m2m_isMoments p _ T0 junk _ _ _ _ (image_moments t.comm p M qb c hM (blockOp n j x)) h
    obtain ⟨T, e, hT⟩ := teleSum_ok t p j junk M qb hM ops _ _ (fun y hy => hx y (List.mem_cons_of_mem _ hy)) step
    refine ⟨T, ?_, ?_⟩
    · rw [List.foldlM_cons, mulOp_level, t.transform_ok hx0, t.rotation_ok hx0]
      exact e
    · rw [List.flatMap_cons, ← List.append_assoc]; exact hT

theorem teleCentre_ok (t : TeleCase s A n K c) (j : ℕ) :
    teleCentre A (cellOps fun d => nFromRanges2 (s.n1 d) (s.n2 d) (A.ranges d)) (fun d => n d ^ j) c = .ok c := by
  set ops := cellOps fun d => nFromRanges2 (s.n1 d) (s.n2 d) (A.ranges d) with hops
  have hm : ∀ x, x ∈ ops ↔ x ∈ imageBox A n 1 := t.mem_near
  have hn : ops.Nodup := cellOps_nodup _
  unfold teleCentre
  rw [mapM_ok_of_forall (fun x => A.transform c (mulOp x fun d => n d ^ j)) (fun x => A.rawTransform c (blockOp n j x)) ops
    (fun x hx => t.transform_ok ((hm x).1 hx) c)]
  have hf : ops.toFinset = imageBox A n 1 := by ext x; rw [List.mem_toFinset, hm]
  have e1 : (ops.map fun x => A.rawTransform c (blockOp n j x)).sum =
      ∑ x ∈ imageBox A n 1, A.rawTransform c (blockOp n j x) := by
    rw [← List.sum_toFinset _ hn, hf]
  have e2 : ∑ x ∈ imageBox A n 1, A.rawTransform c (blockOp n j (-x)) =
      ∑ x ∈ imageBox A n 1, A.rawTransform c (blockOp n j x) :=
    box_neg_sum _ fun x => A.rawTransform c (blockOp n j x)
  have e3 : ∑ x ∈ imageBox A n 1, (A.rawTransform c (blockOp n j x) + A.rawTransform c (blockOp n j (-x))) =
      ∑ x ∈ imageBox A n 1, (2 : ℝ) • c := by
    refine Finset.sum_congr rfl fun x hx => ?_
    have : blockOp n j (-x) = -blockOp n j x := by funext d; simp [blockOp]
    rw [this]
    exact t.centre _ (t.block_zero hx)
  rw [Finset.sum_add_distrib, e2, Finset.sum_const] at e3
  have hl : (ops.length : ℝ) = (imageBox A n 1).card := by
    rw [← hf, List.toFinset_card_of_nodup hn]
  have h0 : (0 : Op) ∈ imageBox A n 1 := by
    rw [imageBox_eq, mem_boxF]
    intro d
    have := t.half_nonneg 1 d
    simp only [Pi.zero_apply] at *
    omega
  have hc : ((imageBox A n 1).card : ℝ) ≠ 0 := by
    exact_mod_cast (Finset.card_pos.2 ⟨0, h0⟩).ne'
  show Except.ok _ = Except.ok c
  congr 1
  rw [e1, hl]
  have e4 : ∑ x ∈ imageBox A n 1, A.rawTransform c (blockOp n j x) = ((imageBox A n 1).card : ℝ) • c := by
    ext d
    have := congrFun e3 d
    simp only [Pi.add_apply, Pi.smul_apply, smul_eq_mul, nsmul_eq_mul, Pi.mul_apply, Pi.natCast_apply] at this ⊢
    linarith
  rw [e4, smul_smul, one_div_mul_cancel hc, one_smul]

/-- State of the telescoping loop after `j` passes. -/
structure TeleInv (s : MP) (A : Atoms) (n : Op) (c : Vec) (qr : List (ℝ × Vec)) (j : ℕ) (st : Tele) : Prop where
  T : IsMoments s.lmax st.T (blockCharges A n j qr) c
  centre : st.c = c
  level : st.level = fun d => n d ^ j
  len : st.Ms.length = j + 1
  Ms : ∀ i ≤ j, IsMoments s.lmax (st.Ms.getD i Moments.zero) (blockCharges A n i qr) c
  clen : st.cs.length = j + 1
  cs : ∀ i ≤ j, st.cs.getD i 0 = c

theorem teleStep_ok (t : TeleCase s A n K c) (junk : Moments) (qr : List (ℝ × Vec)) (j : ℕ) (hj : j + 2 < K)
    (st : Tele) (h : TeleInv s A n c qr j st) :
    ∃ st', teleStep s A junk st j = .ok st' ∧ TeleInv s A n c qr (j + 1) st' := by
  obtain ⟨T, e, hT⟩ := teleSum_ok t s.lmax j junk st.T _ h.T _ Moments.zero []
    (fun x hx => (t.mem_near x).1 hx) (isMoments_zero _ _)
  have hp : List.Perm ((cellOps fun d => nFromRanges2 (s.n1 d) (s.n2 d) (A.ranges d)).flatMap
      fun x => imageCharges A (blockCharges A n j qr) (blockOp n j x)) (blockCharges A n (j + 1) qr) := by
    have e : (fun x => imageCharges A (blockCharges A n j qr) (blockOp n j x)) = fun x =>
        ((imageBox A n j).toList.map fun y => y + blockOp n j x).flatMap (imageCharges A qr) := by
      funext x; exact block_image t.comm j qr _
    rw [e, ← List.flatMap_assoc]
    exact (t.perm_blocks 1 j _ (cellOps_nodup _) t.mem_near).flatMap_right _
  rw [List.nil_append] at hT
  have hT' := hT.perm hp
  refine ⟨⟨T, c, mulOp st.level (s.n2 - s.n1 + 1), st.Ms ++ [T], st.cs ++ [c]⟩, ?_, ⟨hT', rfl, ?_, ?_, ?_, ?_, ?_⟩⟩
  · unfold teleStep
    dsimp only
    rw [t.collapse_tele j hj, h.centre, h.level, teleCentre_ok t j]
    have e' : teleSum A s.lmax junk (cellOps fun d => nFromRanges2 (s.n1 d) (s.n2 d) (A.ranges d))
      (fun d => n d ^ j) c st.T = .ok T := e
    show (do let T ← teleSum A s.lmax junk _ _ c st.T; _) = _
    rw [e']
    rfl
  · funext d
    obtain ⟨g, g0, eg⟩ := t.odd d
    have e1 := t.n1 d
    have e2 := t.n2 d
    simp only [mulOp, h.level, Pi.add_apply, Pi.sub_apply, Pi.one_apply]
    rw [pow_succ]
    congr 1
    omega
  · simp [h.len]
  · intro i hi
    show IsMoments _ ((st.Ms ++ [T]).getD i _) _ _
    by_cases hi' : i ≤ j
    · rw [List.getD_append _ _ _ _ (by rw [h.len]; omega)]
      exact h.Ms i hi'
    · obtain rfl : i = j + 1 := by omega
      rw [List.getD_append_right _ _ _ _ (by rw [h.len]), h.len]
      simpa using hT'
  · simp [h.clen]
  · intro i hi
    show (st.cs ++ [c]).getD i 0 = c
    by_cases hi' : i ≤ j
    · rw [List.getD_append _ _ _ _ (by rw [h.clen]; omega)]
      exact h.cs i hi'
    · obtain rfl : i = j + 1 := by omega
      rw [List.getD_append_right _ _ _ _ (by rw [h.clen]), h.clen]
      simp

theorem tele_ok (t : TeleCase s A n K c) (junk : Moments) (qr : List (ℝ × Vec)) (M0 : Moments)
    (hM : IsMoments s.lmax M0 qr c) : ∀ j : ℕ, j ≤ K - 2 →
    ∃ st, (List.range j).foldlM (teleStep s A junk) ⟨M0, c, 1, [M0], [c]⟩ = .ok st ∧ TeleInv s A n c qr j st
  | 0, _ => by
    have hb : blockCharges A n 0 qr = qr := by
      have h0 : imageBox A n 0 = {0} := by
        have : halfWidth A n 0 = 0 := by funext d; simp [halfWidth]
        unfold imageBox
        rw [this, neg_zero, Finset.Icc_self]
      unfold blockCharges imageCharges
      rw [h0]
      simp [rawTransform_zero A t.comm]
    refine ⟨_, rfl, ?_, rfl, ?_, rfl, ?_, rfl, ?_⟩
    · simpa only [hb] using hM
    · funext d; simp
    · intro i hi
      obtain rfl : i = 0 := by omega
      rw [hb]; exact hM
    · intro i hi
      obtain rfl : i = 0 := by omega
      rfl
  | j + 1, hj => by
    obtain ⟨st, e, h⟩ := tele_ok t junk qr M0 hM j (by omega)
    obtain ⟨st', e', h'⟩ := teleStep_ok t junk qr j (by omega) st h
    refine ⟨st', ?_, h'⟩
    rw [List.range_succ, List.foldlM_append, e]
    show List.foldlM (teleStep s A junk) st [j] = _
    rw [List.foldlM_cons, e']
    rfl

/-! ## The local expansion -/

/-- The contribution of one image of a block. -/
noncomputable def farPot (A : Atoms) (p : ℕ) (junk : Moments) (c u : Vec) (M : Moments) (w : Op) : ℝ :=
  localPot p (m2l (-A.rawTransform c w + c) p (transformMoments (A.rawRotation w) p M) Moments.zero junk) u

theorem locImages_ok (t : TeleCase s A n K c) (junk : Moments) (j : ℕ) (M : Moments)
    (hne : ∀ x ∈ imageBox A n 2 \ imageBox A n 1, A.rawTransform c (blockOp n j x) ≠ c) :
    ∀ (ops : List Op) (L : Moments), (∀ x ∈ ops, x ∈ imageBox A n 2) →
    ∃ L', ops.foldlM (locImage s A junk (fun d => n d ^ j) c M) L = .ok L' ∧
      ∀ u, localPot s.lmax L' u = localPot s.lmax L u +
        (ops.map fun x => if x ∈ imageBox A n 1 then 0 else farPot A s.lmax junk c u M (blockOp n j x)).sum
  | [], L, _ => ⟨L, rfl, by simp⟩
  | x :: ops, L, hx => by
    have hx0 := hx x List.mem_cons_self
    have hrec := fun L => locImages_ok t junk j M hne ops L (fun y hy => hx y (List.mem_cons_of_mem _ hy))
    by_cases hi : x ∈ imageBox A n 1
    · obtain ⟨L', e, h⟩ := hrec L
      refine ⟨L', ?_, ?_⟩
      · rw [List.foldlM_cons]
        unfold locImage
        rw [if_pos ((t.inner_iff x hx0).2 hi)]
        exact e
      · intro u
        rw [h, List.map_cons, List.sum_cons, if_pos hi, zero_add]
    · obtain ⟨L', e, h⟩ := hrec (m2l (-A.rawTransform c (blockOp n j x) + c) s.lmax
        (transformMoments (A.rawRotation (blockOp n j x)) s.lmax M) L junk)
      refine ⟨L', ?_, ?_⟩
      · rw [List.foldlM_cons]
        unfold locImage
        rw [if_neg (by rw [t.inner_iff x hx0]; exact hi), mulOp_level, t.transform_ok hx0, t.rotation_ok hx0]
        exact e
      · have hd : -A.rawTransform c (blockOp n j x) + c ≠ 0 := by
          intro h0
          refine hne x (Finset.mem_sdiff.2 ⟨hx0, hi⟩) ?_
          rw [neg_add_eq_zero] at h0
          exact h0
        intro u
        rw [h, List.map_cons, List.sum_cons, if_neg hi, m2l_localPot_add _ hd, ← add_assoc]
        rfl

/-- The sum over the images in one pass. -/
noncomputable def passPot (A : Atoms) (n : Op) (p : ℕ) (junk : Moments) (c u : Vec) (Ms : List Moments) (j : ℕ) : ℝ :=
  ∑ x ∈ imageBox A n 2 \ imageBox A n 1, farPot A p junk c u (Ms.getD j Moments.zero) (blockOp n j x)

theorem locStep_ok (t : TeleCase s A n K c) (junk : Moments) (Ms : List Moments) (cs : List Vec)
    (hcs : ∀ i < K - 1, cs.getD i 0 = c) (k j : ℕ) (hk : k + j + 2 = K)
    (hne : ∀ x ∈ imageBox A n 2 \ imageBox A n 1, A.rawTransform c (blockOp n j x) ≠ c)
    (st : Loc) (hl : st.level = fun d => n d ^ j) (hMi : st.Mi = j) :
    ∃ st', locStep s A junk Ms cs st k = .ok st' ∧ st'.Mi = (j : ℤ) - 1 ∧
      (∀ i, j = i + 1 → st'.level = fun d => n d ^ i) ∧
      ∀ u, localPot s.lmax st'.L u = localPot s.lmax st.L u + passPot A n s.lmax junk c u Ms j := by
  obtain ⟨L', e, h⟩ := locImages_ok t junk j (Ms.getD j Moments.zero) hne _ st.L
    (fun x hx => (t.mem_far k (by omega) x).1 hx)
  refine ⟨⟨L', fun d => st.level d / (s.n2 d - s.n1 d + 1), st.Mi - 1⟩, ?_, ?_, ?_, ?_⟩
  · unfold locStep
    dsimp only
    rw [hMi, Int.toNat_natCast, hcs j (by omega), hl, e]
    rfl
  · rw [← hMi]
  · rintro i rfl
    funext d
    obtain ⟨g, g0, eg⟩ := t.odd d
    have e1 := t.n1 d
    have e2 := t.n2 d
    simp only [hl]
    rw [show s.n2 d - s.n1 d + 1 = n d by omega, pow_succ]
    exact Int.mul_ediv_cancel _ (by omega)
  · intro u
    show localPot s.lmax L' u = _
    rw [h]
    congr 1
    classical
    rw [← List.sum_toFinset _ (cellOps_nodup _)]
    have hf : (cellOps (collapse (fun d => decide (s.k d - 1 ≤ (k : ℤ)))
        (fun d => nFromRanges2 (s.m1 d) (s.m2 d) (A.ranges d)))).toFinset = imageBox A n 2 := by
      ext x; rw [List.mem_toFinset, t.mem_far k (by omega)]
    rw [hf]
    unfold passPot
    rw [← Finset.sum_filter_add_sum_filter_not (imageBox A n 2) (fun x => x ∈ imageBox A n 1),
      Finset.sum_eq_zero (fun x hx => if_pos (Finset.mem_filter.1 hx).2), zero_add]
    rw [show imageBox A n 2 \ imageBox A n 1 = (imageBox A n 2).filter (fun x => x ∉ imageBox A n 1) by
      ext x; simp]
    exact Finset.sum_congr rfl fun x hx => if_neg (Finset.mem_filter.1 hx).2

theorem loc_ok (t : TeleCase s A n K c) (junk : Moments) (Ms : List Moments) (cs : List Vec)
    (hcs : ∀ i < K - 1, cs.getD i 0 = c)
    (hne : ∀ j < K - 1, ∀ x ∈ imageBox A n 2 \ imageBox A n 1, A.rawTransform c (blockOp n j x) ≠ c)
    (lv : Op) (hlv : lv = fun d => n d ^ (K - 2)) : ∀ k : ℕ, k ≤ K - 1 →
    ∃ st, (List.range k).foldlM (locStep s A junk Ms cs) ⟨Moments.zero, lv, ((K - 2 : ℕ) : ℤ)⟩ = .ok st ∧
      st.Mi = ((K - 2 : ℕ) : ℤ) - k ∧ (∀ j, k + j + 2 = K → st.level = fun d => n d ^ j) ∧
      ∀ u, localPot s.lmax st.L u = ∑ i ∈ range k, passPot A n s.lmax junk c u Ms (K - 2 - i)
  | 0, _ => by
    refine ⟨_, rfl, by simp, ?_, ?_⟩
    · intro j hj
      show lv = _
      rw [hlv, show K - 2 = j by omega]
    · intro u; rw [Finset.sum_range_zero]; exact localPot_of_zero _ _
  | k + 1, hk => by
    obtain ⟨st, e, h1, h2, h3⟩ := loc_ok t junk Ms cs hcs hne lv hlv k (by omega)
    obtain ⟨st', e', g1, g2, g3⟩ := locStep_ok t junk Ms cs hcs k (K - 2 - k) (by omega) (hne _ (by omega)) st
      (h2 _ (by omega)) (by omega)
    refine ⟨st', ?_, by omega, fun j hj => g2 j (by omega), ?_⟩
    · rw [List.range_succ, List.foldlM_append, e]
      show List.foldlM (locStep s A junk Ms cs) st [k] = _
      rw [List.foldlM_cons, e']
      rfl
    · intro u; rw [g3, h3, Finset.sum_range_succ]

/-! ## Comparison with the sum over the cells -/

theorem norm3_orth (R : Mat) (h : R.transpose * R = 1) (v : Vec) : norm3 (R.mulVec v) = norm3 v := by
  have : norm3 (R.mulVec v) ^ 2 = norm3 v ^ 2 := by
    have e : ∀ w : Vec, norm3 w ^ 2 = w ⬝ᵥ w := by
      intro w; rw [norm3_sq]; simp [dotProduct, Fin.sum_univ_three]; ring
    rw [e, e, Matrix.dotProduct_mulVec, Matrix.vecMul_mulVec, h, Matrix.vecMul_one]
  exact (sq_eq_sq₀ (norm3_nonneg _) (norm3_nonneg _)).1 this

theorem farPot_error (t : TeleCase s A n K c) (p : ℕ) (junk : Moments) (u : Vec) (M : Moments)
    (qb : List (ℝ × Vec)) (hM : IsMoments p M qb c) (w : Op) (hne : A.rawTransform c w ≠ c)
    (h : ∀ a ∈ qb, norm3 u + norm3 (a.2 - c) < norm3 (A.rawTransform c w - c)) :
    |chargePot (imageCharges A qb w) (c + u) - farPot A p junk c u M w| ≤
      farSum p qb c (norm3 u) (norm3 (A.rawTransform c w - c)) := by
  have hd : -A.rawTransform c w + c ≠ 0 := by rw [Ne, neg_add_eq_zero]; exact hne
  have hn : norm3 (-A.rawTransform c w + c) = norm3 (A.rawTransform c w - c) := by
    rw [← norm3_neg]; congr 1; abel
  have hv : ∀ a : Vec, norm3 (A.rawTransform a w - A.rawTransform c w) = norm3 (a - c) := fun a => by
    rw [rawTransform_sub A t.comm, norm3_orth _ (rawRotation_orth A t.comm w)]
  have := m2l_error (-A.rawTransform c w + c) p _ junk _ _ u (image_moments t.comm p M qb c hM w) hd (by
    intro a ha
    unfold imageCharges at ha
    rw [List.mem_map] at ha
    obtain ⟨b, hb, rfl⟩ := ha
    rw [hn, hv]
    exact h b hb)
  rw [show A.rawTransform c w + (-A.rawTransform c w + c) + u = c + u by abel, hn] at this
  refine this.trans (le_of_eq ?_)
  unfold farSum imageCharges
  rw [List.map_map]
  congr 1
  refine List.map_congr_left fun a _ => ?_
  simp only [Function.comp_apply, hv]

theorem chargePot_flatMap {α : Type} (l : List α) (f : α → List (ℝ × Vec)) (x : Vec) :
    chargePot (l.flatMap f) x = (l.map fun a => chargePot (f a) x).sum := by
  unfold chargePot
  induction l with
  | nil => simp
  | cons a l ih => simp [List.flatMap_cons, List.sum_append, ih]

/-- All cells are summed: the passes cover the cells outside the near ones, each once. -/
theorem TeleCase.telescope (t : TeleCase s A n K c) (g : Op → ℝ) : ∀ m : ℕ,
    ∑ j ∈ range m, ∑ x ∈ imageBox A n 2 \ imageBox A n 1, ∑ y ∈ imageBox A n j, g (y + blockOp n j x) =
      ∑ z ∈ imageBox A n (m + 1), g z - ∑ z ∈ imageBox A n 1, g z
  | 0 => by simp
  | m + 1 => by
    have hs : imageBox A n 1 ⊆ imageBox A n 2 := by
      intro x hx
      rw [imageBox_eq, mem_boxF] at *
      intro d
      have := hx d
      have e := congrFun (t.half_add 1 1) d
      have h0 := t.half_nonneg 1 d
      have := t.pow_pos 1 d
      simp only [bigBox, mulOp, Pi.add_apply, Pi.zero_apply] at e h0
      rw [← e]
      constructor <;> nlinarith
    have e := Finset.sum_sdiff (f := fun x => ∑ y ∈ imageBox A n m, g (y + blockOp n m x)) hs
    rw [t.sum_blocks 2 m g, t.sum_blocks 1 m g] at e
    rw [Finset.sum_range_succ, t.telescope g m]
    linarith

end

end Hotbit
