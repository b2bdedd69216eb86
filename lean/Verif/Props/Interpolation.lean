import Verif.Model.Interpolation
import Verif.Lemmas.Containers
import Verif.Props.Neighbors
import Mathlib.Tactic.FieldSimp
import Mathlib.Tactic.Linarith
import Mathlib.Tactic.IntervalCases
import Mathlib.Tactic.Positivity

/-!
# C42, C74: trilinear interpolation and interpolated paths
-/

namespace Hotbit

/-! ### Trilinear interpolation -/

/-- Grids with constant positive spacing that start at zero. -/
def TriData.Origin (T : TriData) : Prop :=
  ∀ p, 2 ≤ T.n p ∧ ∃ h, 0 < h ∧ ∀ m < T.n p, T.grid p m = m * h

/-- The textbook formula: corner values weighted by products of one-dimensional weights. -/
noncomputable def triSpec (T : TriData) (c : Fin 3 → ℕ) (w : Fin 3 → ℝ) : ℝ :=
  ∑ b : Fin 2, ∑ d : Fin 2, ∑ e : Fin 2,
    (if b = 0 then 1 - w 0 else w 0) * (if d = 0 then 1 - w 1 else w 1) * (if e = 0 then 1 - w 2 else w 2)
      * T.a (c 0 + b) (c 1 + d) (c 2 + e)

/-- **C42 (indices).** Index `z` addresses element `m` of an axis of length `n` if `z` is `m` counted from the
start or from the end; every other index is refused. -/
theorem c42_index (n : ℕ) (z : ℤ) :
    (∀ m, axisIndex n z = .ok m ↔ m < n ∧ (z = m ∨ z = (m : ℤ) - n)) ∧
      (axisIndex n z = .error .indexError ↔ z < -n ∨ (n : ℤ) ≤ z) := by
  unfold axisIndex
  constructor
  · intro m
    split_ifs with h1 h2
    · simp only [Except.ok.injEq]; omega
    · simp only [Except.ok.injEq]; omega
    · simp only [reduceCtorEq, false_iff]; omega
  · split_ifs with h1 h2
    · simp only [reduceCtorEq, false_iff]; omega
    · simp only [reduceCtorEq, false_iff]; omega
    · simp only [true_iff]; omega

theorem axisIndex_nat {n m : ℕ} (h : m < n) : axisIndex n (m : ℤ) = .ok m := by
  unfold axisIndex
  rw [if_pos ⟨by omega, by omega⟩]
  simp

theorem TriData.pair_nat (T : TriData) (p : Fin 3) {m : ℕ} (h : m + 1 < T.n p) :
    T.pair p (m : ℤ) = .ok (m, m + 1) := by
  unfold TriData.pair
  have e : ((m : ℤ) + 1) = ((m + 1 : ℕ) : ℤ) := by push_cast; ring
  rw [axisIndex_nat (by omega), e, axisIndex_nat h]
  rfl

/-- Inside the range the lower index is that of a cell containing the point. -/
theorem TriData.lower_spec {T : TriData} (h : T.Origin) {r : Vec} (p : Fin 3)
    (hr : T.grid p 0 ≤ r p ∧ r p ≤ T.grid p (T.n p - 1)) :
    ∃ m : ℕ, m + 1 < T.n p ∧ T.lower r p = m ∧ T.grid p m ≤ r p ∧ r p ≤ T.grid p (m + 1) ∧
      T.dg p = T.grid p (m + 1) - T.grid p m ∧ 0 < T.dg p := by
  obtain ⟨hn, w, hw, hg⟩ := h p
  rw [hg 0 (by omega), hg _ (by omega)] at hr
  obtain ⟨r0, r1⟩ := hr
  have hdg : T.dg p = w := by
    unfold TriData.dg; rw [hg 0 (by omega), hg 1 (by omega)]; push_cast; ring
  have h0 : 0 ≤ r p / w := div_nonneg (by simpa using r0) hw.le
  have f0 : 0 ≤ ⌊r p / w⌋ := Int.floor_nonneg.mpr h0
  have f1 := Int.floor_le (r p / w)
  have f2 := Int.lt_floor_add_one (r p / w)
  rw [le_div_iff₀ hw] at f1
  rw [div_lt_iff₀ hw] at f2
  refine ⟨(T.lower r p).toNat, ?_⟩
  unfold TriData.lower
  rw [hdg]
  have e : ((min ⌊r p / w⌋ ((T.n p : ℤ) - 2)).toNat : ℤ) = min ⌊r p / w⌋ ((T.n p : ℤ) - 2) :=
    Int.toNat_of_nonneg (by omega)
  have eR : ((min ⌊r p / w⌋ ((T.n p : ℤ) - 2)).toNat : ℝ) = ((min ⌊r p / w⌋ ((T.n p : ℤ) - 2) : ℤ) : ℝ) := by
    exact_mod_cast congrArg (Int.cast : ℤ → ℝ) e
  have hlt : (min ⌊r p / w⌋ ((T.n p : ℤ) - 2)).toNat + 1 < T.n p := by omega
  refine ⟨hlt, e.symm, ?_, ?_, ?_, hw⟩
  · rw [hg _ (by omega), eR]
    have : ((min ⌊r p / w⌋ ((T.n p : ℤ) - 2) : ℤ) : ℝ) ≤ (⌊r p / w⌋ : ℝ) := by
      exact_mod_cast min_le_left _ _
    nlinarith
  · rw [hg _ hlt]
    push_cast
    rw [eR]
    rcases min_choice ⌊r p / w⌋ ((T.n p : ℤ) - 2) with hm | hm
    · rw [hm]; linarith
    · rw [hm]
      push_cast
      rw [Nat.cast_sub (by omega)] at r1
      push_cast at r1
      linarith
  · rw [hg _ hlt, hg _ (by omega : (min ⌊r p / w⌋ ((T.n p : ℤ) - 2)).toNat < T.n p)]; push_cast; ring

/-- **C42.**  On grids starting at zero, every point of the range is answered with the trilinear
interpolation of the eight corners of a cell that contains it. -/
theorem c42_value {T : TriData} (h : T.Origin) {r : Vec}
    (hr : ∀ p, T.grid p 0 ≤ r p ∧ r p ≤ T.grid p (T.n p - 1)) :
    ∃ c : Fin 3 → ℕ, (∀ p, c p + 1 < T.n p ∧ T.grid p (c p) ≤ r p ∧ r p ≤ T.grid p (c p + 1)) ∧
      T.call r = .ok (triSpec T c fun p => (r p - T.grid p (c p)) / (T.grid p (c p + 1) - T.grid p (c p))) := by
  choose c hc using fun p => TriData.lower_spec h p (hr p)
  refine ⟨c, fun p => ⟨(hc p).1, (hc p).2.2.1, (hc p).2.2.2.1⟩, ?_⟩
  unfold TriData.call
  rw [if_neg (not_not.mpr hr), (hc 0).2.1, (hc 1).2.1, (hc 2).2.1, T.pair_nat 0 (hc 0).1,
    T.pair_nat 1 (hc 1).1, T.pair_nat 2 (hc 2).1]
  simp only [bind, Except.bind, pure, Except.pure, pick, triFormula, if_true, one_ne_zero, if_false]
  rw [(hc 0).2.2.2.2.1, (hc 1).2.2.2.2.1, (hc 2).2.2.2.2.1]
  congr 1
  simp [triSpec, Fin.sum_univ_two]
  ring

/-- **C42.**  The value lies between the bounds of the data at the corners of the cell. -/
theorem c42_bounded {T : TriData} (h : T.Origin) {r : Vec}
    (hr : ∀ p, T.grid p 0 ≤ r p ∧ r p ≤ T.grid p (T.n p - 1)) :
    ∃ c : Fin 3 → ℕ, (∀ p, T.grid p (c p) ≤ r p ∧ r p ≤ T.grid p (c p + 1)) ∧ ∃ v, T.call r = .ok v ∧
      ∀ lo hi, (∀ b d e : Fin 2, lo ≤ T.a (c 0 + b) (c 1 + d) (c 2 + e) ∧
        T.a (c 0 + b) (c 1 + d) (c 2 + e) ≤ hi) → lo ≤ v ∧ v ≤ hi := by
  obtain ⟨c, hc, hv⟩ := c42_value h hr
  refine ⟨c, fun p => ⟨(hc p).2.1, (hc p).2.2⟩, _, hv, fun lo hi hb => ?_⟩
  have hw : ∀ p, 0 ≤ (r p - T.grid p (c p)) / (T.grid p (c p + 1) - T.grid p (c p)) ∧
      (r p - T.grid p (c p)) / (T.grid p (c p + 1) - T.grid p (c p)) ≤ 1 := by
    intro p
    obtain ⟨_, a, b⟩ := hc p
    exact ⟨div_nonneg (by linarith) (by linarith), div_le_one_of_le₀ (by linarith) (by linarith)⟩
  generalize hW : (fun p => (r p - T.grid p (c p)) / (T.grid p (c p + 1) - T.grid p (c p))) = W
  have hw' : ∀ p, 0 ≤ W p ∧ W p ≤ 1 := fun p => by rw [← hW]; exact hw p
  have h1 : ∀ p (b : Fin 2), 0 ≤ (if b = 0 then 1 - W p else W p) := by
    intro p b; split_ifs
    · linarith [(hw' p).2]
    · exact (hw' p).1
  have hsum : ∀ x : ℝ, ∑ b : Fin 2, ∑ d : Fin 2, ∑ e : Fin 2,
      (if b = 0 then 1 - W 0 else W 0) * (if d = 0 then 1 - W 1 else W 1) * (if e = 0 then 1 - W 2 else W 2) * x
        = x := by
    intro x; simp [Fin.sum_univ_two]; ring
  constructor
  · rw [← hsum lo]
    refine Finset.sum_le_sum fun b _ => Finset.sum_le_sum fun d _ => Finset.sum_le_sum fun e _ => ?_
    exact mul_le_mul_of_nonneg_left (hb b d e).1 (mul_nonneg (mul_nonneg (h1 0 b) (h1 1 d)) (h1 2 e))
  · rw [← hsum hi]
    refine Finset.sum_le_sum fun b _ => Finset.sum_le_sum fun d _ => Finset.sum_le_sum fun e _ => ?_
    exact mul_le_mul_of_nonneg_left (hb b d e).2 (mul_nonneg (mul_nonneg (h1 0 b) (h1 1 d)) (h1 2 e))

theorem grid_strict {T : TriData} (h : T.Origin) {p : Fin 3} {i j : ℕ} (hi : i < T.n p) (hj : j < T.n p) :
    T.grid p i ≤ T.grid p j ↔ i ≤ j := by
  obtain ⟨_, w, hw, hg⟩ := h p
  rw [hg i hi, hg j hj, mul_le_mul_iff_left₀ hw]
  exact Nat.cast_le

/-- **C42.**  At a grid node the stored value is returned. -/
theorem c42_nodes {T : TriData} (h : T.Origin) (m : Fin 3 → ℕ) (hm : ∀ p, m p < T.n p) :
    T.call (fun p => T.grid p (m p)) = .ok (T.a (m 0) (m 1) (m 2)) := by
  have hr : ∀ p, T.grid p 0 ≤ T.grid p (m p) ∧ T.grid p (m p) ≤ T.grid p (T.n p - 1) := fun p =>
    ⟨(grid_strict h (by have := (h p).1; omega) (hm p)).mpr (Nat.zero_le _),
      (grid_strict h (hm p) (by have := (h p).1; omega)).mpr (by have := hm p; omega)⟩
  obtain ⟨c, hc, hv⟩ := c42_value h hr
  rw [hv]
  congr 1
  -- each axis: the node is the lower or the upper corner
  have hax : ∀ p, ∃ b : Fin 2, m p = c p + b ∧
      (T.grid p (m p) - T.grid p (c p)) / (T.grid p (c p + 1) - T.grid p (c p)) = (b : ℕ) := by
    intro p
    obtain ⟨c1, c2, c3⟩ := hc p
    rw [grid_strict h (by omega) (hm p)] at c2
    rw [grid_strict h (hm p) c1] at c3
    have hne : T.grid p (c p + 1) - T.grid p (c p) ≠ 0 := by
      intro h0
      have : c p + 1 ≤ c p := (grid_strict h c1 (by omega)).mp (by linarith)
      omega
    rcases Nat.lt_or_ge (c p) (m p) with hlt | hge
    · have e : m p = c p + 1 := by omega
      exact ⟨1, e, by rw [e, div_self hne]; simp⟩
    · have e : m p = c p := by omega
      exact ⟨0, e, by rw [e, sub_self, zero_div]; simp⟩
  obtain ⟨b0, e0, w0⟩ := hax 0
  obtain ⟨b1, e1, w1⟩ := hax 1
  obtain ⟨b2, e2, w2⟩ := hax 2
  unfold triSpec
  simp only [w0, w1, w2]
  rw [e0, e1, e2]
  fin_cases b0 <;> fin_cases b1 <;> fin_cases b2 <;> simp [Fin.sum_univ_two]

/-- **C42.**  Points outside the grids are refused. -/
theorem c42_outside (T : TriData) (r : Vec)
    (hr : ∃ p, r p < T.grid p 0 ∨ T.grid p (T.n p - 1) < r p) : T.call r = .error .assertionError := by
  unfold TriData.call
  rw [if_pos]
  intro hall
  obtain ⟨p, hp | hp⟩ := hr
  · linarith [(hall p).1]
  · linarith [(hall p).2]

/-- A grid `1,2,3` on the first axis. -/
noncomputable def offsetGrid : TriData where
  n := fun _ => 3
  a := fun i _ _ => if i = 0 then 1 else 0
  grid := fun p m => if p = 0 then (m : ℝ) + 1 else m

/-- **C42, refuted for other origins.**  The index is computed as if the grid started at zero: at the
first node of the grid `1,2,3` the value returned is not the stored one. -/
theorem c42_origin_fails : offsetGrid.call ![1, 0, 0] = .ok 0 ∧ offsetGrid.a 0 0 0 = 1 := by
  constructor
  · have l0 : offsetGrid.lower ![1, 0, 0] 0 = ((1 : ℕ) : ℤ) := by
      norm_num [TriData.lower, offsetGrid, TriData.dg]
    have l1 : offsetGrid.lower ![1, 0, 0] 1 = ((0 : ℕ) : ℤ) := by
      norm_num [TriData.lower, offsetGrid, TriData.dg]
    have l2 : offsetGrid.lower ![1, 0, 0] 2 = ((0 : ℕ) : ℤ) := by
      simp [TriData.lower, offsetGrid, TriData.dg]
    unfold TriData.call
    rw [if_neg, l0, l1, l2, TriData.pair_nat _ 0 (by norm_num [offsetGrid]),
      TriData.pair_nat _ 1 (by norm_num [offsetGrid]), TriData.pair_nat _ 2 (by norm_num [offsetGrid])]
    · simp [bind, Except.bind, pure, Except.pure, triFormula, pick, offsetGrid, TriData.dg]
    · rw [not_not]
      intro p
      fin_cases p <;> norm_num [offsetGrid]
  · norm_num [offsetGrid]

example : (⟨fun _ => 3, fun i j k => i + 2 * j + 5 * k, fun _ m => m * (1 / 2)⟩ : TriData).Origin :=
  fun _ => ⟨by norm_num, 1 / 2, by norm_num, fun _ _ => rfl⟩

/-! ### Interpolated paths -/

/-- The equidistant points `A+w, A+2w, …`. -/
def steps (w : Vec) : Vec → ℕ → List Vec
  | _, 0 => []
  | A, m + 1 => (A + w) :: steps w (A + w) m

theorem range_steps (w : Vec) (m : ℕ) : ∀ A : Vec,
    ((List.range m).map fun (k : ℕ) i => A i + ((k : ℝ) + 1) * w i) = steps w A m := by
  induction m with
  | zero => intro A; rfl
  | succ m ih =>
    intro A
    rw [List.range_succ_eq_map, List.map_cons, List.map_map, steps, ← ih]
    congr 1
    · ext i; simp
    · apply List.map_congr_left
      intro k _
      ext i
      simp
      ring

theorem cumDist_steps (w : Vec) (l : List Vec) (m : ℕ) : ∀ (d : ℝ) (A : Vec),
    cumDist d A (steps w A m ++ l) =
      ((List.range m).map fun k : ℕ => d + ((k : ℝ) + 1) * norm3 w) ++
        cumDist (d + m * norm3 w) (fun i => A i + m * w i) l := by
  induction m with
  | zero => intro d A; simp [steps]
  | succ m ih =>
    intro d A
    have e : A + w - A = w := by simp
    rw [steps, List.cons_append, cumDist, e, ih, List.range_succ_eq_map, List.map_cons, List.map_map,
      List.cons_append]
    congr 1
    · simp
    congr 1
    · apply List.map_congr_left
      intro k _
      simp
      ring
    · congr 1
      · push_cast; ring
      · ext i; simp; ring

theorem norm3_div (v : Vec) {m : ℝ} (hm : 0 < m) : m * norm3 (fun i => v i / m) = norm3 v := by
  unfold norm3
  rw [show (v 0 / m) ^ 2 + (v 1 / m) ^ 2 + (v 2 / m) ^ 2 = (v 0 ^ 2 + v 1 ^ 2 + v 2 ^ 2) / m ^ 2 by
    field_simp, Real.sqrt_div (by positivity), Real.sqrt_sq hm.le]
  field_simp

/-- The adjustment of the number of points never happens. -/
theorem segCount_eq {dk l : ℝ} (hdk : 0 < dk) : segCount dk l = pyRound (l / dk) + 1 := by
  unfold segCount
  have h := abs_le.mp (abs_pyRound_sub_le (l / dk))
  rw [if_neg]
  push_cast
  rw [not_lt, ← div_le_iff₀ hdk]
  linarith [h.1]

theorem linspaceTail_steps (A B : Vec) (m : ℕ) :
    linspaceTail A B ((m : ℤ) + 1 + 1) = steps (fun i => (B i - A i) / ((m : ℝ) + 1)) A (m + 1) := by
  unfold linspaceTail
  have e : ((m : ℤ) + 1 + 1).toNat - 1 = m + 1 := by omega
  rw [e, ← range_steps]
  apply List.map_congr_left
  intro k _
  ext i
  push_cast
  congr 2
  ring

/-- The indices of the given points on the path: strictly increasing, and the point, its distance and its
label coincide. -/
theorem path_labels (dk : ℝ) (ps : List Vec) : ∀ (A : Vec) (d : ℝ),
    (∀ l ∈ segLengths A ps, 2 ≤ segCount dk l) →
    ∃ idx : ℕ → ℕ, idx 0 = 0 ∧ (∀ i, i < ps.length → idx i < idx (i + 1)) ∧ ∀ i, i ≤ ps.length →
      (A :: pathTail dk A ps)[idx i]? = (A :: ps)[i]? ∧
      (d :: cumDist d A (pathTail dk A ps))[idx i]? = some (d + ((segLengths A ps).take i).sum) := by
  induction ps with
  | nil =>
    intro A d _
    refine ⟨fun _ => 0, rfl, fun i hi => absurd hi (Nat.not_lt_zero _), fun i hi => ?_⟩
    have : i = 0 := Nat.le_zero.mp hi
    subst this
    simp [segLengths]
  | cons B ps ih =>
    intro A d hall
    have h2 := hall (norm3 (B - A)) (by simp [segLengths])
    obtain ⟨m, hm⟩ : ∃ m : ℕ, segCount dk (norm3 (B - A)) = (m : ℤ) + 1 + 1 :=
      ⟨(segCount dk (norm3 (B - A)) - 2).toNat, by omega⟩
    obtain ⟨idx, i0, imono, hidx⟩ := ih B (d + norm3 (B - A)) (fun l hl => hall l (by simp [segLengths, hl]))
    set w : Vec := fun i => (B i - A i) / ((m : ℝ) + 1) with hw
    have hm1 : (0 : ℝ) < (m : ℝ) + 1 := by positivity
    have hnw : ((m : ℝ) + 1) * norm3 w = norm3 (B - A) := norm3_div (B - A) hm1
    have hB : (fun i => A i + ((m + 1 : ℕ) : ℝ) * w i) = B := by
      ext i; rw [hw]; push_cast; field_simp; ring
    have ht : pathTail dk A (B :: ps) = steps w A (m + 1) ++ pathTail dk B ps := by
      rw [pathTail, hm, linspaceTail_steps]
    have hlen : ∀ (A : Vec) (m : ℕ), (steps w A m).length = m := by
      intro A m; rw [← range_steps]; simp
    -- path and distances after the first part
    have hlast : ∀ A : Vec, (A :: steps w A (m + 1)).length = m + 1 + 1 := by
      intro A; simp [hlen]
    have hget : (A :: (steps w A (m + 1) ++ pathTail dk B ps))[m + 1]? = some B := by
      rw [List.getElem?_cons_succ, List.getElem?_append_left (by rw [hlen]; omega), ← range_steps]
      rw [List.getElem?_map, List.getElem?_range (by omega)]
      simp only [Option.map_some, Option.some.injEq]
      rw [← hB]; ext i; push_cast; ring
    have hshift : ∀ k, (A :: (steps w A (m + 1) ++ pathTail dk B ps))[m + 1 + k]?
        = (B :: pathTail dk B ps)[k]? := by
      intro k
      cases k with
      | zero => rw [Nat.add_zero, hget]; rfl
      | succ k =>
        rw [← Nat.add_assoc, List.getElem?_cons_succ, List.getElem?_cons_succ,
          List.getElem?_append_right (by rw [hlen]; omega), hlen]
        congr 1
        omega
    have hdist : cumDist d A (steps w A (m + 1) ++ pathTail dk B ps) =
        ((List.range (m + 1)).map fun k : ℕ => d + ((k : ℝ) + 1) * norm3 w) ++
          cumDist (d + norm3 (B - A)) B (pathTail dk B ps) := by
      rw [cumDist_steps, hB]
      congr 2
      push_cast
      rw [hnw]
    have hdshift : ∀ k, (d :: cumDist d A (steps w A (m + 1) ++ pathTail dk B ps))[m + 1 + k]?
        = ((d + norm3 (B - A)) :: cumDist (d + norm3 (B - A)) B (pathTail dk B ps))[k]? := by
      intro k
      rw [hdist]
      cases k with
      | zero =>
        rw [Nat.add_zero, List.getElem?_cons_succ, List.getElem?_append_left (by simp),
          List.getElem?_map, List.getElem?_range (by omega)]
        simp [hnw]
      | succ k =>
        rw [← Nat.add_assoc, List.getElem?_cons_succ, List.getElem?_cons_succ,
          List.getElem?_append_right (by simp)]
        congr 1
        simp
    refine ⟨fun i => match i with | 0 => 0 | i + 1 => m + 1 + idx i, rfl, ?_, ?_⟩
    · intro i hi
      cases i with
      | zero => dsimp only; omega
      | succ i =>
        have := imono i (by simpa using hi)
        dsimp only; omega
    · intro i hi
      rw [ht]
      cases i with
      | zero => simp
      | succ i =>
        dsimp only
        have := hidx i (by simpa using hi)
        rw [hshift, hdshift, this.1, this.2]
        refine ⟨by rw [List.getElem?_cons_succ], ?_⟩
        rw [segLengths, List.take_succ_cons, List.sum_cons, add_assoc]

/-- **C74, proved part.**  If every part of the path is longer than half the step, all the given points
lie on the returned path, in the given order, and the returned labels are the returned distances of
these points.  (Missing: shorter parts, for which it is false.) -/
theorem c74_points_partial {A : Vec} {ps : List Vec} {N : ℕ} (hN : 2 ≤ N)
    (hpos : 0 < (segLengths A ps).sum)
    (hlong : ∀ l ∈ segLengths A ps, (segLengths A ps).sum / ((N : ℝ) - 1) / 2 < l) :
    ∃ path dist labels, interpolatePath (A :: ps) N = .ok (path, dist, labels) ∧
      path.length = dist.length ∧ labels.length = (A :: ps).length ∧
      ∃ idx : ℕ → ℕ, (∀ i, i + 1 < (A :: ps).length → idx i < idx (i + 1)) ∧
        ∀ i < (A :: ps).length, path[idx i]? = (A :: ps)[i]? ∧ dist[idx i]? = labels[i]? := by
  have hN1 : (0 : ℝ) < (N : ℝ) - 1 := by
    have : (2 : ℝ) ≤ N := by exact_mod_cast hN
    linarith
  set dk := (segLengths A ps).sum / ((N : ℝ) - 1) with hdkdef
  have hdk : 0 < dk := div_pos hpos hN1
  have h2 : ∀ l ∈ segLengths A ps, 2 ≤ segCount dk l := by
    intro l hl
    rw [segCount_eq hdk]
    have h1 := abs_le.mp (abs_pyRound_sub_le (l / dk))
    have h3 : 1 / 2 < l / dk := by rw [lt_div_iff₀ hdk]; linarith [hlong l hl]
    have : (0 : ℝ) < pyRound (l / dk) := by linarith [h1.1]
    have : (0 : ℤ) < pyRound (l / dk) := by exact_mod_cast this
    omega
  obtain ⟨idx, _, hmono, hidx⟩ := path_labels dk ps A 0 h2
  have hok : interpolatePath (A :: ps) N = .ok (A :: pathTail dk A ps, 0 :: cumDist 0 A (pathTail dk A ps),
      (List.range (A :: ps).length).map fun i => ((segLengths A ps).take i).sum) := by
    simp only [interpolatePath]
    rw [if_neg (fun h => hdk.ne' h.2)]
  have hcl : ∀ (l : List Vec) (d : ℝ) (A : Vec), (cumDist d A l).length = l.length := by
    intro l; induction l with
    | nil => intros; rfl
    | cons v l ih => intro d A; simp [cumDist, ih]
  refine ⟨_, _, _, hok, by simp [hcl], by simp, idx, fun i hi => hmono i (by simpa using hi), fun i hi => ?_⟩
  have hi' : i ≤ ps.length := by simpa [Nat.lt_succ_iff] using hi
  refine ⟨(hidx i hi').1, ?_⟩
  rw [(hidx i hi').2, List.getElem?_map, List.getElem?_range hi]
  simp

theorem norm3_xdiff (a b : ℝ) : norm3 (![a, 0, 0] - ![b, 0, 0]) = |a - b| := by
  have : (![a, 0, 0] - ![b, 0, 0] : Vec) = ![a - b, 0, 0] := by ext i; fin_cases i <;> simp
  rw [this, norm3_x]

/-- **C74, refuted.**  A part shorter than half the step is dropped: for the points 0, 1, 1.2 and three
points on the path, the last given point is not on the returned path. -/
theorem c74_missing_point_fails : ∃ (points : List Vec) (N : ℕ) (path : List Vec) (dist labels : List ℝ),
    2 ≤ N ∧ points.Nodup ∧ interpolatePath points N = .ok (path, dist, labels) ∧
    ∃ p ∈ points, p ∉ path := by
  have e1 : norm3 (![1, 0, 0] - ![0, 0, 0]) = 1 := by rw [norm3_xdiff]; norm_num
  have e2 : norm3 (![6 / 5, 0, 0] - ![1, 0, 0]) = 1 / 5 := by
    rw [norm3_xdiff]; rw [abs_of_pos] <;> norm_num
  have hs : (segLengths ![0, 0, 0] [![1, 0, 0], ![6 / 5, 0, 0]]).sum / ((3 : ℕ) - 1 : ℝ) = 3 / 5 := by
    simp only [segLengths, e1, e2]; norm_num
  have c1 : segCount (3 / 5) 1 = 3 := by
    rw [segCount_eq (by norm_num), pyRound_eq_of_abs_lt (z := 2)]
    · norm_num
    · rw [abs_lt]; constructor <;> norm_num
  have c2 : segCount (3 / 5) (1 / 5) = 1 := by
    rw [segCount_eq (by norm_num), pyRound_eq_of_abs_lt (z := 0)]
    · norm_num
    · rw [abs_lt]; constructor <;> norm_num
  refine ⟨[![0, 0, 0], ![1, 0, 0], ![6 / 5, 0, 0]], 3, ![0, 0, 0] :: pathTail (3 / 5) ![0, 0, 0] [![1, 0, 0], ![6 / 5, 0, 0]],
    0 :: cumDist 0 ![0, 0, 0] (pathTail (3 / 5) ![0, 0, 0] [![1, 0, 0], ![6 / 5, 0, 0]]),
    (List.range 3).map fun i => ((segLengths ![0, 0, 0] [![1, 0, 0], ![6 / 5, 0, 0]]).take i).sum,
    by norm_num, ?_, ?_, ![6 / 5, 0, 0], by simp, ?_⟩
  · have ne : ∀ a b : ℝ, a ≠ b → (![a, 0, 0] : Vec) ≠ ![b, 0, 0] := by
      intro a b h h2; exact h (by simpa using congrFun h2 0)
    simp only [List.nodup_cons, List.mem_cons, List.not_mem_nil, or_false, not_or, List.nodup_nil,
      not_false_eq_true, and_true]
    exact ⟨⟨ne _ _ (by norm_num), ne _ _ (by norm_num)⟩, ne _ _ (by norm_num)⟩
  · simp only [interpolatePath, hs]
    rw [if_neg (by norm_num)]
    rfl
  · simp only [pathTail, e1, e2, c1, c2, linspaceTail]
    intro h
    simp only [List.append_nil, List.mem_cons, List.mem_append, List.mem_map, List.mem_range] at h
    rcases h with h | ⟨k, hk, h⟩ | ⟨k, hk, h⟩
    · have := congrFun h 0
      norm_num at this
    · have := congrFun h 0
      have hk2 : k < 2 := hk
      norm_num at this
      interval_cases k <;> norm_num at this
    · have hk0 : k < 0 := hk
      omega

/-- **C74, refuted.**  The path can have fewer points than asked for: for points at 0, 1.4, 2.8 and 4 and
five points wanted, four are returned. -/
theorem c74_fewer_points_fails : ∃ (points : List Vec) (N : ℕ) (path : List Vec) (dist labels : List ℝ),
    2 ≤ N ∧ interpolatePath points N = .ok (path, dist, labels) ∧ path.length < N := by
  have e1 : norm3 (![7 / 5, 0, 0] - ![0, 0, 0]) = 7 / 5 := by rw [norm3_xdiff, abs_of_pos] <;> norm_num
  have e2 : norm3 (![14 / 5, 0, 0] - ![7 / 5, 0, 0]) = 7 / 5 := by
    rw [norm3_xdiff]; rw [abs_of_pos] <;> norm_num
  have e3 : norm3 (![4, 0, 0] - ![14 / 5, 0, 0]) = 6 / 5 := by
    rw [norm3_xdiff]; rw [abs_of_pos] <;> norm_num
  have hs : (segLengths ![0, 0, 0] [![7 / 5, 0, 0], ![14 / 5, 0, 0], ![4, 0, 0]]).sum / ((5 : ℕ) - 1 : ℝ) = 1 := by
    simp only [segLengths, e1, e2, e3]; norm_num
  have c1 : segCount 1 (7 / 5) = 2 := by
    rw [segCount_eq (by norm_num), pyRound_eq_of_abs_lt (z := 1)]
    · norm_num
    · rw [abs_lt]; constructor <;> norm_num
  have c2 : segCount 1 (6 / 5) = 2 := by
    rw [segCount_eq (by norm_num), pyRound_eq_of_abs_lt (z := 1)]
    · norm_num
    · rw [abs_lt]; constructor <;> norm_num
  refine ⟨[![0, 0, 0], ![7 / 5, 0, 0], ![14 / 5, 0, 0], ![4, 0, 0]], 5,
    ![0, 0, 0] :: pathTail 1 ![0, 0, 0] [![7 / 5, 0, 0], ![14 / 5, 0, 0], ![4, 0, 0]],
    0 :: cumDist 0 ![0, 0, 0] (pathTail 1 ![0, 0, 0] [![7 / 5, 0, 0], ![14 / 5, 0, 0], ![4, 0, 0]]),
    (List.range 4).map fun i => ((segLengths ![0, 0, 0] [![7 / 5, 0, 0], ![14 / 5, 0, 0], ![4, 0, 0]]).take i).sum,
    by norm_num, ?_, ?_⟩
  · simp only [interpolatePath, hs]
    rw [if_neg (by norm_num)]
    rfl
  · simp only [pathTail, e1, e2, e3, c1, c2, linspaceTail]
    norm_num
    decide

/-- Points 0, 1, 3 with four points wanted: the step is 1 and all parts are long enough. -/
example : ∀ l ∈ segLengths ![0, 0, 0] [![1, 0, 0], ![3, 0, 0]],
    (segLengths ![0, 0, 0] [![1, 0, 0], ![3, 0, 0]]).sum / (((4 : ℕ) : ℝ) - 1) / 2 < l := by
  have e1 : norm3 (![1, 0, 0] - ![0, 0, 0]) = 1 := by rw [norm3_xdiff]; norm_num
  have e2 : norm3 (![3, 0, 0] - ![1, 0, 0]) = 2 := by rw [norm3_xdiff, abs_of_pos] <;> norm_num
  simp only [segLengths, e1, e2]
  intro l hl
  simp at hl
  rcases hl with rfl | rfl <;> norm_num

end Hotbit
