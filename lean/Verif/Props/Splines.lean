import Verif.Lemmas.Splines

/-!
# C40, C41: natural cubic splines
-/

namespace Hotbit

open Filter Topology

/-! ### The tridiagonal solver -/

/-- **C40.**  The tabulated second derivatives solve the equations of the natural spline, and nothing
else does. -/
theorem c40_equations {n : ℕ} {x : ℕ → ℝ} (y : ℕ → ℝ) (hn : 2 ≤ n) (hx : GridInc n x) :
    NaturalEquations n x y (splineD2 n x y) ∧
      ∀ d, NaturalEquations n x y d → ∀ i < n, d i = splineD2 n x y i := by
  refine ⟨splineD2_natural y hx hn, fun d hd => ?_⟩
  have key : ∀ m, m < n → d (n - 1 - m) = splineD2 n x y (n - 1 - m) := by
    intro m
    induction m with
    | zero => intro _; rw [Nat.sub_zero, hd.last, splineD2_last]
    | succ m ih =>
      intro hm
      have := ih (by omega)
      rw [natural_rec hx hd _ (by omega), splineD2_rec x y (by omega)]
      have e : n - 1 - (m + 1) + 1 = n - 1 - m := by omega
      rw [e, this]
  intro i hi
  have := key (n - 1 - i) (by omega)
  rwa [show n - 1 - (n - 1 - i) = i by omega] at this

/-! ### Finding the interval -/

theorem interval_unique {n : ℕ} {x : ℕ → ℝ} (hx : GridInc n x) {i j : ℕ} {t : ℝ} (hi : i + 1 < n)
    (hj : j + 1 < n) (a1 : x i ≤ t) (a2 : t < x (i + 1)) (b1 : x j ≤ t) (b2 : t < x (j + 1)) : i = j := by
  rcases lt_trichotomy i j with h | h | h
  · have := gridInc_le hx (i := i + 1) (j := j) (by omega) (by omega); linarith
  · exact h
  · have := gridInc_le hx (i := j + 1) (j := i) (by omega) (by omega); linarith

theorem uniform_inc {n : ℕ} {x : ℕ → ℝ} (h : Uniform n x) : GridInc n x := by
  obtain ⟨h, h0, hx⟩ := h
  intro i hi
  rw [hx i (by omega), hx (i + 1) hi]
  push_cast
  linarith

theorem power_inc {p : ℝ} {n : ℕ} {x : ℕ → ℝ} (h : PowerGrid p n x) : GridInc n x := by
  obtain ⟨hp, hL, hx⟩ := h
  intro i hi
  rw [hx i (by omega), hx (i + 1) hi]
  have hn : (0 : ℝ) < (n : ℝ) - 1 := by
    have : (2 : ℝ) ≤ n := by exact_mod_cast (by omega : 2 ≤ n)
    linarith
  have : ((i : ℝ) / ((n : ℝ) - 1)) ^ p < (((i + 1 : ℕ) : ℝ) / ((n : ℝ) - 1)) ^ p := by
    apply Real.rpow_lt_rpow (by positivity) _ hp
    rw [div_lt_div_iff_of_pos_right hn]
    push_cast; linarith
  nlinarith

/-- The grid is of the announced kind. -/
def GridFits : GridKind → ℕ → (ℕ → ℝ) → Prop
  | .linear, n, x => Uniform n x
  | .power p, n, x => PowerGrid p n x

theorem gridFits_inc {g : GridKind} {n : ℕ} {x : ℕ → ℝ} (h : GridFits g n x) : GridInc n x := by
  cases g with
  | linear => exact uniform_inc h
  | power p => exact power_inc h

theorem floor_interval {n : ℕ} {s : ℝ} (h0 : 0 ≤ s) (h1 : s < (n : ℝ) - 1) :
    ⌊s⌋₊ + 1 < n ∧ (⌊s⌋₊ : ℝ) ≤ s ∧ s < (⌊s⌋₊ : ℝ) + 1 := by
  refine ⟨?_, Nat.floor_le h0, Nat.lt_floor_add_one s⟩
  have : (⌊s⌋₊ : ℝ) < (n : ℝ) - 1 := (Nat.floor_le h0).trans_lt h1
  have : ((⌊s⌋₊ + 1 : ℕ) : ℝ) < n := by push_cast; linarith
  exact_mod_cast this

theorem findLower_spec {g : GridKind} {n : ℕ} {x : ℕ → ℝ} (hn : 2 ≤ n) (h : GridFits g n x) {t : ℝ}
    (h0 : x 0 ≤ t) (h1 : t < x (n - 1)) :
    findLower g n x t + 1 < n ∧ x (findLower g n x t) ≤ t ∧ t < x (findLower g n x t + 1) := by
  have hn1 : (0 : ℝ) < (n : ℝ) - 1 := by
    have : (2 : ℝ) ≤ n := by exact_mod_cast hn
    linarith
  have hL : 0 < x (n - 1) - x 0 := by linarith
  cases g with
  | linear =>
    obtain ⟨w, hw, hx⟩ := h
    have e : x (n - 1) - x 0 = ((n : ℝ) - 1) * w := by
      rw [hx (n - 1) (by omega), Nat.cast_sub (by omega)]; push_cast; ring
    have es : (t - x 0) / (x (n - 1) - x 0) * ((n : ℝ) - 1) = (t - x 0) / w := by
      rw [e]; field_simp
    simp only [findLower, es]
    have hs1 : (t - x 0) / w < (n : ℝ) - 1 := by rw [div_lt_iff₀ hw]; linarith
    obtain ⟨a, b, c⟩ := floor_interval (n := n) (div_nonneg (by linarith) hw.le) hs1
    refine ⟨a, ?_, ?_⟩
    · rw [hx _ (by omega)]
      rw [le_div_iff₀ hw] at b; linarith
    · rw [hx _ a]
      rw [div_lt_iff₀ hw] at c
      push_cast; linarith
  | power p =>
    obtain ⟨hp, _, hx⟩ := h
    simp only [findLower]
    set s := (t - x 0) / (x (n - 1) - x 0) with hs
    have hs0 : 0 ≤ s := div_nonneg (by linarith) hL.le
    have hs1 : s < 1 := by rw [hs, div_lt_one hL]; linarith
    have ht : t = x 0 + s * (x (n - 1) - x 0) := by rw [hs]; field_simp; ring
    have hr0 : 0 ≤ s ^ (1 / p) := Real.rpow_nonneg hs0 _
    have hr1 : s ^ (1 / p) < 1 := Real.rpow_lt_one hs0 hs1 (by positivity)
    have hsp : (s ^ (1 / p)) ^ p = s := by
      rw [← Real.rpow_mul hs0, one_div, inv_mul_cancel₀ hp.ne', Real.rpow_one]
    obtain ⟨a, b, c⟩ := floor_interval (n := n) (s := s ^ (1 / p) * ((n : ℝ) - 1))
      (by positivity) (by nlinarith)
    set lo := ⌊s ^ (1 / p) * ((n : ℝ) - 1)⌋₊
    refine ⟨a, ?_, ?_⟩
    · rw [hx _ (by omega)]
      have : ((lo : ℝ) / ((n : ℝ) - 1)) ^ p ≤ s := by
        rw [← hsp]
        apply Real.rpow_le_rpow (by positivity) _ hp.le
        rw [div_le_iff₀ hn1]; exact b
      conv_rhs => rw [ht]
      nlinarith
    · rw [hx _ a]
      have : s < (((lo + 1 : ℕ) : ℝ) / ((n : ℝ) - 1)) ^ p := by
        conv_lhs => rw [← hsp]
        apply Real.rpow_lt_rpow hr0 _ hp
        rw [lt_div_iff₀ hn1]; push_cast; exact c
      conv_lhs => rw [ht]
      nlinarith

/-! ### `FastSplineFunction` -/

/-- The three values on a half open interval. -/
noncomputable def pieceD (x y d : ℕ → ℝ) (i : ℕ) (t : ℝ) (der : ℕ) : Option ℝ :=
  match der with
  | 0 => some (piece0 x y d i t)
  | 1 => some (piece1 x y d i t)
  | 2 => some (piece2 x d i t)
  | _ => none

theorem splineFormula_piece (x y d : ℕ → ℝ) (i : ℕ) (t : ℝ) (der : ℕ) :
    splineFormula (x i) (x (i + 1)) (x (i + 1) - x i) (y i) (y (i + 1)) (d i) (d (i + 1)) t der
      = pieceD x y d i t der := by
  match der with
  | 0 => rfl
  | 1 => rfl
  | 2 => rfl
  | (_ + 3) => rfl

theorem fastCall_inside {g : GridKind} {n : ℕ} {x : ℕ → ℝ} (y : ℕ → ℝ) (hn : 2 ≤ n) (h : GridFits g n x)
    {i : ℕ} {t : ℝ} (hi : i + 1 < n) (h1 : x i ≤ t) (h2 : t < x (i + 1)) (der : ℕ) :
    fastCall g n x y t der = .ok (pieceD x y (splineD2 n x y) i t der) := by
  have hx := gridFits_inc h
  have h0 : x 0 ≤ t := (gridInc_le hx (Nat.zero_le i) (by omega)).trans h1
  have hN : t < x (n - 1) := h2.trans_le (gridInc_le hx (by omega) (by omega))
  obtain ⟨a, b, c⟩ := findLower_spec hn h h0 hN
  have e := interval_unique hx hi a h1 h2 b c
  unfold fastCall
  rw [if_neg (by push Not; exact ⟨h0, hN⟩)]
  dsimp only
  rw [if_neg (by push Not; exact ⟨b, c⟩), ← e, splineFormula_piece]

/-- The value returned, as a number. -/
noncomputable def fastVal (g : GridKind) (n : ℕ) (x y : ℕ → ℝ) (der : ℕ) (t : ℝ) : ℝ :=
  match fastCall g n x y t der with
  | .ok (some v) => v
  | _ => 0

/-- **C40/C41.**  Calls never fail on a grid of the announced kind (the assertion holds for every
argument), a number is returned for derivatives 0, 1 and 2; inside the range the returned value is the
natural spline through the data and the returned derivatives are its derivatives; the first data point
is met; outside the range, and at its right end, zero is returned. -/
theorem c40_fast {g : GridKind} {n : ℕ} {x : ℕ → ℝ} (y : ℕ → ℝ) (hn : 2 ≤ n) (h : GridFits g n x) :
    ∃ f : ℕ → ℝ → ℝ, (∀ t, ∀ der < 3, fastCall g n x y t der = .ok (some (f der t))) ∧
      NaturalSplineOn n x y (f 0) (f 1) (f 2) ∧ f 0 (x 0) = y 0 ∧
      ∀ t, (t < x 0 ∨ x (n - 1) ≤ t) → ∀ der < 3, f der t = 0 := by
  have hx := gridFits_inc h
  have hpD : ∀ i t der, der < 3 → ∃ v, pieceD x y (splineD2 n x y) i t der = some v := by
    intro i t der hd
    interval_cases der <;> exact ⟨_, rfl⟩
  have hout : ∀ t, (t < x 0 ∨ x (n - 1) ≤ t) → ∀ der, fastCall g n x y t der = .ok (some 0) := by
    intro t ht der
    unfold fastCall
    exact if_pos ht
  refine ⟨fastVal g n x y, ?_, ?_, ?_, ?_⟩
  · intro t der hd
    unfold fastVal
    by_cases ht : t < x 0 ∨ x (n - 1) ≤ t
    · rw [hout t ht der]
    · push Not at ht
      obtain ⟨i, hi, h1, h2⟩ := exists_interval ht.1 ht.2
      obtain ⟨v, hv⟩ := hpD i t der hd
      rw [fastCall_inside y hn h hi h1 h2, hv]
  · refine natural_of_pieces hn hx (splineD2_natural y hx hn) ?_ ?_
    · intro i hi t h1 h2
      simp only [fastVal, fastCall_inside y hn h hi h1.le h2, pieceD]
      exact ⟨trivial, trivial, trivial⟩
    · intro i hi
      have a2 := hx (i + 1) (by omega)
      simp only [fastVal, fastCall_inside y hn h (by omega : i + 1 + 1 < n) (le_refl (x (i + 1))) a2,
        pieceD]
      refine ⟨(piece_left x y _ a2).1, (piece_knot hx (splineD2_natural y hx hn) hi).symm,
        (piece_left x y _ a2).2⟩
  · have a2 := hx 0 (by omega)
    simp only [fastVal, fastCall_inside y hn h (by omega : 0 + 1 < n) (le_refl (x 0)) a2, pieceD]
    exact (piece_left x y _ a2).1
  · intro t ht der _
    unfold fastVal
    rw [hout t ht der]

/-- **C40, refuted at one point.**  The interpolant does not pass through the last data point: there the
call returns zero, whatever the data. -/
theorem c40_last_node_fails : ∃ (n : ℕ) (x y : ℕ → ℝ), 2 ≤ n ∧ GridFits .linear n x ∧
    y (n - 1) ≠ 0 ∧ fastCall .linear n x y (x (n - 1)) 0 = .ok (some 0) := by
  refine ⟨3, fun i => i, fun _ => 1, by norm_num, ⟨1, by norm_num, fun i _ => by simp⟩, by norm_num, ?_⟩
  unfold fastCall
  exact if_pos (Or.inr (le_refl _))

/-! ### `MultipleSplineFunction` -/

theorem filter_lt_range (n k : ℕ) : ((List.range n).filter fun i => decide (i < k)).length = min n k := by
  induction n with
  | zero => simp
  | succ n ih =>
    rw [List.range_succ, List.filter_append, List.length_append, ih]
    by_cases h : n < k
    · simp [h]; omega
    · simp [h]; omega

theorem searchSorted_eq {n : ℕ} {x : ℕ → ℝ} {t : ℝ} {k : ℕ} (hk : k ≤ n)
    (h1 : ∀ i < n, x i < t ↔ i < k) : searchSorted n x t = k := by
  unfold searchSorted
  have : (List.range n).filter (fun i => decide (x i < t)) = (List.range n).filter fun i => decide (i < k) := by
    apply List.filter_congr
    intro i hi
    rw [decide_eq_decide]
    exact h1 i (List.mem_range.mp hi)
  rw [this, filter_lt_range]
  omega

theorem searchSorted_inside {n : ℕ} {x : ℕ → ℝ} (hx : GridInc n x) {i : ℕ} {t : ℝ} (hi : i + 1 < n)
    (h1 : x i < t) (h2 : t ≤ x (i + 1)) : searchSorted n x t = i + 1 := by
  refine searchSorted_eq (by omega) fun j hj => ⟨fun h => ?_, fun h => ?_⟩
  · by_contra hc
    have := gridInc_le hx (i := i + 1) (j := j) (by omega) hj
    linarith
  · exact (gridInc_le hx (i := j) (j := i) (by omega) (by omega)).trans_lt h1

theorem uniform_step {n : ℕ} {x : ℕ → ℝ} (h : Uniform n x) (hn : 2 ≤ n) {i : ℕ} (hi : i + 1 < n) :
    x 1 - x 0 = x (i + 1) - x i := by
  obtain ⟨h, _, hx⟩ := h
  rw [hx 1 (by omega), hx (i + 1) hi, hx i (by omega)]
  push_cast
  ring

theorem multiCall_inside {n : ℕ} {x : ℕ → ℝ} (y : ℕ → ℝ) (hn : 2 ≤ n) (h : Uniform n x) {i : ℕ} {t : ℝ}
    (hi : i + 1 < n) (h1 : x i < t) (h2 : t ≤ x (i + 1)) (der : ℕ) :
    multiCall n x y t der = pieceD x y (splineD2 n x y) i t der := by
  unfold multiCall multiBin
  rw [searchSorted_inside (uniform_inc h) hi h1 h2]
  simp only [Nat.add_eq_zero_iff, one_ne_zero, and_false, if_false, Nat.add_sub_cancel,
    if_neg (by omega : ¬ i + 1 = n)]
  rw [uniform_step h hn hi, splineFormula_piece]

theorem multiCall_beyond {n : ℕ} {x : ℕ → ℝ} (y : ℕ → ℝ) (hn : 2 ≤ n) (hx : GridInc n x) {t : ℝ}
    (ht : x (n - 1) < t) {der : ℕ} (hd : der < 3) : multiCall n x y t der = some 0 := by
  unfold multiCall multiBin
  have e : searchSorted n x t = n := searchSorted_eq (le_refl _) fun j hj =>
    ⟨fun _ => hj, fun _ => (gridInc_le hx (j := n - 1) (by omega) (by omega)).trans_lt ht⟩
  rw [e]
  simp only [if_true, if_neg (by omega : ¬ n = 0)]
  interval_cases der <;> simp only [splineFormula, Option.some.injEq] <;> ring

/-- The value returned, as a number. -/
noncomputable def multiVal (n : ℕ) (x y : ℕ → ℝ) (der : ℕ) (t : ℝ) : ℝ := (multiCall n x y t der).getD 0

/-- **C40/C41.**  On a uniform grid the spline used for all matrix elements is, inside its range, the
natural cubic spline with its derivatives; it meets the last data point; beyond the cutoff value and
derivatives are exactly zero. -/
theorem c40_multi {n : ℕ} {x : ℕ → ℝ} (y : ℕ → ℝ) (hn : 2 ≤ n) (h : Uniform n x) :
    ∃ f : ℕ → ℝ → ℝ, (∀ t, ∀ der < 3, multiCall n x y t der = some (f der t)) ∧
      NaturalSplineOn n x y (f 0) (f 1) (f 2) ∧ f 0 (x (n - 1)) = y (n - 1) ∧
      ∀ t, x (n - 1) < t → ∀ der < 3, f der t = 0 := by
  have hx := uniform_inc h
  refine ⟨multiVal n x y, ?_, ?_, ?_, ?_⟩
  · intro t der hd
    unfold multiVal multiCall
    interval_cases der <;> rfl
  · refine natural_of_pieces hn hx (splineD2_natural y hx hn) ?_ ?_
    · intro i hi t h1 h2
      simp only [multiVal, multiCall_inside y hn h hi h1 h2.le, pieceD, Option.getD_some]
      exact ⟨trivial, trivial, trivial⟩
    · intro i hi
      have a2 := hx i (by omega)
      simp only [multiVal, multiCall_inside y hn h (by omega : i + 1 < n) a2 (le_refl (x (i + 1))),
        pieceD, Option.getD_some]
      exact ⟨(piece_right x y _ a2).1, trivial, (piece_right x y _ a2).2⟩
  · obtain ⟨m, rfl⟩ : ∃ m, n = m + 2 := ⟨n - 2, by omega⟩
    have a2 := hx m (by omega)
    have e : m + 2 - 1 = m + 1 := by omega
    simp only [multiVal, e, multiCall_inside y hn h (by omega : m + 1 < m + 2) a2 (le_refl (x (m + 1))),
      pieceD, Option.getD_some]
    exact (piece_right x y _ a2).1
  · intro t ht der hd
    rw [multiVal, multiCall_beyond y hn hx ht hd, Option.getD_some]

/-! ### Comparison -/

/-- **C41.**  Strictly inside the range the two classes agree, for the value and all derivatives; beyond
the range both are zero. -/
theorem c41_agree {n : ℕ} {x : ℕ → ℝ} (y : ℕ → ℝ) (hn : 2 ≤ n) (h : Uniform n x) {t : ℝ} :
    (x 0 < t → t < x (n - 1) → ∀ der, fastCall .linear n x y t der = .ok (multiCall n x y t der)) ∧
    (x (n - 1) < t → ∀ der < 3, fastCall .linear n x y t der = .ok (multiCall n x y t der)) := by
  have hx := uniform_inc h
  have hg : GridFits .linear n x := h
  refine ⟨fun h0 h1 der => ?_, fun ht der hd => ?_⟩
  · rcases interior_cases h0 h1 with ⟨i, hi, a, b⟩ | ⟨i, hi, rfl⟩
    · rw [fastCall_inside y hn hg hi a.le b, multiCall_inside y hn h hi a b.le]
    · have a1 := hx i (by omega)
      have a2 := hx (i + 1) (by omega)
      rw [fastCall_inside y hn hg (by omega : i + 1 + 1 < n) (le_refl _) a2,
        multiCall_inside y hn h (by omega : i + 1 < n) a1 (le_refl _)]
      match der with
      | 0 => simp only [pieceD, (piece_left x y _ a2).1, (piece_right x y _ a1).1]
      | 1 => simp only [pieceD, piece_knot hx (splineD2_natural y hx hn) hi]
      | 2 => simp only [pieceD, (piece_left x y _ a2).2, (piece_right x y _ a1).2]
      | (_ + 3) => rfl
  · rw [multiCall_beyond y hn hx ht hd]
    unfold fastCall
    exact if_pos (Or.inr ht.le)

/-- **C41, refuted at the left end.**  At the first grid point the two disagree: the spline of the matrix
elements returns `-(n-1)` times the first data value, because the lower index becomes `-1`. -/
theorem c41_left_end {n : ℕ} {x : ℕ → ℝ} (y : ℕ → ℝ) (hn : 2 ≤ n) (h : Uniform n x) :
    multiCall n x y (x 0) 0 = some (-((n : ℝ) - 1) * y 0) := by
  have hx := uniform_inc h
  have e : searchSorted n x (x 0) = 0 := searchSorted_eq (Nat.zero_le _) fun j hj =>
    ⟨fun hlt => absurd hlt (not_lt.mpr (gridInc_le hx (Nat.zero_le j) hj)), fun hlt => absurd hlt (Nat.not_lt_zero _)⟩
  have d0 := (splineD2_natural y hx hn).first
  have dn := (splineD2_natural y hx hn).last
  obtain ⟨w, hw, hu⟩ := h
  unfold multiCall multiBin
  rw [e]
  simp only [if_true, if_neg (by omega : ¬ 0 = n), splineFormula, d0, dn]
  rw [hu (n - 1) (by omega), hu 1 (by omega), Nat.cast_sub (by omega)]
  congr 1
  push_cast
  have : x 0 + 1 * w - x 0 = w := by ring
  rw [this]
  field_simp
  ring

theorem c41_left_end_fails : ∃ (n : ℕ) (x y : ℕ → ℝ), 2 ≤ n ∧ Uniform n x ∧
    fastCall .linear n x y (x 0) 0 ≠ .ok (multiCall n x y (x 0) 0) := by
  have hu : Uniform 3 (fun i => (i : ℝ)) := ⟨1, by norm_num, fun i _ => by simp⟩
  refine ⟨3, fun i => i, fun _ => 1, by norm_num, hu, ?_⟩
  rw [c41_left_end (fun _ => 1) (by norm_num) hu,
    fastCall_inside (g := .linear) (fun _ => 1) (by norm_num) hu (i := 0) (by norm_num) (le_refl _) (by norm_num)]
  simp only [pieceD]
  rw [(piece_left (fun i => (i : ℝ)) (fun _ => (1 : ℝ)) _ (by norm_num)).1]
  intro h
  injection h with h
  injection h with h
  norm_num at h

/-- **C41, refuted below the range.**  Below the first grid point the spline of the matrix elements is
not zero: it returns a multiple of the first and last data values. -/
theorem c41_below_fails : ∃ (n : ℕ) (x y : ℕ → ℝ) (t : ℝ), 2 ≤ n ∧ Uniform n x ∧ t < x 0 ∧
    multiCall n x y t 0 ≠ some 0 := by
  refine ⟨2, fun i => (i : ℝ) + 1, fun _ => 1, 1 / 2, by norm_num,
    ⟨1, by norm_num, fun i _ => by push_cast; ring⟩, by norm_num, ?_⟩
  have e : searchSorted 2 (fun i => (i : ℝ) + 1) (1 / 2) = 0 := searchSorted_eq (Nat.zero_le _) fun j hj =>
    ⟨fun hlt => by
      have : (0 : ℝ) ≤ j := Nat.cast_nonneg j
      linarith, fun hlt => absurd hlt (Nat.not_lt_zero _)⟩
  unfold multiCall multiBin
  rw [e]
  simp only [splineFormula, splineD2]
  norm_num [splineBack, splineFwd]

/-- **C41.**  Tables whose length differs from that of the grid are refused. -/
theorem c41_lengths (nx ny : ℕ) :
    (nx = ny → multiInit nx ny = .ok ()) ∧ (nx ≠ ny → multiInit nx ny = .error .runtimeError) := by
  unfold multiInit
  exact ⟨fun h => by simp [h], fun h => by simp [h]⟩

/-! ### Concrete cases -/

/-- Three points: the computed second derivatives are `(0,-3,0)` for the data `(0,1,0)` on `0,1,2`. -/
example : splineD2 3 (fun i => (i : ℝ)) (fun i => if i = 1 then 1 else 0) 1 = -3 := by
  norm_num [splineD2, splineBack, splineFwd]

/-- A quadratic power grid on `1,…,10` with four points. -/
example : GridFits (.power 2) 4 (fun i => 1 + (i : ℝ) ^ 2) := by
  refine ⟨by norm_num, by norm_num, fun i _ => ?_⟩
  have : ((2 : ℝ)) = ((2 : ℕ) : ℝ) := by norm_num
  rw [this, Real.rpow_natCast]
  norm_num
  ring

example : ∃ f : ℕ → ℝ → ℝ, (∀ t, ∀ der < 3, multiCall 3 (fun i => (i : ℝ)) (fun i => if i = 1 then 1 else 0) t der
      = some (f der t)) ∧ f 0 1 = 1 := by
  obtain ⟨f, h1, h2, _⟩ := c40_multi (n := 3) (x := fun i => (i : ℝ)) (fun i => if i = 1 then 1 else 0)
    (by norm_num) ⟨1, by norm_num, fun i _ => by simp⟩
  exact ⟨f, h1, by simpa using h2.interpolates 1 (by norm_num) (by norm_num)⟩

end Hotbit
