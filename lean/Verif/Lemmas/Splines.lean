import Verif.Model.Splines
import Verif.Spec.Splines
import Mathlib.Analysis.Calculus.Deriv.Pow
import Mathlib.Analysis.Calculus.Deriv.Add
import Mathlib.Analysis.Calculus.Deriv.Mul
import Mathlib.Tactic.FieldSimp
import Mathlib.Tactic.Linarith
import Mathlib.Tactic.LinearCombination
import Mathlib.Tactic.FinCases
import Mathlib.Tactic.Positivity
import Mathlib.Tactic.IntervalCases

/-!
# Lemmas on cubic splines
-/

namespace Hotbit

open Filter Topology

theorem splineFwd_bounds {n : ℕ} {x : ℕ → ℝ} (y : ℕ → ℝ) (hx : GridInc n x) :
    ∀ i, i + 1 < n → -1 < (splineFwd x y i).1 ∧ (splineFwd x y i).1 ≤ 0
  | 0, _ => by simp [splineFwd]
  | i + 1, h => by
    obtain ⟨h1, h2⟩ := splineFwd_bounds y hx i (by omega)
    have a1 := hx i (by omega)
    have a2 := hx (i + 1) (by omega)
    have hsig : 0 < (x (i + 1) - x i) / (x (i + 2) - x i) := by
      apply div_pos <;> linarith
    have hsig1 : (x (i + 1) - x i) / (x (i + 2) - x i) < 1 := by
      rw [div_lt_one] <;> linarith
    simp only [splineFwd]
    set sig := (x (i + 1) - x i) / (x (i + 2) - x i)
    have hp : 1 < sig * (splineFwd x y i).1 + 2 := by nlinarith
    constructor
    · rw [lt_div_iff₀ (by linarith)]
      linarith
    · apply div_nonpos_of_nonpos_of_nonneg <;> linarith

theorem splineD2_rec {n : ℕ} (x y : ℕ → ℝ) {i : ℕ} (h : i + 1 < n) :
    splineD2 n x y i = (splineFwd x y i).1 * splineD2 n x y (i + 1) + (splineFwd x y i).2 := by
  unfold splineD2
  have e : n - 1 - i = (n - 1 - (i + 1)) + 1 := by omega
  rw [e, splineBack]
  have e2 : n - 2 - (n - 1 - (i + 1)) = i := by omega
  rw [e2]

theorem splineD2_last (n : ℕ) (x y : ℕ → ℝ) : splineD2 n x y (n - 1) = 0 := by
  unfold splineD2
  rw [Nat.sub_self, splineBack]

/-- Elimination: a solution of the equations satisfies the recursion of the sweep. -/
theorem natural_rec {n : ℕ} {x y d : ℕ → ℝ} (hx : GridInc n x) (hd : NaturalEquations n x y d) :
    ∀ i, i + 1 < n → d i = (splineFwd x y i).1 * d (i + 1) + (splineFwd x y i).2
  | 0, _ => by simp [splineFwd, hd.first]
  | i + 1, h => by
    have ih := natural_rec hx hd i (by omega)
    have e := hd.interior i (by omega)
    obtain ⟨b1, b2⟩ := splineFwd_bounds y hx i (by omega)
    have a1 := hx i (by omega)
    have a2 := hx (i + 1) (by omega)
    have hsig : 0 < (x (i + 1) - x i) / (x (i + 2) - x i) := by
      apply div_pos <;> linarith
    have hsig1 : (x (i + 1) - x i) / (x (i + 2) - x i) < 1 := by
      rw [div_lt_one] <;> linarith
    simp only [splineFwd]
    have hw : x (i + 2) - x i ≠ 0 := by linarith
    have hs : (x (i + 1) - x i) = (x (i + 1) - x i) / (x (i + 2) - x i) * (x (i + 2) - x i) := by
      field_simp
    have hr : (x (i + 2) - x (i + 1)) = (1 - (x (i + 1) - x i) / (x (i + 2) - x i)) * (x (i + 2) - x i) := by
      field_simp; ring
    set Q := (y (i + 2) - y (i + 1)) / (x (i + 2) - x (i + 1)) - (y (i + 1) - y i) / (x (i + 1) - x i)
    set sig := (x (i + 1) - x i) / (x (i + 2) - x i)
    rw [hs, hr] at e
    have hp : sig * (splineFwd x y i).1 + 2 ≠ 0 := by nlinarith
    have key : (sig * (splineFwd x y i).1 + 2) * d (i + 1)
        = (sig - 1) * d (i + 2) + (6 * Q / (x (i + 2) - x i) - sig * (splineFwd x y i).2) := by
      have e' : 6 * Q / (x (i + 2) - x i) = sig * d i + 2 * d (i + 1) + (1 - sig) * d (i + 2) := by
        rw [← e]; field_simp; ring
      rw [e']
      linear_combination (-sig) * ih
    have e3 : i + 1 + 1 = i + 2 := rfl
    rw [e3]
    generalize 6 * Q / (x (i + 2) - x i) = R at *
    field_simp
    linarith [key]

/-- The computed second derivatives solve the equations. -/
theorem splineD2_natural {n : ℕ} {x : ℕ → ℝ} (y : ℕ → ℝ) (hx : GridInc n x) (hn : 2 ≤ n) :
    NaturalEquations n x y (splineD2 n x y) := by
  refine ⟨?_, splineD2_last n x y, ?_⟩
  · rw [splineD2_rec x y (by omega)]; simp [splineFwd]
  · intro i hi
    have r0 := splineD2_rec x y (n := n) (i := i) (by omega)
    have r1 := splineD2_rec x y (n := n) (i := i + 1) (by omega)
    obtain ⟨b1, b2⟩ := splineFwd_bounds y hx i (by omega)
    have a1 := hx i (by omega)
    have a2 := hx (i + 1) (by omega)
    have hsig : 0 < (x (i + 1) - x i) / (x (i + 2) - x i) := by
      apply div_pos <;> linarith
    have hsig1 : (x (i + 1) - x i) / (x (i + 2) - x i) < 1 := by
      rw [div_lt_one] <;> linarith
    simp only [splineFwd] at r1
    have hw : x (i + 2) - x i ≠ 0 := by linarith
    have hs : (x (i + 1) - x i) = (x (i + 1) - x i) / (x (i + 2) - x i) * (x (i + 2) - x i) := by
      field_simp
    have hr : (x (i + 2) - x (i + 1)) = (1 - (x (i + 1) - x i) / (x (i + 2) - x i)) * (x (i + 2) - x i) := by
      field_simp; ring
    set Q := (y (i + 2) - y (i + 1)) / (x (i + 2) - x (i + 1)) - (y (i + 1) - y i) / (x (i + 1) - x i)
    set sig := (x (i + 1) - x i) / (x (i + 2) - x i)
    have hp : sig * (splineFwd x y i).1 + 2 ≠ 0 := by nlinarith
    rw [hs, hr]
    have key : (sig * (splineFwd x y i).1 + 2) * splineD2 n x y (i + 1)
        = (sig - 1) * splineD2 n x y (i + 1 + 1)
          + (6 * Q / (x (i + 2) - x i) - sig * (splineFwd x y i).2) := by
      rw [r1]
      field_simp
    have e2 : i + 1 + 1 = i + 2 := rfl
    rw [e2] at key
    have e' : 6 * Q / (x (i + 2) - x i)
        = sig * splineD2 n x y i + 2 * splineD2 n x y (i + 1) + (1 - sig) * splineD2 n x y (i + 2) := by
      linear_combination (-1) * key - sig * r0
    have : Q = (x (i + 2) - x i) / 6 * (6 * Q / (x (i + 2) - x i)) := by field_simp
    rw [this, e']
    ring

/-! ### Pieces -/

/-- Value, first and second derivative of the cubic on the interval `i`. -/
noncomputable def piece0 (x y d : ℕ → ℝ) (i : ℕ) (t : ℝ) : ℝ :=
  let h := x (i + 1) - x i
  let a := (x (i + 1) - t) / h
  let b := (t - x i) / h
  a * y i + b * y (i + 1) + ((a ^ 3 - a) * d i + (b ^ 3 - b) * d (i + 1)) * h ^ 2 / 6

noncomputable def piece1 (x y d : ℕ → ℝ) (i : ℕ) (t : ℝ) : ℝ :=
  let h := x (i + 1) - x i
  let a := (x (i + 1) - t) / h
  let b := (t - x i) / h
  (y (i + 1) - y i) / h - (3 * a ^ 2 - 1) / 6 * h * d i + (3 * b ^ 2 - 1) / 6 * h * d (i + 1)

noncomputable def piece2 (x d : ℕ → ℝ) (i : ℕ) (t : ℝ) : ℝ :=
  let h := x (i + 1) - x i
  let a := (x (i + 1) - t) / h
  let b := (t - x i) / h
  a * d i + b * d (i + 1)

theorem hasDerivAt_a (u h t : ℝ) : HasDerivAt (fun t => (u - t) / h) (-1 / h) t := by
  simpa using ((hasDerivAt_id t).const_sub u).div_const h

theorem hasDerivAt_b (u h t : ℝ) : HasDerivAt (fun t => (t - u) / h) (1 / h) t := by
  simpa using ((hasDerivAt_id t).sub_const u).div_const h

theorem piece0_hasDerivAt (x y d : ℕ → ℝ) {i : ℕ} (hi : x i < x (i + 1)) (t : ℝ) :
    HasDerivAt (piece0 x y d i) (piece1 x y d i t) t := by
  have hh : x (i + 1) - x i ≠ 0 := by linarith
  have ha := hasDerivAt_a (x (i + 1)) (x (i + 1) - x i) t
  have hb := hasDerivAt_b (x i) (x (i + 1) - x i) t
  unfold piece0 piece1
  have := ((ha.mul_const (y i)).fun_add (hb.mul_const (y (i + 1)))).fun_add
    ((((((ha.fun_pow 3).fun_sub ha).mul_const (d i)).fun_add
      (((hb.fun_pow 3).fun_sub hb).mul_const (d (i + 1)))).mul_const ((x (i + 1) - x i) ^ 2)).div_const 6)
  refine this.congr_deriv ?_
  norm_num
  field_simp
  ring

theorem piece1_hasDerivAt (x y d : ℕ → ℝ) {i : ℕ} (hi : x i < x (i + 1)) (t : ℝ) :
    HasDerivAt (piece1 x y d i) (piece2 x d i t) t := by
  have hh : x (i + 1) - x i ≠ 0 := by linarith
  have ha := hasDerivAt_a (x (i + 1)) (x (i + 1) - x i) t
  have hb := hasDerivAt_b (x i) (x (i + 1) - x i) t
  unfold piece1 piece2
  have := ((((((ha.fun_pow 2).const_mul 3).sub_const 1).div_const 6).mul_const
      (x (i + 1) - x i)).mul_const (d i)).const_sub ((y (i + 1) - y i) / (x (i + 1) - x i))
  have := this.fun_add (((((((hb.fun_pow 2).const_mul 3).sub_const 1).div_const 6).mul_const
      (x (i + 1) - x i)).mul_const (d (i + 1))))
  refine this.congr_deriv ?_
  norm_num
  field_simp
  ring

theorem piece2_hasDerivAt (x d : ℕ → ℝ) (i : ℕ) (t : ℝ) :
    HasDerivAt (piece2 x d i) ((d (i + 1) - d i) / (x (i + 1) - x i)) t := by
  have ha := hasDerivAt_a (x (i + 1)) (x (i + 1) - x i) t
  have hb := hasDerivAt_b (x i) (x (i + 1) - x i) t
  unfold piece2
  refine ((ha.mul_const (d i)).fun_add (hb.mul_const (d (i + 1)))).congr_deriv ?_
  ring

theorem piece_left (x y d : ℕ → ℝ) {i : ℕ} (hi : x i < x (i + 1)) :
    piece0 x y d i (x i) = y i ∧ piece2 x d i (x i) = d i := by
  have hh : x (i + 1) - x i ≠ 0 := by linarith
  simp [piece0, piece2, div_self hh]

theorem piece_right (x y d : ℕ → ℝ) {i : ℕ} (hi : x i < x (i + 1)) :
    piece0 x y d i (x (i + 1)) = y (i + 1) ∧ piece2 x d i (x (i + 1)) = d (i + 1) := by
  have hh : x (i + 1) - x i ≠ 0 := by linarith
  simp [piece0, piece2, div_self hh]

theorem piece_knot {n : ℕ} {x y d : ℕ → ℝ} (hx : GridInc n x) (hd : NaturalEquations n x y d) {i : ℕ}
    (hi : i + 2 < n) : piece1 x y d i (x (i + 1)) = piece1 x y d (i + 1) (x (i + 1)) := by
  have a1 := hx i (by omega)
  have a2 := hx (i + 1) (by omega)
  have h1 : x (i + 1) - x i ≠ 0 := by linarith
  have h2 : x (i + 1 + 1) - x (i + 1) ≠ 0 := by linarith
  have e := hd.interior i hi
  simp only [piece1, sub_self, zero_div, div_self h1, div_self h2]
  have e2 : i + 1 + 1 = i + 2 := rfl
  rw [e2] at *
  linear_combination e

/-- Gluing two differentiable functions at a point. -/
theorem glue_hasDerivAt {f p q : ℝ → ℝ} {v k : ℝ} (hp : HasDerivAt p v k) (hq : HasDerivAt q v k)
    (hl : ∀ᶠ t in 𝓝[≤] k, f t = p t) (hr : ∀ᶠ t in 𝓝[≥] k, f t = q t) : HasDerivAt f v k := by
  rw [← hasDerivWithinAt_univ, ← Set.Iic_union_Ici (a := k)]
  refine HasDerivWithinAt.union ?_ ?_
  · exact hp.hasDerivWithinAt.congr_of_eventuallyEq hl (hl.self_of_nhdsWithin Set.self_mem_Iic)
  · exact hq.hasDerivWithinAt.congr_of_eventuallyEq hr (hr.self_of_nhdsWithin Set.self_mem_Ici)

theorem glue_continuousAt {f p q : ℝ → ℝ} {k : ℝ} (hp : ContinuousAt p k) (hq : ContinuousAt q k)
    (hl : ∀ᶠ t in 𝓝[≤] k, f t = p t) (hr : ∀ᶠ t in 𝓝[≥] k, f t = q t) : ContinuousAt f k := by
  rw [← continuousWithinAt_univ, ← Set.Iic_union_Ici (a := k)]
  refine ContinuousWithinAt.union ?_ ?_
  · exact hp.continuousWithinAt.congr_of_eventuallyEq hl (hl.self_of_nhdsWithin Set.self_mem_Iic)
  · exact hq.continuousWithinAt.congr_of_eventuallyEq hr (hr.self_of_nhdsWithin Set.self_mem_Ici)

theorem gridInc_le {n : ℕ} {x : ℕ → ℝ} (hx : GridInc n x) {i : ℕ} : ∀ {j : ℕ}, i ≤ j → j < n → x i ≤ x j := by
  intro j hij
  induction j, hij using Nat.le_induction with
  | base => intro _; exact le_refl _
  | succ j _ ih => intro hj; exact (ih (by omega)).trans (hx j hj).le

/-- Every point inside the range lies in one interval. -/
theorem exists_interval {n : ℕ} {x : ℕ → ℝ} {t : ℝ} (h0 : x 0 ≤ t) (h1 : t < x (n - 1)) :
    ∃ i, i + 1 < n ∧ x i ≤ t ∧ t < x (i + 1) := by
  classical
  have hex : ∃ m, t < x m := ⟨n - 1, h1⟩
  have hm := Nat.find_spec hex
  have hmin := fun m => Nat.find_min (H := hex) (m := m)
  have hle : Nat.find hex ≤ n - 1 := Nat.find_min' hex h1
  have hpos : Nat.find hex ≠ 0 := fun h => by rw [h] at hm; linarith
  obtain ⟨i, hi⟩ := Nat.exists_eq_succ_of_ne_zero hpos
  refine ⟨i, by omega, ?_, by rw [← Nat.succ_eq_add_one, ← hi]; exact hm⟩
  exact not_lt.mp (hmin i (by omega))

/-- Between two knots, or at an interior knot. -/
theorem interior_cases {n : ℕ} {x : ℕ → ℝ} {t : ℝ} (h0 : x 0 < t) (h1 : t < x (n - 1)) :
    (∃ i, i + 1 < n ∧ x i < t ∧ t < x (i + 1)) ∨ ∃ i, i + 2 < n ∧ t = x (i + 1) := by
  obtain ⟨i, hi, a, b⟩ := exists_interval h0.le h1
  rcases a.lt_or_eq with a | a
  · exact Or.inl ⟨i, hi, a, b⟩
  · right
    cases i with
    | zero => rw [a] at h0; exact absurd h0 (lt_irrefl _)
    | succ i => exact ⟨i, by omega, a.symm⟩

/-- A function that on the open intervals is the cubic piece and at the interior knots takes the
common value of the pieces is the natural spline. -/
theorem natural_of_pieces {n : ℕ} {x y d : ℕ → ℝ} (hn : 2 ≤ n) (hx : GridInc n x)
    (hd : NaturalEquations n x y d) {f f1 f2 : ℝ → ℝ}
    (hf : ∀ i, i + 1 < n → ∀ t, x i < t → t < x (i + 1) →
      f t = piece0 x y d i t ∧ f1 t = piece1 x y d i t ∧ f2 t = piece2 x d i t)
    (hk : ∀ i, i + 2 < n → f (x (i + 1)) = y (i + 1) ∧ f1 (x (i + 1)) = piece1 x y d i (x (i + 1)) ∧
      f2 (x (i + 1)) = d (i + 1)) :
    NaturalSplineOn n x y f f1 f2 := by
  -- one-sided agreement at a knot
  have hl : ∀ i, i + 2 < n → ∀ᶠ t in 𝓝[≤] (x (i + 1)),
      f t = piece0 x y d i t ∧ f1 t = piece1 x y d i t ∧ f2 t = piece2 x d i t := by
    intro i hi
    have a1 := hx i (by omega)
    filter_upwards [Ioc_mem_nhdsLE a1] with t ht
    rcases ht.2.lt_or_eq with h | h
    · exact hf i (by omega) t ht.1 h
    · rw [h]
      obtain ⟨k1, k2, k3⟩ := hk i hi
      obtain ⟨r1, r2⟩ := piece_right x y d a1
      exact ⟨k1.trans r1.symm, k2, k3.trans r2.symm⟩
  have hr : ∀ i, i + 2 < n → ∀ᶠ t in 𝓝[≥] (x (i + 1)),
      f t = piece0 x y d (i + 1) t ∧ f1 t = piece1 x y d (i + 1) t ∧ f2 t = piece2 x d (i + 1) t := by
    intro i hi
    have a1 := hx (i + 1) (by omega)
    filter_upwards [Ico_mem_nhdsGE a1] with t ht
    rcases ht.1.lt_or_eq with h | h
    · exact hf (i + 1) (by omega) t h ht.2
    · rw [← h]
      obtain ⟨k1, k2, k3⟩ := hk i hi
      obtain ⟨r1, r2⟩ := piece_left x y d a1
      exact ⟨k1.trans r1.symm, k2.trans (piece_knot hx hd hi), k3.trans r2.symm⟩
  have hin : ∀ i, i + 1 < n → ∀ t, x i < t → t < x (i + 1) → ∀ᶠ s in 𝓝 t,
      f s = piece0 x y d i s ∧ f1 s = piece1 x y d i s ∧ f2 s = piece2 x d i s := by
    intro i hi t h1 h2
    filter_upwards [Ioo_mem_nhds h1 h2] with s hs
    exact hf i hi s hs.1 hs.2
  constructor
  · intro i h0 hi
    obtain ⟨m, rfl⟩ := Nat.exists_eq_succ_of_ne_zero (by omega : i ≠ 0)
    exact (hk m (by omega)).1
  · intro t h0 h1
    rcases interior_cases h0 h1 with ⟨i, hi, a, b⟩ | ⟨i, hi, rfl⟩
    · rw [(hf i hi t a b).2.1]
      refine (piece0_hasDerivAt x y d (hx i hi) t).congr_of_eventuallyEq ?_
      filter_upwards [hin i hi t a b] with s hs using hs.1
    · rw [(hk i hi).2.1]
      refine glue_hasDerivAt (piece0_hasDerivAt x y d (hx i (by omega)) _) ?_
        ((hl i hi).mono fun _ h => h.1) ((hr i hi).mono fun _ h => h.1)
      rw [piece_knot hx hd hi]
      exact piece0_hasDerivAt x y d (hx (i + 1) (by omega)) _
  · intro t h0 h1
    rcases interior_cases h0 h1 with ⟨i, hi, a, b⟩ | ⟨i, hi, rfl⟩
    · rw [(hf i hi t a b).2.2]
      refine (piece1_hasDerivAt x y d (hx i hi) t).congr_of_eventuallyEq ?_
      filter_upwards [hin i hi t a b] with s hs using hs.2.1
    · rw [(hk i hi).2.2]
      have p1 := piece1_hasDerivAt x y d (hx i (by omega)) (x (i + 1))
      have p2 := piece1_hasDerivAt x y d (hx (i + 1) (by omega)) (x (i + 1))
      rw [(piece_right x y d (hx i (by omega))).2] at p1
      rw [(piece_left x y d (hx (i + 1) (by omega))).2] at p2
      exact glue_hasDerivAt p1 p2 ((hl i hi).mono fun _ h => h.2.1) ((hr i hi).mono fun _ h => h.2.1)
  · intro i hi
    have a1 := hx i hi
    have hh : x (i + 1) - x i ≠ 0 := by linarith
    refine ⟨(x (i + 1) * d i - x i * d (i + 1)) / (x (i + 1) - x i),
      (d (i + 1) - d i) / (x (i + 1) - x i), fun t h1 h2 => ?_, ?_, ?_⟩
    · rw [(hf i hi t h1 h2).2.2, piece2]
      field_simp
      ring
    · rintro rfl
      rw [hd.first]
      field_simp
      ring
    · intro h
      have e : n - 1 = i + 1 := by omega
      have hl := hd.last
      rw [e] at hl ⊢
      rw [hl]
      field_simp
      ring
  · intro t h0 h1
    rcases interior_cases h0 h1 with ⟨i, hi, a, b⟩ | ⟨i, hi, rfl⟩
    · refine (piece2_hasDerivAt x d i t).continuousAt.congr ?_
      filter_upwards [hin i hi t a b] with s hs using hs.2.2.symm
    · exact glue_continuousAt (piece2_hasDerivAt x d i _).continuousAt
        (piece2_hasDerivAt x d (i + 1) _).continuousAt ((hl i hi).mono fun _ h => h.2.2)
        ((hr i hi).mono fun _ h => h.2.2)
  · have a1 := hx 0 (by omega)
    have hc := (piece0_hasDerivAt x y d a1 (x 0)).continuousAt.tendsto
    rw [(piece_left x y d a1).1] at hc
    refine (hc.mono_left nhdsWithin_le_nhds).congr' ?_
    filter_upwards [Ioo_mem_nhdsGT a1] with s hs
    exact (hf 0 (by omega) s hs.1 hs.2).1.symm
  · obtain ⟨m, rfl⟩ : ∃ m, n = m + 2 := ⟨n - 2, by omega⟩
    have e : m + 2 - 1 = m + 1 := by omega
    rw [e]
    have a1 := hx m (by omega)
    have hc := (piece0_hasDerivAt x y d a1 (x (m + 1))).continuousAt.tendsto
    rw [(piece_right x y d a1).1] at hc
    refine (hc.mono_left nhdsWithin_le_nhds).congr' ?_
    filter_upwards [Ioo_mem_nhdsLT a1] with s hs
    exact (hf m (by omega) s hs.1 hs.2).1.symm

end Hotbit
