import Mathlib.LinearAlgebra.SesquilinearForm.Basic
import Mathlib.Analysis.SpecificLimits.Basic
import Mathlib.Tactic

/-!
# Damped iterations of a cocoercive map
-/

namespace Hotbit

open Filter Topology

/-- A sequence that shrinks up to an error. -/
theorem shrink_eventually {a : ℕ → ℝ} {β b : ℝ} (h0 : 0 < β) (h1 : β ≤ 1) {m : ℕ}
    (h : ∀ n, m ≤ n → a (n + 1) ≤ (1 - β) * a n + β * b) {t : ℝ} (ht : b < t) : ∃ n0, ∀ n, n0 ≤ n → a n < t := by
  have key : ∀ n, a (m + n) - b ≤ (1 - β) ^ n * (a m - b) := by
    intro n
    induction n with
    | zero => simp
    | succ n ih =>
      have := h (m + n) (by omega)
      rw [pow_succ', mul_assoc]
      have := mul_le_mul_of_nonneg_left ih (by linarith : 0 ≤ 1 - β)
      rw [← add_assoc]
      nlinarith
  have lim : Tendsto (fun n : ℕ => (1 - β) ^ n * (a m - b)) atTop (𝓝 (0 * (a m - b))) :=
    (tendsto_pow_atTop_nhds_zero_of_lt_one (by linarith) (by linarith)).mul_const _
  rw [zero_mul] at lim
  obtain ⟨n0, hn⟩ := eventually_atTop.1 (lim.eventually (gt_mem_nhds (sub_pos.2 ht)))
  refine ⟨m + n0, fun n hle => ?_⟩
  have := key (n - m)
  rw [Nat.add_sub_cancel' (by omega)] at this
  have := hn (n - m) (by omega)
  linarith

variable {V : Type} [AddCommGroup V] [Module ℝ V]

/-- A form that is symmetric and not negative. -/
structure PosForm (B : V →ₗ[ℝ] V →ₗ[ℝ] ℝ) : Prop where
  symm : ∀ u v, B u v = B v u
  pos : ∀ u, 0 ≤ B u u

/-- The length. -/
noncomputable def formLen (B : V →ₗ[ℝ] V →ₗ[ℝ] ℝ) (u : V) : ℝ := √(B u u)

namespace PosForm

variable {B : V →ₗ[ℝ] V →ₗ[ℝ] ℝ} (H : PosForm B)
include H

theorem sq (u : V) : formLen B u ^ 2 = B u u := Real.sq_sqrt (H.pos u)

theorem le_mul (u v : V) : |B u v| ≤ formLen B u * formLen B v := by
  have h1 := LinearMap.BilinForm.apply_mul_apply_le_of_forall_zero_le B H.pos u v
  rw [H.symm v u, ← H.sq u, ← H.sq v] at h1
  refine abs_le_of_sq_le_sq ?_ (mul_nonneg (Real.sqrt_nonneg _) (Real.sqrt_nonneg _))
  nlinarith

theorem len_add (u v : V) : formLen B (u + v) ≤ formLen B u + formLen B v := by
  have h0 : 0 ≤ formLen B u + formLen B v := add_nonneg (Real.sqrt_nonneg _) (Real.sqrt_nonneg _)
  refine Real.sqrt_le_iff.2 ⟨h0, ?_⟩
  have := (abs_le.1 (H.le_mul u v)).2
  have e : B (u + v) (u + v) = B u u + 2 * B u v + B v v := by
    simp only [map_add, LinearMap.add_apply]
    rw [H.symm v u]; ring
  rw [e, ← H.sq u, ← H.sq v]
  nlinarith

theorem len_smul (c : ℝ) (u : V) : formLen B (c • u) = |c| * formLen B u := by
  unfold formLen
  rw [map_smul, map_smul, LinearMap.smul_apply, smul_eq_mul, smul_eq_mul, ← mul_assoc, Real.sqrt_mul (mul_self_nonneg c),
    Real.sqrt_mul_self_eq_abs]

theorem len_sub (u v : V) : formLen B (u - v) ≤ formLen B u + formLen B v := by
  have := H.len_add u (-v)
  rw [← sub_eq_add_neg] at this
  have e : formLen B (-v) = formLen B v := by
    have := H.len_smul (-1) v
    simpa using this
  rwa [e] at this

end PosForm

/-- **Damped iterations.** Let the change of the output `D q` be opposite to the change of the input `q`, in the
form `B`, at least by `c` times the square of the length of the output in the form `I`. If the outputs are known
up to `ε`, and the damping is small, then the residuals are below `(2 g / c + 2) ε / β` in the end. -/
theorem damped_converges {B I : V →ₗ[ℝ] V →ₗ[ℝ] ℝ} (hB : PosForm B) (hI : PosForm I) {g c ε β : ℝ} (hg : 0 ≤ g)
    (hBI : ∀ u, B u u ≤ g * I u u) (hc : 0 < c) {D : V → V}
    (hD : ∀ q q', c * I (D q' - D q) (D q' - D q) ≤ -B (D q' - D q) (q' - q)) (hε : 0 ≤ ε) (h0 : 0 < β) (h1 : β < 1)
    (hβ : g * β ≤ 2 * (1 - β) * c) {q y : ℕ → V} (hy : ∀ n, formLen I (y n - D (q n)) ≤ ε)
    (hq : ∀ n, q (n + 1) = q n + β • (y n - q n)) {t : ℝ} (ht : (2 * g / c + 2) * ε / β < t) :
    ∃ n0, ∀ n, n0 ≤ n → formLen I (y n - q n) < t := by
  set r : ℕ → V := fun n => y n - q n with hr
  set Δ : ℕ → V := fun n => D (q (n + 1)) - D (q n) with hΔ
  set ν : ℕ → V := fun n => y n - D (q n) with hν
  have hBI' : ∀ u, formLen B u ≤ √g * formLen I u := by
    intro u
    unfold formLen
    rw [← Real.sqrt_mul hg]
    exact Real.sqrt_le_sqrt (hBI u)
  have step : ∀ n, r (n + 1) = ((1 - β) • r n + Δ n) + (ν (n + 1) - ν n) := by
    intro n
    simp only [hr, hΔ, hν, hq n]
    module
  have dq : ∀ n, q (n + 1) - q n = β • r n := by
    intro n
    rw [hq n]
    simp [hr]
  have coco : ∀ n, c * I (Δ n) (Δ n) ≤ -(β * B (Δ n) (r n)) := by
    intro n
    have := hD (q n) (q (n + 1))
    rw [dq n, map_smul, smul_eq_mul] at this
    exact this
  have noise : ∀ n, formLen I (ν (n + 1) - ν n) ≤ 2 * ε := by
    intro n
    have := hI.len_sub (ν (n + 1)) (ν n)
    have := hy n
    have := hy (n + 1)
    simp only [hν] at *
    linarith
  have hsg := Real.sqrt_nonneg g
  -- the form B shrinks
  have shrinkB : ∀ n, formLen B (r (n + 1)) ≤ (1 - β) * formLen B (r n) + β * (2 * √g * ε / β) := by
    intro n
    have e : B ((1 - β) • r n + Δ n) ((1 - β) • r n + Δ n)
        = (1 - β) ^ 2 * B (r n) (r n) + 2 * (1 - β) * B (Δ n) (r n) + B (Δ n) (Δ n) := by
      simp only [map_add, LinearMap.add_apply, map_smul, LinearMap.smul_apply, smul_eq_mul]
      rw [hB.symm (r n) (Δ n)]
      ring
    have le : B ((1 - β) • r n + Δ n) ((1 - β) • r n + Δ n) ≤ (1 - β) ^ 2 * B (r n) (r n) := by
      rw [e]
      have a1 := coco n
      have a2 := hBI (Δ n)
      have a3 := hI.pos (Δ n)
      have a4 : 2 * (1 - β) * (c * I (Δ n) (Δ n)) ≤ 2 * (1 - β) * -(β * B (Δ n) (r n)) :=
        mul_le_mul_of_nonneg_left a1 (by linarith)
      have a5 : β * B (Δ n) (Δ n) ≤ g * β * I (Δ n) (Δ n) := by
        have := mul_le_mul_of_nonneg_left a2 h0.le
        linarith
      have a6 := mul_le_mul_of_nonneg_right hβ a3
      have a7 : β * (2 * (1 - β) * B (Δ n) (r n) + B (Δ n) (Δ n)) ≤ 0 := by nlinarith
      have := nonpos_of_mul_nonpos_right a7 h0
      linarith
    have len : formLen B ((1 - β) • r n + Δ n) ≤ (1 - β) * formLen B (r n) := by
      refine Real.sqrt_le_iff.2 ⟨mul_nonneg (by linarith) (Real.sqrt_nonneg _), ?_⟩
      rw [mul_pow, hB.sq]
      exact le
    rw [step n]
    have b1 := hB.len_add ((1 - β) • r n + Δ n) (ν (n + 1) - ν n)
    have b2 := hBI' (ν (n + 1) - ν n)
    have b3 := mul_le_mul_of_nonneg_left (noise n) hsg
    have b4 : β * (2 * √g * ε / β) = √g * (2 * ε) := by field_simp
    rw [b4]
    linarith
  have small : ∀ n, formLen I (Δ n) ≤ β * √g / c * formLen B (r n) := by
    intro n
    have a1 := coco n
    have a2 := (abs_le.1 (hB.le_mul (Δ n) (r n))).1
    have a3 := mul_le_mul_of_nonneg_right (hBI' (Δ n)) (Real.sqrt_nonneg (B (r n) (r n)))
    rw [← hI.sq] at a1
    have a4 : c * formLen I (Δ n) ^ 2 ≤ β * (√g * formLen I (Δ n) * formLen B (r n)) := by
      have : -(β * B (Δ n) (r n)) ≤ β * (formLen B (Δ n) * formLen B (r n)) := by nlinarith
      have := mul_le_mul_of_nonneg_left a3 h0.le
      unfold formLen at *
      linarith
    have hl := Real.sqrt_nonneg (I (Δ n) (Δ n))
    change 0 ≤ formLen I (Δ n) at hl
    rcases hl.eq_or_lt with h | h
    · rw [← h]
      exact mul_nonneg (div_nonneg (mul_nonneg h0.le hsg) hc.le) (Real.sqrt_nonneg _)
    · rw [div_mul_eq_mul_div, le_div_iff₀ hc]
      have : formLen I (Δ n) * (formLen I (Δ n) * c) ≤ formLen I (Δ n) * (β * √g * formLen B (r n)) := by nlinarith
      exact le_of_mul_le_mul_left this h
  -- choose a bound for the form B
  set b1 : ℝ := 2 * √g * ε / β with hb1
  have ht' : √g / c * b1 + 2 * ε / β < t := by
    refine lt_of_le_of_lt (le_of_eq ?_) ht
    rw [hb1]
    have : √g * √g = g := Real.mul_self_sqrt hg
    field_simp
    rw [pow_two, this]
  obtain ⟨t1, ht1, ht2⟩ : ∃ t1, b1 < t1 ∧ √g / c * t1 + 2 * ε / β < t := by
    rcases hsg.eq_or_lt with h | h
    · refine ⟨b1 + 1, by linarith, ?_⟩
      rw [← h] at ht' ⊢
      simpa using ht'
    · set d := t - (√g / c * b1 + 2 * ε / β) with hd
      have hdp : 0 < d := sub_pos.2 ht'
      have hgc : 0 < √g / c := div_pos h hc
      refine ⟨b1 + d / 2 / (√g / c), by linarith [div_pos (half_pos hdp) hgc], ?_⟩
      rw [mul_add, mul_div_cancel₀ _ hgc.ne']
      linarith
  obtain ⟨m, hm⟩ := shrink_eventually (a := fun n => formLen B (r n)) h0 h1.le (m := 0) (fun n _ => shrinkB n) ht1
  refine shrink_eventually h0 h1.le (m := m) (b := √g / c * t1 + 2 * ε / β) (fun n hn => ?_) ht2
  rw [show y (n + 1) - q (n + 1) = r (n + 1) from rfl, step n]
  have c1 := hI.len_add ((1 - β) • r n + Δ n) (ν (n + 1) - ν n)
  have c2 := hI.len_add ((1 - β) • r n) (Δ n)
  rw [hI.len_smul, abs_of_pos (by linarith)] at c2
  have c3 := small n
  have c4 := noise n
  have c5 : β * √g / c * formLen B (r n) ≤ β * √g / c * t1 :=
    mul_le_mul_of_nonneg_left (hm n hn).le (div_nonneg (mul_nonneg h0.le hsg) hc.le)
  have c6 : β * (√g / c * t1 + 2 * ε / β) = β * √g / c * t1 + 2 * ε := by field_simp
  rw [c6]
  linarith

end Hotbit
