import Verif.Lemmas.Nanotube
import Verif.Lemmas.Containers
import Mathlib.Analysis.SpecialFunctions.Complex.Circle

/-!
# Lemmas on rolling up the plane
-/

namespace Hotbit

open Real

noncomputable def phase2 (C p : ℝ × ℝ) : ℝ := dot2 p C / len2 C ^ 2 * 2 * π

theorem len2_pos {C : ℝ × ℝ} (h : dot2 C C ≠ 0) : 0 < len2 C := by
  unfold len2
  apply Real.sqrt_pos.2
  have : 0 ≤ dot2 C C := by unfold dot2; nlinarith [mul_self_nonneg C.1, mul_self_nonneg C.2]
  exact lt_of_le_of_ne this (Ne.symm h)

theorem len2_sq (C : ℝ × ℝ) : len2 C ^ 2 = dot2 C C := by
  unfold len2
  rw [Real.sq_sqrt]
  unfold dot2
  nlinarith [mul_self_nonneg C.1, mul_self_nonneg C.2]

theorem rollUp_eq {C : ℝ × ℝ} (h : dot2 C C ≠ 0) (p : ℝ × ℝ) :
    rollUp C p = ![len2 C / (2 * π) * cos (phase2 C p), len2 C / (2 * π) * sin (phase2 C p), (p.1 * C.2 - p.2 * C.1) / len2 C] := by
  have h1 := len2_pos h
  have h2 := Real.pi_pos
  have : dot2 p C / len2 C / (len2 C / (2 * π)) = phase2 C p := by
    unfold phase2
    field_simp
  unfold rollUp
  simp only [this]

theorem phase2_add (C p v : ℝ × ℝ) (k : ℝ) : phase2 C (p + k • v) = phase2 C p + k * phase2 C v := by
  unfold phase2 dot2
  simp only [Prod.fst_add, Prod.snd_add, Prod.smul_fst, Prod.smul_snd, smul_eq_mul]
  ring

/-- Two points are rolled onto the same place iff they differ by a multiple of the circumference. -/
theorem rollUp_inj {C : ℝ × ℝ} (h : dot2 C C ≠ 0) (p q : ℝ × ℝ) : rollUp C p = rollUp C q ↔ ∃ k : ℤ, q = p + (k : ℝ) • C := by
  have h1 := len2_pos h
  have h2 := Real.pi_pos
  rw [rollUp_eq h, rollUp_eq h]
  constructor
  · intro e
    have e0 := congrFun e 0
    have e1 := congrFun e 1
    have e2 := congrFun e 2
    simp only [Matrix.cons_val] at e0 e1 e2
    have hr : len2 C / (2 * π) ≠ 0 := by positivity
    have c0 := mul_left_cancel₀ hr e0
    have c1 := mul_left_cancel₀ hr e1
    have ha : ((phase2 C p : ℝ) : Real.Angle) = (phase2 C q : ℝ) := Real.Angle.cos_sin_inj c0 c1
    obtain ⟨k, hk⟩ := Real.Angle.angle_eq_iff_two_pi_dvd_sub.1 ha
    refine ⟨-k, ?_⟩
    have hx : p.1 * C.2 - p.2 * C.1 = q.1 * C.2 - q.2 * C.1 := by
      rw [div_left_inj' h1.ne'] at e2
      exact e2
    have hy : dot2 p C - dot2 q C = k * dot2 C C := by
      unfold phase2 at hk
      rw [len2_sq] at hk
      field_simp at hk
      linarith
    unfold dot2 at hy h
    have key1 : (q.1 - p.1 + k * C.1) * (C.1 * C.1 + C.2 * C.2) = 0 := by
      linear_combination (-C.1) * hy - C.2 * hx
    have key2 : (q.2 - p.2 + k * C.2) * (C.1 * C.1 + C.2 * C.2) = 0 := by
      linear_combination (-C.2) * hy + C.1 * hx
    have k1 := (mul_eq_zero.1 key1).resolve_right h
    have k2 := (mul_eq_zero.1 key2).resolve_right h
    ext
    · simp only [Prod.fst_add, Prod.smul_fst, smul_eq_mul]; push_cast; linarith
    · simp only [Prod.snd_add, Prod.smul_snd, smul_eq_mul]; push_cast; linarith
  · rintro ⟨k, rfl⟩
    have hC : phase2 C C = 2 * π := by
      unfold phase2
      rw [len2_sq]
      field_simp
    rw [phase2_add, hC, Real.cos_add_int_mul_two_pi, Real.sin_add_int_mul_two_pi]
    congr 3
    simp only [Prod.fst_add, Prod.snd_add, Prod.smul_fst, Prod.smul_snd, smul_eq_mul]
    ring

/-- A screw moves a rolled up point like a shift in the plane. -/
theorem rollUp_screw {C : ℝ × ℝ} (h : dot2 C C ≠ 0) (p v : ℝ × ℝ) (k : ℤ) :
    (rotZ (k * phase2 C v)).mulVec (rollUp C p) + ![0, 0, k * ((v.1 * C.2 - v.2 * C.1) / len2 C)] = rollUp C (p + (k : ℝ) • v) := by
  rw [rollUp_eq h, rollUp_eq h, phase2_add]
  ext a
  fin_cases a
  · simp only [Pi.add_apply, Fin.zero_eta, Matrix.cons_val, rotZ, Matrix.mulVec, dotProduct, Fin.sum_univ_three, Matrix.of_apply]
    rw [Real.cos_add]; ring
  · simp only [Pi.add_apply, Fin.mk_one, Matrix.cons_val, rotZ, Matrix.mulVec, dotProduct, Fin.sum_univ_three, Matrix.of_apply]
    rw [Real.sin_add]; ring
  · simp only [Pi.add_apply, Fin.reduceFinMk, Matrix.cons_val, rotZ, Matrix.mulVec, dotProduct, Fin.sum_univ_three, Matrix.of_apply]
    simp only [Prod.fst_add, Prod.snd_add, Prod.smul_fst, Prod.smul_snd, smul_eq_mul]
    ring

end Hotbit
