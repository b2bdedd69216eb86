import Verif.Lemmas.MultipoleShift

/-!
# Rotation of solid harmonics
-/

namespace Hotbit

open Finset Complex

set_option linter.unusedSimpArgs false

/-- One row of the linear map of `(p,q,z)` in terms of the harmonics with `l=1`. -/
noncomputable def row3 (e0 e1 em p q z : ℂ) : ℂ := e0 * z - e1 * (p / 2) + em * (q / 2)

theorem row3_line (e0 e1 em p q z p' q' z' t : ℂ) :
    row3 e0 e1 em (p + t * p') (q + t * q') (z + t * z') = row3 e0 e1 em p q z + t * row3 e0 e1 em p' q' z' := by
  unfold row3; ring

theorem sum_Icc_shift_zero (a : ℕ) (k : ℤ) (hk : |k| ≤ 1) (F h : ℤ → ℂ)
    (hF : ∀ n : ℤ, (a : ℤ) < |n| → F n = 0) :
    ∑ n ∈ Icc (-(a : ℤ)) a, F n * h (n + k) = ∑ n ∈ Icc (-((a + 1 : ℕ) : ℤ)) ((a + 1 : ℕ) : ℤ), F (n - k) * h n := by
  have := sum_Icc_shift (-(a : ℤ)) a k fun n => F (n - k) * h n
  simp only [add_sub_cancel_right] at this
  rw [this]
  rw [abs_le] at hk
  apply Finset.sum_subset
  · intro x; simp only [Finset.mem_Icc]; push_cast; omega
  · intro x hx hn
    rw [hF, zero_mul]
    simp only [Finset.mem_Icc] at hx hn
    rw [lt_abs]
    omega

/-- Product of a row with an expansion. -/
theorem rot_rhs (e0 e1 em p q z : ℂ) (l : ℕ) (F : ℤ → ℂ) (hF : ∀ n : ℤ, ((l + 1 : ℕ) : ℤ) < |n| → F n = 0) :
    (2 * (l : ℂ) + 3) * (row3 e0 e1 em p q z *
        ∑ n ∈ Icc (-((l + 1 : ℕ) : ℤ)) ((l + 1 : ℕ) : ℤ), F n * solS p q z (l + 1) n) =
      ∑ n ∈ Icc (-((l + 1 + 1 : ℕ) : ℤ)) ((l + 1 + 1 : ℕ) : ℤ),
        (coefA (l + 2) (n + 1) * em * F (n + 1) + coefB (l + 2) n * e0 * F n
          + coefC (l + 2) (n - 1) * e1 * F (n - 1)) * solS p q z (l + 2) n
      + (z ^ 2 + p * q) * ∑ n ∈ Icc (-((l + 1 : ℕ) : ℤ)) ((l + 1 : ℕ) : ℤ), F n *
          (e0 * solS p q z l n - em / 2 * solS p q z l (n - 1) + -e1 / 2 * solS p q z l (n + 1)) := by
  have s0 := sum_Icc_shift_zero (l + 1) 0 (by norm_num) (fun n => coefB (l + 2) n * e0 * F n)
    (fun n => solS p q z (l + 2) n) (fun n hn => by simp [hF n hn])
  have s1 := sum_Icc_shift_zero (l + 1) 1 (by norm_num) (fun n => coefC (l + 2) n * e1 * F n)
    (fun n => solS p q z (l + 2) n) (fun n hn => by simp [hF n hn])
  have s2 := sum_Icc_shift_zero (l + 1) (-1) (by norm_num) (fun n => coefA (l + 2) n * em * F n)
    (fun n => solS p q z (l + 2) n) (fun n hn => by simp [hF n hn])
  simp only [sub_zero, add_zero, sub_neg_eq_add] at s0 s1 s2
  have sp : ∑ n ∈ Icc (-((l + 1 + 1 : ℕ) : ℤ)) ((l + 1 + 1 : ℕ) : ℤ),
        (coefA (l + 2) (n + 1) * em * F (n + 1) + coefB (l + 2) n * e0 * F n
          + coefC (l + 2) (n - 1) * e1 * F (n - 1)) * solS p q z (l + 2) n =
      ∑ n ∈ Icc (-((l + 1 : ℕ) : ℤ)) ((l + 1 : ℕ) : ℤ), (coefA (l + 2) n * em * F n * solS p q z (l + 2) (n + -1)
        + coefB (l + 2) n * e0 * F n * solS p q z (l + 2) n + coefC (l + 2) n * e1 * F n * solS p q z (l + 2) (n + 1)) := by
    rw [Finset.sum_add_distrib, Finset.sum_add_distrib, s0, s1, s2, ← Finset.sum_add_distrib, ← Finset.sum_add_distrib]
    exact Finset.sum_congr rfl fun n _ => by ring
  rw [sp]
  rw [Finset.mul_sum (Icc (-((l + 1 : ℕ) : ℤ)) ((l + 1 : ℕ) : ℤ)), Finset.mul_sum (Icc (-((l + 1 : ℕ) : ℤ)) ((l + 1 : ℕ) : ℤ)),
    Finset.mul_sum (Icc (-((l + 1 : ℕ) : ℤ)) ((l + 1 : ℕ) : ℤ)), ← Finset.sum_add_distrib]
  apply Finset.sum_congr rfl
  intro n _
  have hz := solS_mul_z p q z l n
  have hp := solS_mul_p p q z l (n + 1)
  have hq := solS_mul_q p q z l (n - 1)
  rw [add_sub_cancel_right] at hp
  rw [sub_add_cancel] at hq
  rw [← sub_eq_add_neg n 1]
  unfold row3 coefA coefB coefC
  push_cast at *
  linear_combination (F n * e0) * hz - (F n * e1 / 2) * hp + (F n * em / 2) * hq

/-- A linear map of `(p,q,z)`, by its matrix in the harmonics with `l=1`. -/
noncomputable def mapP (E : ℤ → ℤ → ℂ) (p q z : ℂ) : ℂ := -2 * row3 (E 1 0) (E 1 1) (E 1 (-1)) p q z
noncomputable def mapQ (E : ℤ → ℤ → ℂ) (p q z : ℂ) : ℂ := 2 * row3 (E (-1) 0) (E (-1) 1) (E (-1) (-1)) p q z
noncomputable def mapZ (E : ℤ → ℤ → ℂ) (p q z : ℂ) : ℂ := row3 (E 0 0) (E 0 1) (E 0 (-1)) p q z

/-- An expansion differentiated along a direction. -/
theorem rot_deriv (E : ℤ → ℤ → ℂ) (l : ℕ) (j : ℤ) (F : ℤ → ℂ) (s : Finset ℤ)
    (h : ∀ p q z, solS (mapP E p q z) (mapQ E p q z) (mapZ E p q z) (l + 1) j = ∑ n ∈ s, F n * solS p q z (l + 1) n)
    (p q z p' q' z' : ℂ) :
    mapZ E p' q' z' * solS (mapP E p q z) (mapQ E p q z) (mapZ E p q z) l j
      - mapP E p' q' z' / 2 * solS (mapP E p q z) (mapQ E p q z) (mapZ E p q z) l (j - 1)
      + mapQ E p' q' z' / 2 * solS (mapP E p q z) (mapQ E p q z) (mapZ E p q z) l (j + 1) =
    ∑ n ∈ s, F n * (z' * solS p q z l n - p' / 2 * solS p q z l (n - 1) + q' / 2 * solS p q z l (n + 1)) := by
  have d1 := solS_hasDerivAt (mapP E p q z) (mapQ E p q z) (mapZ E p q z) (mapP E p' q' z') (mapQ E p' q' z')
    (mapZ E p' q' z') (l + 1) j 0
  have d2 : HasDerivAt (fun t => ∑ n ∈ s, F n * solS (p + t * p') (q + t * q') (z + t * z') (l + 1) n) _ 0 :=
    HasDerivAt.fun_sum fun n _ => (solS_hasDerivAt p q z p' q' z' (l + 1) n 0).const_mul (F n)
  have e : (fun t => ∑ n ∈ s, F n * solS (p + t * p') (q + t * q') (z + t * z') (l + 1) n) =
      fun t => solS (mapP E p q z + t * mapP E p' q' z') (mapQ E p q z + t * mapQ E p' q' z')
        (mapZ E p q z + t * mapZ E p' q' z') (l + 1) j := by
    funext t
    rw [← h]
    unfold mapP mapQ mapZ
    simp only [row3_line]
    congr 1 <;> ring
  rw [e] at d2
  have := d1.unique d2
  simpa using this

/-- What a rotation of `(p,q,z)` has to satisfy. -/
structure IsRot (E : ℤ → ℤ → ℂ) : Prop where
  form : ∀ p q z, mapZ E p q z ^ 2 + mapP E p q z * mapQ E p q z = z ^ 2 + p * q
  z0 : mapZ E (E 0 (-1)) (-E 0 1) (E 0 0) = 1
  p0 : mapP E (E 0 (-1)) (-E 0 1) (E 0 0) = 0
  q0 : mapQ E (E 0 (-1)) (-E 0 1) (E 0 0) = 0
  z1 : mapZ E (E 1 (-1)) (-E 1 1) (E 1 0) = 0
  p1 : mapP E (E 1 (-1)) (-E 1 1) (E 1 0) = 0
  q1 : mapQ E (E 1 (-1)) (-E 1 1) (E 1 0) = -1
  zm : mapZ E (E (-1) (-1)) (-E (-1) 1) (E (-1) 0) = 0
  pm : mapP E (E (-1) (-1)) (-E (-1) 1) (E (-1) 0) = 1
  qm : mapQ E (E (-1) (-1)) (-E (-1) 1) (E (-1) 0) = 0

/-- The sum over the matrices, conjugated. -/
noncomputable def rotSumE (E : ℤ → ℤ → ℂ) (l : ℤ) (F : ℤ → ℤ → ℂ) (i j n : ℤ) : ℂ :=
  coefA l (n + 1) * E i (-1) * F j (n + 1) + coefB l n * E i 0 * F j n + coefC l (n - 1) * E i 1 * F j (n - 1)

/-- The recursion of the transformation matrices is right. -/
theorem rot_step {E : ℤ → ℤ → ℂ} (hE : IsRot E) (l : ℕ) (F : ℤ → ℤ → ℂ)
    (hF : ∀ j n : ℤ, ((l + 1 : ℕ) : ℤ) < |n| → F j n = 0) (j : ℤ)
    (h : ∀ p q z, solS (mapP E p q z) (mapQ E p q z) (mapZ E p q z) (l + 1) j =
      ∑ n ∈ Icc (-((l + 1 : ℕ) : ℤ)) ((l + 1 : ℕ) : ℤ), F j n * solS p q z (l + 1) n) (p q z : ℂ) :
    coefB (l + 2) j * solS (mapP E p q z) (mapQ E p q z) (mapZ E p q z) (l + 2) j =
        ∑ n ∈ Icc (-((l + 1 + 1 : ℕ) : ℤ)) ((l + 1 + 1 : ℕ) : ℤ), rotSumE E (l + 2) F 0 j n * solS p q z (l + 2) n ∧
    coefC (l + 2) j * solS (mapP E p q z) (mapQ E p q z) (mapZ E p q z) (l + 2) (j + 1) =
        ∑ n ∈ Icc (-((l + 1 + 1 : ℕ) : ℤ)) ((l + 1 + 1 : ℕ) : ℤ), rotSumE E (l + 2) F 1 j n * solS p q z (l + 2) n ∧
    coefA (l + 2) j * solS (mapP E p q z) (mapQ E p q z) (mapZ E p q z) (l + 2) (j - 1) =
        ∑ n ∈ Icc (-((l + 1 + 1 : ℕ) : ℤ)) ((l + 1 + 1 : ℕ) : ℤ), rotSumE E (l + 2) F (-1) j n * solS p q z (l + 2) n := by
  have key : ∀ i : ℤ, _ := fun i => rot_rhs (E i 0) (E i 1) (E i (-1)) p q z l (F j) (hF j)
  have der : ∀ i : ℤ, _ := fun i => rot_deriv E l j (F j) _ h p q z (E i (-1)) (-E i 1) (E i 0)
  have hf := hE.form p q z
  set P := mapP E p q z with hP
  set Q := mapQ E p q z with hQ
  set Z := mapZ E p q z with hZ
  refine ⟨?_, ?_, ?_⟩
  · have k := key 0
    have d := der 0
    rw [hE.z0, hE.p0, hE.q0] at d
    rw [← h p q z, ← d, ← hP, ← hQ, ← hZ] at k
    have e := solS_mul_z P Q Z l j
    have hr : row3 (E 0 0) (E 0 1) (E 0 (-1)) p q z = Z := rfl
    rw [hr] at k
    unfold rotSumE
    rw [← sub_eq_iff_eq_add] at k
    rw [← k, e, hf]
    unfold coefB
    push_cast
    ring
  · have k := key 1
    have d := der 1
    rw [hE.z1, hE.p1, hE.q1] at d
    rw [← h p q z, ← d, ← hP, ← hQ, ← hZ] at k
    have e := solS_mul_p P Q Z l (j + 1)
    rw [add_sub_cancel_right] at e
    have hr : row3 (E 1 0) (E 1 1) (E 1 (-1)) p q z = -P / 2 := by rw [hP]; unfold mapP; ring
    rw [hr] at k
    unfold rotSumE
    rw [← sub_eq_iff_eq_add] at k
    rw [← k]
    unfold coefC
    push_cast at *
    linear_combination (1 / 2 : ℂ) * e + (1 / 2 : ℂ) * solS P Q Z l (j + 1) * hf
  · have k := key (-1)
    have d := der (-1)
    rw [hE.zm, hE.pm, hE.qm] at d
    rw [← h p q z, ← d, ← hP, ← hQ, ← hZ] at k
    have e := solS_mul_q P Q Z l (j - 1)
    rw [sub_add_cancel] at e
    have hr : row3 (E (-1) 0) (E (-1) 1) (E (-1) (-1)) p q z = Q / 2 := by rw [hQ]; unfold mapQ; ring
    rw [hr] at k
    unfold rotSumE
    rw [← sub_eq_iff_eq_add] at k
    rw [← k]
    unfold coefA
    push_cast at *
    linear_combination -(1 / 2 : ℂ) * e + (1 / 2 : ℂ) * solS P Q Z l (j - 1) * hf

theorem cast_rows {T : Mat} (h : T * T.transpose = 1) (i j : Fin 3) :
    (T i 0 : ℂ) * T j 0 + T i 1 * T j 1 + T i 2 * T j 2 = if i = j then 1 else 0 := by
  have := congrFun (congrFun h i) j
  rw [Matrix.mul_apply, Fin.sum_univ_three, Matrix.one_apply] at this
  simp only [Matrix.transpose_apply] at this
  have h2 := congrArg (fun x : ℝ => (x : ℂ)) this
  push_cast at h2
  rw [h2]
  by_cases e : i = j
  · rw [if_pos e, if_pos e]; simp
  · rw [if_neg e, if_neg e]; simp

/-- An orthogonal matrix gives a rotation of the harmonics with `l=1`. -/
theorem rotE1_isRot {T : Mat} (h : T * T.transpose = 1) : IsRot (rotE1 T) := by
  have h' : T.transpose * T.transpose.transpose = 1 := by
    rw [Matrix.transpose_transpose]; exact mul_eq_one_comm.mp h
  have r00 := cast_rows h 0 0
  have r11 := cast_rows h 1 1
  have r22 := cast_rows h 2 2
  have r01 := cast_rows h 0 1
  have r02 := cast_rows h 0 2
  have r12 := cast_rows h 1 2
  have c00 := cast_rows h' 0 0
  have c11 := cast_rows h' 1 1
  have c22 := cast_rows h' 2 2
  have c01 := cast_rows h' 0 1
  have c02 := cast_rows h' 0 2
  have c12 := cast_rows h' 1 2
  simp only [Matrix.transpose_apply, if_true, Fin.isValue, Fin.reduceEq, if_false] at *
  have hI := Complex.I_mul_I
  have emm : rotE1 T (-1) (-1) = (T 1 1 + T 0 0 + I * (T 0 1 - T 1 0)) / 2 := by norm_num [rotE1]
  have em0 : rotE1 T (-1) 0 = (T 0 2 - I * T 1 2) / 2 := by norm_num [rotE1]
  have em1 : rotE1 T (-1) 1 = (T 1 1 - T 0 0 + I * (T 0 1 + T 1 0)) / 2 := by norm_num [rotE1]
  have e0m : rotE1 T 0 (-1) = T 2 0 + I * T 2 1 := by norm_num [rotE1]
  have e00 : rotE1 T 0 0 = T 2 2 := by norm_num [rotE1]
  have e01 : rotE1 T 0 1 = -T 2 0 + I * T 2 1 := by norm_num [rotE1]
  have e1m : rotE1 T 1 (-1) = (-T 0 0 + T 1 1 - I * (T 0 1 + T 1 0)) / 2 := by norm_num [rotE1]
  have e10 : rotE1 T 1 0 = (-T 0 2 - I * T 1 2) / 2 := by norm_num [rotE1]
  have e11 : rotE1 T 1 1 = (T 0 0 + T 1 1 - I * (T 0 1 - T 1 0)) / 2 := by norm_num [rotE1]
  refine ⟨fun p q z => ?_, ?_, ?_, ?_, ?_, ?_, ?_, ?_, ?_, ?_⟩ <;>
  simp only [mapZ, mapP, mapQ, row3, emm, em0, em1, e0m, e00, e01, e1m, e10, e11] <;>
  clear emm em0 em1 e0m e00 e01 e1m e10 e11 h h'
  all_goals
    generalize (T 0 0 : ℂ) = t00 at *
    generalize (T 0 1 : ℂ) = t01 at *
    generalize (T 0 2 : ℂ) = t02 at *
    generalize (T 1 0 : ℂ) = t10 at *
    generalize (T 1 1 : ℂ) = t11 at *
    generalize (T 1 2 : ℂ) = t12 at *
    generalize (T 2 0 : ℂ) = t20 at *
    generalize (T 2 1 : ℂ) = t21 at *
    generalize (T 2 2 : ℂ) = t22 at *
    generalize I = i at *
  · linear_combination ((p + q) / 2) ^ 2 * c00 - ((p - q) / 2) ^ 2 * c11 + z ^ 2 * c22 + (p + q) * z * c02
      - i * (p + q) / 2 * (p - q) * c01 - i * (p - q) * z * c12 + (-z * p * t12 * t10 - z * q * t12 * t10 - z ^ 2 * t12 ^ 2
      + (p - q) ^ 2 / 4 * (t21 ^ 2 + t01 ^ 2) - (p + q) ^ 2 / 4 * t10 ^ 2) * hI
  · linear_combination r22 + (-t21 * t21) * hI
  · linear_combination r02 + i * r12 + (-t01 * t21) * hI
  · linear_combination r02 - i * r12 + (-t01 * t21) * hI
  · linear_combination -(1 / 2) * (r02 + i * r12) + (1 / 2 * t21 * t01) * hI
  · linear_combination -(1 / 2) * (r00 - r11 + 2 * i * r01) + (1 / 2 * (-t12 ^ 2 + t01 ^ 2 - t10 ^ 2)) * hI
  · linear_combination -(1 / 2) * (r00 + r11) + (1 / 2 * (t12 ^ 2 + t01 ^ 2 + t10 ^ 2)) * hI
  · linear_combination (1 / 2) * (r02 - i * r12) + (-1 / 2 * t21 * t01) * hI
  · linear_combination (1 / 2) * (r00 + r11) + (-1 / 2 * (t12 ^ 2 + t01 ^ 2 + t10 ^ 2)) * hI
  · linear_combination (1 / 2) * (r00 - r11 - 2 * i * r01) + (-1 / 2 * (-t12 ^ 2 + t01 ^ 2 - t10 ^ 2)) * hI

/-! ### The matrices of the code -/

theorem rotD_zero_of_lt (T : Mat) : ∀ (l : ℕ) (m n : ℤ), (l : ℤ) < |n| → rotD T l m n = 0
  | 0, m, n, h => by
    unfold rotD
    rw [if_neg]
    rintro ⟨_, rfl⟩
    simp at h
  | 1, m, n, h => by
    rw [lt_abs] at h
    have h1 : n ≠ -1 := by omega
    have h2 : n ≠ 0 := by omega
    have h3 : n ≠ 1 := by omega
    simp [rotD, rotD1, rotE1, h1, h2, h3]
  | k + 2, m, n, h => by
    rw [lt_abs] at h
    unfold rotD
    simp only
    rw [if_pos (by push_cast at h; omega)]

theorem rotD_succ (T : Mat) (k : ℕ) (m n : ℤ) : rotD T (k + 2) m n =
    if n < -((k : ℤ) + 2) ∨ (k : ℤ) + 2 < n then 0
    else if m = -((k : ℤ) + 2) then
      rotSum T (k + 2) (rotD T (k + 1)) (-1) (-((k : ℤ) + 2) + 1) n / coefA (k + 2) (-((k : ℤ) + 2) + 1)
    else if -((k : ℤ) + 2) + 1 ≤ m ∧ m ≤ (k : ℤ) + 2 - 1 then
      rotSum T (k + 2) (rotD T (k + 1)) 0 m n / coefB (k + 2) m
    else if m = (k : ℤ) + 2 then
      rotSum T (k + 2) (rotD T (k + 1)) 1 ((k : ℤ) + 2 - 1) n / coefC (k + 2) ((k : ℤ) + 2 - 1)
    else 0 := rfl

theorem conj_coefA (l m : ℤ) : starRingEnd ℂ (coefA l m) = coefA l m := by
  unfold coefA; simp [Complex.conj_ofNat]
theorem conj_coefB (l m : ℤ) : starRingEnd ℂ (coefB l m) = coefB l m := by
  unfold coefB; simp
theorem conj_coefC (l m : ℤ) : starRingEnd ℂ (coefC l m) = coefC l m := by
  unfold coefC; simp [Complex.conj_ofNat]

theorem conj_rotSum (T : Mat) (l : ℤ) (D : ℤ → ℤ → ℂ) (i j n : ℤ) :
    starRingEnd ℂ (rotSum T l D i j n) = rotSumE (rotE1 T) l (fun a b => starRingEnd ℂ (D a b)) i j n := by
  unfold rotSum rotSumE rotD1
  simp only [map_add, map_mul, conj_coefA, conj_coefB, conj_coefC, Complex.conj_conj]

/-- The matrices transform the harmonics. -/
theorem rotD_solS {T : Mat} (h : T * T.transpose = 1) : ∀ (l : ℕ) (m : ℤ), |m| ≤ l → ∀ p q z : ℂ,
    solS (mapP (rotE1 T) p q z) (mapQ (rotE1 T) p q z) (mapZ (rotE1 T) p q z) l m =
      ∑ n ∈ Icc (-(l : ℤ)) l, starRingEnd ℂ (rotD T l m n) * solS p q z l n
  | 0, m, hm, p, q, z => by
    obtain rfl : m = 0 := by rw [abs_le] at hm; push_cast at hm; omega
    simp [solS, rotD]
  | 1, m, hm, p, q, z => by
    have hs : Icc (-((1 : ℕ) : ℤ)) ((1 : ℕ) : ℤ) = {-1, 0, 1} := by decide
    rw [hs, Finset.sum_insert (by decide), Finset.sum_insert (by decide), Finset.sum_singleton]
    simp only [rotD, rotD1, Complex.conj_conj]
    have s0 : ∀ p q z : ℂ, solS p q z 1 0 = z := by intro p q z; simp [solS]
    have s1 : ∀ p q z : ℂ, solS p q z 1 1 = -p / 2 := by intro p q z; simp [solS]; ring
    have s2 : ∀ p q z : ℂ, solS p q z 1 (-1) = q / 2 := by intro p q z; simp [solS]
    rw [abs_le] at hm
    push_cast at hm
    obtain rfl | rfl | rfl : m = -1 ∨ m = 0 ∨ m = 1 := by omega
    all_goals
      simp only [s0, s1, s2, mapP, mapQ, mapZ, row3]
      ring
  | k + 2, m, hm, p, q, z => by
    have hE := rotE1_isRot h
    have ih := rotD_solS h (k + 1)
    have hk : ((k + 2 : ℕ) : ℤ) = (k : ℤ) + 2 := by push_cast; ring
    have step : ∀ j : ℤ, |j| ≤ ((k + 1 : ℕ) : ℤ) → _ := fun j hj =>
      rot_step hE k (fun a b => starRingEnd ℂ (rotD T (k + 1) a b))
        (fun a n hn => by rw [rotD_zero_of_lt T _ _ _ hn, map_zero]) j (ih j hj) p q z
    rw [hk, abs_le] at hm
    by_cases ha : m = -((k : ℤ) + 2)
    · have st := (step (-((k : ℤ) + 2) + 1) (by rw [abs_le]; push_cast; omega)).2.2
      have hc : coefA ((k : ℤ) + 2) (-((k : ℤ) + 2) + 1) ≠ 0 := by
        unfold coefA
        push_cast
        rw [show (k : ℂ) + 2 - (-(k + 2) + 1) + 1 = ((2 * k + 4 : ℕ) : ℂ) by push_cast; ring,
          show (k : ℂ) + 2 - (-(k + 2) + 1) = ((2 * k + 3 : ℕ) : ℂ) by push_cast; ring]
        refine div_ne_zero (mul_ne_zero ?_ ?_) two_ne_zero <;> exact Nat.cast_ne_zero.2 (by omega)
      rw [add_sub_cancel_right, ← ha] at st
      refine mul_left_cancel₀ hc ?_
      rw [← ha, st, Finset.mul_sum]
      refine Finset.sum_congr rfl fun n hn => ?_
      rw [Finset.mem_Icc] at hn
      rw [rotD_succ, if_neg (by push_cast at hn; omega), if_pos ha, map_div₀, conj_rotSum, conj_coefA, ← ha]
      rw [← ha] at hc
      field_simp
    · by_cases hb : m = (k : ℤ) + 2
      · have st := (step ((k : ℤ) + 2 - 1) (by rw [abs_le]; push_cast; omega)).2.1
        have hc : coefC ((k : ℤ) + 2) ((k : ℤ) + 2 - 1) ≠ 0 := by
          unfold coefC
          push_cast
          rw [show (k : ℂ) + 2 + (k + 2 - 1) + 1 = ((2 * k + 4 : ℕ) : ℂ) by push_cast; ring,
            show (k : ℂ) + 2 + (k + 2 - 1) = ((2 * k + 3 : ℕ) : ℂ) by push_cast; ring]
          refine div_ne_zero (mul_ne_zero ?_ ?_) two_ne_zero <;> exact Nat.cast_ne_zero.2 (by omega)
        rw [sub_add_cancel, ← hb] at st
        refine mul_left_cancel₀ hc ?_
        rw [← hb, st, Finset.mul_sum]
        refine Finset.sum_congr rfl fun n hn => ?_
        rw [Finset.mem_Icc] at hn
        rw [rotD_succ, if_neg (by push_cast at hn; omega), if_neg ha, if_neg (by omega), if_pos hb, map_div₀, conj_rotSum,
          conj_coefC, ← hb]
        rw [← hb] at hc
        field_simp
      · have st := (step m (by rw [abs_le]; push_cast; omega)).1
        have hc : coefB ((k : ℤ) + 2) m ≠ 0 := by
          unfold coefB
          have h1 : (k : ℤ) + 2 + m ≠ 0 := by omega
          have h2 : (k : ℤ) + 2 - m ≠ 0 := by omega
          exact mul_ne_zero (by exact_mod_cast h1) (by exact_mod_cast h2)
        refine mul_left_cancel₀ hc ?_
        rw [st, Finset.mul_sum]
        refine Finset.sum_congr rfl fun n hn => ?_
        rw [Finset.mem_Icc] at hn
        rw [rotD_succ, if_neg (by push_cast at hn; omega), if_neg ha, if_pos (by omega), map_div₀, conj_rotSum, conj_coefB]
        field_simp

/-- The harmonics of a rotated vector. -/
theorem solV_rot {T : Mat} (h : T * T.transpose = 1) (l : ℕ) (m : ℤ) (hm : |m| ≤ l) (v : Vec) :
    solV l m (T.mulVec v) = ∑ n ∈ Icc (-(l : ℤ)) l, starRingEnd ℂ (rotD T l m n) * solV l n v := by
  have := rotD_solS h l m hm (v 0 + v 1 * I) (v 0 - v 1 * I) (v 2)
  unfold solV
  rw [← this]
  have hI := Complex.I_mul_I
  have hv : ∀ i, ((T.mulVec v i : ℝ) : ℂ) = T i 0 * v 0 + T i 1 * v 1 + T i 2 * v 2 := by
    intro i
    rw [Matrix.mulVec, dotProduct, Fin.sum_univ_three]; push_cast; ring
  congr 1
  · rw [hv, hv]
    simp only [mapP, row3, rotE1]
    norm_num
    linear_combination ((T 0 1 : ℂ) * v 1) * hI
  · rw [hv, hv]
    simp only [mapQ, row3, rotE1]
    norm_num
    linear_combination ((T 0 1 : ℂ) * v 1) * hI
  · rw [hv]
    simp only [mapZ, row3, rotE1]
    norm_num
    linear_combination ((T 2 1 : ℂ) * v 1) * hI

/-- The moments of rotated charges. -/
theorem momV_rot {T : Mat} (h : T * T.transpose = 1) (qr : List (ℝ × Vec)) (c : Vec) (l : ℕ) (m : ℤ) (hm : |m| ≤ l) :
    momV (qr.map fun a => (a.1, c + T.mulVec (a.2 - c))) c l m =
      ∑ n ∈ Icc (-(l : ℤ)) l, rotD T l m n * momV qr c l n := by
  unfold momV
  induction qr with
  | nil => simp
  | cons a qr ih =>
    simp only [List.map_cons, List.sum_cons, mul_add, Finset.sum_add_distrib, ih]
    congr 1
    rw [add_sub_cancel_left, solV_rot h l m hm, map_sum, Finset.mul_sum]
    refine Finset.sum_congr rfl fun n _ => ?_
    rw [map_mul, Complex.conj_conj]
    ring

theorem transform_isMoments (T : Mat) (h : T * T.transpose = 1) (lmax : ℕ) (M : Moments)
    (qr : List (ℝ × Vec)) (c : Vec) (hM : IsMoments lmax M qr c) :
    IsMoments lmax (transformMoments T lmax M) (qr.map fun a => (a.1, c + T.mulVec (a.2 - c))) c := by
  have hM' := (isMoments_iff _ _ _ _).1 hM
  have key : ∀ (l : ℕ) (n : ℤ), l ≤ lmax → |n| ≤ l → matDot l (rotD T l) M n =
      momV (qr.map fun a => (a.1, c + T.mulVec (a.2 - c))) c l n := by
    intro l n hl hn
    rw [momV_rot h qr c l n hn, sum_Icc_sym]
    unfold matDot
    rw [hM'.1 l hl]
    congr 1
    refine Finset.sum_congr rfl fun m hm => ?_
    rw [Finset.mem_Icc] at hm
    rw [hM'.2 l m hm.1 hm.2 hl, momV_neg_m, zpow_natCast]
    ring
  rw [isMoments_iff]
  constructor
  · intro l hl
    simp only [transformMoments, storeL0, if_pos hl]
    by_cases h0 : l = 0
    · subst h0
      rw [if_pos rfl, momV_rot h qr c 0 0 (by simp), hM'.1 0 hl]
      simp [rotD]
    · rw [if_neg h0, ← momV_real, ← key l 0 hl (by simp)]
      congr 1
      unfold matDot0 matDot
      rw [Complex.add_re, Complex.re_sum]
      congr 1
      rw [Complex.mul_re, Complex.ofReal_im, Complex.ofReal_re]; ring
  · intro l m h1 h2 h3
    simp only [transformMoments]
    rw [storeLM_of_le _ _ _ h1 h2 h3]
    exact key l m h3 (by rw [abs_of_nonneg (by omega)]; omega)

end Hotbit
