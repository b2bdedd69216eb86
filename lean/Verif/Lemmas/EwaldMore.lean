import Verif.Lemmas.EwaldOrtho

/-! Helper lemmas for the Ewald sum: images, symmetry, screened sums, cutoffs. -/

namespace Hotbit

open Real Filter Topology Matrix

theorem ix_add_lat (M : Mat) (n m : Ix) : latVec M (n + m) = latVec M n + latVec M m := by
  funext j; simp [latVec]; ring

theorem ix_neg_lat (M : Mat) (n : Ix) : latVec M (-n) = -latVec M n := by
  funext j; simp [latVec]; ring

/-- The real-space sum does not see which image was meant. -/
theorem real_image (α : ℝ) (cell : Mat) (x : Vec) (m : Ix) :
    ∑' n, realTerm α (sqNorm (x + latVec cell m - latVec cell n)) =
      ∑' n, realTerm α (sqNorm (x - latVec cell n)) := by
  rw [← (Equiv.addRight m).tsum_eq]
  refine tsum_congr fun n => ?_
  congr 2
  simp only [Equiv.coe_addRight, ix_add_lat]
  abel

theorem rec_image (L : Vec) (hL : ∀ k, 0 < L k) (n m : Ix) (x : Vec) :
    cos (recVec (Matrix.diagonal L) n ⬝ᵥ (x + latVec (Matrix.diagonal L) m)) =
      cos (recVec (Matrix.diagonal L) n ⬝ᵥ x) := by
  have h : recVec (Matrix.diagonal L) n ⬝ᵥ latVec (Matrix.diagonal L) m =
      ((n.1 * m.1 + n.2.1 * m.2.1 + n.2.2 * m.2.2 : ℤ) : ℝ) * (2 * π) := by
    simp only [dotProduct, Fin.sum_univ_three, recVec_diag L hL, latVec_diag, zvec]
    have h0 := (hL 0).ne'; have h1 := (hL 1).ne'; have h2 := (hL 2).ne'
    simp
    field_simp
  rw [dotProduct_add, h, cos_add_int_mul_two_pi]

theorem kernel_image (α : ℝ) (L : Vec) (hL : ∀ k, 0 < L k) (x : Vec) (m : Ix) :
    ewKernel α (Matrix.diagonal L) (x + latVec (Matrix.diagonal L) m) =
      ewKernel α (Matrix.diagonal L) x := by
  unfold ewKernel
  rw [real_image]
  simp only [rec_image L hL]

theorem ixBox_neg (m : Fin 3 → ℤ) (n : Ix) : -n ∈ ixBox m ↔ n ∈ ixBox m := by
  simp only [ixBox, Finset.mem_product, Finset.mem_Icc, Prod.fst_neg, Prod.snd_neg]
  constructor <;> rintro ⟨h1, h2, h3⟩ <;> refine ⟨?_, ?_, ?_⟩ <;> constructor <;> omega

theorem box_symm (f : Vec → ℝ) (hf : ∀ v, f (-v) = f v) (cell : Mat) (m : Fin 3 → ℤ) (x : Vec) :
    ∑ n ∈ ixBox m, f (-x - latVec cell n) = ∑ n ∈ ixBox m, f (x - latVec cell n) := by
  refine Finset.sum_equiv (Equiv.neg Ix) (fun n => ?_) fun n _ => ?_
  · rw [Equiv.neg_apply, ixBox_neg]
  · rw [Equiv.neg_apply, ix_neg_lat, ← hf]
    congr 1
    abel

open Classical in
/-- The screened sum over images is the real-space sum without the self-interaction. -/
theorem screened_eq {N : ℕ} (c : ℝ) (hc : 0 < c) (cell : Mat) (hM : cell.det ≠ 0) (r : Fin N → Vec)
    (q : Fin N → ℝ) (i : Fin N) (ha : Apart cell r) :
    screened c cell r q i = ∑ j, q j * ∑' n, realTerm (1 / c ^ 2) (sqNorm (r i - r j - latVec cell n)) +
      q i * (2 * √(1 / c ^ 2 / π)) := by
  have hα : 0 < 1 / c ^ 2 := by positivity
  have hsq : √(1 / c ^ 2) = 1 / c := by
    rw [Real.sqrt_div' _ (by positivity), Real.sqrt_one, Real.sqrt_sq hc.le]
  have hne : ∀ j n, ¬ (j = i ∧ n = (0, 0, 0)) → sqNorm (r i - r j - latVec cell n) ≠ 0 := by
    intro j n h
    rw [Ne, sqNorm_eq_zero, sub_eq_zero]
    by_cases hj : j = i
    · subst hj
      rw [sub_self]
      intro h0
      exact h ⟨rfl, (latVec_eq_zero cell hM n).1 h0.symm⟩
    · rw [← latticeVector_eq]
      exact ha i j (Ne.symm hj) n
  have hterm : ∀ j, (∑' n : Ix, if j = i ∧ n = (0, 0, 0) then 0
      else coulPot (some c) (vecLen (r i - r j - latticeVector cell n))) =
      ∑' n, realTerm (1 / c ^ 2) (sqNorm (r i - r j - latVec cell n)) +
        if j = i then 2 * √(1 / c ^ 2 / π) else 0 := by
    intro j
    have h1 : ∀ n : Ix, (if j = i ∧ n = (0, 0, 0) then 0
        else coulPot (some c) (vecLen (r i - r j - latticeVector cell n))) =
        realTerm (1 / c ^ 2) (sqNorm (r i - r j - latVec cell n)) +
          if n = (0, 0, 0) then (if j = i then 2 * √(1 / c ^ 2 / π) else 0) else 0 := by
      intro n
      by_cases h : j = i ∧ n = (0, 0, 0)
      · rw [if_pos h, if_pos h.2, if_pos h.1, h.1, h.2, (latVec_eq_zero cell hM (0, 0, 0)).2 rfl]
        rw [realTerm, if_pos (by simp [sqNorm])]
        ring
      · rw [if_neg h, realTerm, if_neg (hne j n h), hsq, vecLen_eq, latticeVector_eq]
        have h2 : (if n = (0, 0, 0) then (if j = i then 2 * √(1 / c ^ 2 / π) else 0) else 0) = 0 := by
          by_cases hn : n = (0, 0, 0)
          · rw [if_pos hn, if_neg fun hj => h ⟨hj, hn⟩]
          · rw [if_neg hn]
        rw [h2, add_zero]
        show erfc (_ / c) / _ = _
        congr 2
        ring
    rw [tsum_congr h1, ((discrete_lat cell hM (r i - r j)).real_summable _ hα).tsum_add
      (hasSum_ite_eq _ _).summable, tsum_ite_eq]
  unfold screened
  simp only [hterm, mul_add, Finset.sum_add_distrib]
  congr 1
  simp

theorem exp_acc (acc α : ℝ) (hacc : 0 ≤ acc) (hα : 0 < α) :
    exp (-(ewGcut acc α) ^ 2 / (4 * α)) = 10 ^ (-acc) ∧ exp (-α * (ewRcut acc α) ^ 2) = 10 ^ (-acc) := by
  have h := log10_pos
  have h10 : (10 : ℝ) ^ (-acc) = exp (-(log 10 * acc)) := by
    rw [Real.rpow_def_of_pos (by norm_num)]; ring_nf
  rw [h10, ewGcut, ewRcut, mul_pow, Real.sq_sqrt (by positivity), Real.sq_sqrt (by positivity)]
  constructor <;> congr 1 <;> field_simp
  ring

theorem not_mem_ixBox (m : Fin 3 → ℤ) (n : Ix) (h : n ∉ ixBox m) :
    ∃ k : Fin 3, (m k : ℝ) + 1 ≤ |zvec n k| := by
  by_contra hcon
  push Not at hcon
  apply h
  have key : ∀ (k : Fin 3) (z : ℤ), zvec n k = z → -m k ≤ z ∧ z ≤ m k := by
    intro k z hz
    have h1 := hcon k
    rw [hz, ← Int.cast_abs] at h1
    have h2 : |z| < m k + 1 := by exact_mod_cast h1
    exact abs_le.1 (by omega)
  simp only [ixBox, Finset.mem_product, Finset.mem_Icc]
  exact ⟨key 0 _ (by simp [zvec]), key 1 _ (by simp [zvec]), key 2 _ (by simp [zvec])⟩

theorem sqNorm_ge (v : Vec) (k : Fin 3) : v k ^ 2 ≤ sqNorm v := by
  rw [sq]
  exact Finset.single_le_sum (f := fun j => v j * v j) (fun j _ => mul_self_nonneg _) (Finset.mem_univ k)

theorem pyInt_lt (x : ℝ) (hx : 0 ≤ x) : x < (pyInt x : ℝ) + 1 := by
  rw [pyInt, if_pos hx]; exact Int.lt_floor_add_one x

theorem cellLen_diag (L : Vec) (hL : ∀ k, 0 < L k) (k : Fin 3) :
    cellLen (Matrix.diagonal L) k = L k := by
  unfold cellLen
  rw [Finset.sum_eq_single k, Matrix.diagonal_apply_eq, Real.sqrt_sq (hL k).le]
  · intro j _ hj; rw [Matrix.diagonal_apply_ne _ (Ne.symm hj)]; simp
  · simp

theorem recLen_diag (L : Vec) (hL : ∀ k, 0 < L k) (k : Fin 3) :
    recLen (Matrix.diagonal L) k = 1 / L k := by
  unfold recLen
  rw [inv_diag L hL, Finset.sum_eq_single k, Matrix.diagonal_apply_eq, Real.sqrt_sq]
  · have := hL k; positivity
  · intro j _ hj; rw [Matrix.diagonal_apply_ne _ hj]; simp
  · simp

end Hotbit
