import Verif.Lemmas.EwaldMore

/-!
# C119: the Ewald sum

In cells with orthogonal sides the Ewald potentials of a neutral system converge, with the accuracy
goal, to values that do not depend on the splitting weight, do not depend on which periodic image of an
atom is used, and are the limit of the direct sums as their screening is removed. For skewed cells the
reciprocal lattice of the code is wrong and even the choice of the image changes the converged result.
-/

namespace Hotbit

open Real Filter Topology Matrix

/-- The converged potentials are unique. -/
theorem c119_unique {N : ℕ} (w : ℝ) (cell : Mat) (r : Fin N → Vec) (q φ ψ : Fin N → ℝ)
    (h : Converges w cell r q φ) (h' : Converges w cell r q ψ) : φ = ψ := by
  obtain ⟨f, hf, hl⟩ := h
  obtain ⟨g, hg, hl'⟩ := h'
  funext i
  refine tendsto_nhds_unique (hl i) ((hl' i).congr' ?_)
  filter_upwards [eventually_ge_atTop 0] with acc hacc
  have := (hf acc hacc).symm.trans (hg acc hacc)
  injection this with h
  rw [h]

/-- Which inputs are accepted. -/
theorem c119_accepts {N : ℕ} (acc w : ℝ) (cell : Mat) (r : Fin N → Vec) (q : Fin N → ℝ) :
    (∃ φ, ewPotential acc w cell r q = .ok φ) ↔ cell.det ≠ 0 ∧ N ≠ 0 ∧ 0 < w ∧ 0 ≤ acc := by
  unfold ewPotential
  split_ifs with h
  · simp only [reduceCtorEq, exists_const, false_iff]
    intro hc
    rcases h with h | h | h | h
    · exact hc.1 h
    · exact hc.2.1 h
    · linarith [hc.2.2.1]
    · linarith [hc.2.2.2]
  · push Not at h
    exact ⟨fun _ => h, fun _ => ⟨_, rfl⟩⟩

theorem ew_accept {N : ℕ} {acc w : ℝ} {cell : Mat} {r : Fin N → Vec} {q φ : Fin N → ℝ}
    (h : ewPotential acc w cell r q = .ok φ) : (cell.det ≠ 0 ∧ N ≠ 0 ∧ 0 < w ∧ 0 ≤ acc) ∧
      φ = fun i => ewRec acc (ewAlpha w N cell) cell r q i + ewReal acc (ewAlpha w N cell) cell r q i -
        2 * q i * √(ewAlpha w N cell / π) := by
  have h1 := (c119_accepts acc w cell r q).1 ⟨φ, h⟩
  refine ⟨h1, ?_⟩
  rw [ewPotential, if_neg (by push Not; exact h1)] at h
  injection h with h
  exact h.symm

/-- Potentials of superposed charges are superposed, at every accuracy. -/
theorem c119_superposition {N : ℕ} (acc w : ℝ) (cell : Mat) (r : Fin N → Vec) (p q φ ψ : Fin N → ℝ)
    (a b : ℝ) (hp : ewPotential acc w cell r p = .ok φ) (hq : ewPotential acc w cell r q = .ok ψ) :
    ewPotential acc w cell r (fun i => a * p i + b * q i) = .ok fun i => a * φ i + b * ψ i := by
  obtain ⟨hok, hφ⟩ := ew_accept hp
  obtain ⟨_, hψ⟩ := ew_accept hq
  rw [ewPotential, if_neg (by push Not; exact hok)]
  simp only [hφ, hψ]
  congr 1
  funext i
  set α := ewAlpha w N cell
  have h1 : ewRec acc α cell r (fun i => a * p i + b * q i) i =
      a * ewRec acc α cell r p i + b * ewRec acc α cell r q i := by
    simp only [ewRec_eq, Finset.mul_sum, ← Finset.sum_add_distrib]
    exact Finset.sum_congr rfl fun j _ => Finset.sum_congr rfl fun n _ => by ring
  have h2 : ewReal acc α cell r (fun i => a * p i + b * q i) i =
      a * ewReal acc α cell r p i + b * ewReal acc α cell r q i := by
    simp only [ewReal, mul_add, Finset.mul_sum]
    rw [add_add_add_comm, ← Finset.sum_add_distrib, ← Finset.sum_add_distrib]
    congr 1
    · refine Finset.sum_congr rfl fun n _ => ?_
      split_ifs
      · rw [Finset.mul_sum, Finset.mul_sum, ← Finset.sum_add_distrib]
        exact Finset.sum_congr rfl fun j _ => by ring
      · ring
    · refine Finset.sum_congr rfl fun j _ => ?_
      split_ifs <;> ring
  rw [h1, h2]
  ring

/-- The interaction of one set of charges with another is symmetric, at every accuracy. -/
theorem c119_reciprocity {N : ℕ} (acc w : ℝ) (cell : Mat) (r : Fin N → Vec) (p q φ ψ : Fin N → ℝ)
    (ha : Apart cell r) (hp : ewPotential acc w cell r p = .ok φ)
    (hq : ewPotential acc w cell r q = .ok ψ) : ∑ i, q i * φ i = ∑ i, p i * ψ i := by
  obtain ⟨hok, hφ⟩ := ew_accept hp
  obtain ⟨_, hψ⟩ := ew_accept hq
  set α := ewAlpha w N cell
  have hα : 0 < α := ewAlpha_pos w N cell hok.1 hok.2.1 hok.2.2.1
  have hbox : ∀ k, 0 ≤ maxR acc α cell k := by
    intro k
    have h0 : 0 ≤ ewRcut acc α / cellLen cell k :=
      div_nonneg (Real.sqrt_nonneg _) (cellLen_pos cell hok.1 k).le
    have h1 : 0 ≤ ⌊ewRcut acc α / cellLen cell k⌋ := Int.floor_nonneg.2 h0
    rw [maxR, pyInt, if_pos h0]; omega
  set K : Fin N → Fin N → ℝ := fun i j => 4 * π / |cell.det| *
      ∑ n ∈ ixBox (maxG acc α cell), recTerm α (sqNorm (recVec cell n))
        (cos (recVec cell n ⬝ᵥ (r i - r j))) +
      ∑ n ∈ ixBox (maxR acc α cell), realTerm α (sqNorm (r i - r j - latVec cell n)) with hK
  have hsymm : ∀ i j, K i j = K j i := by
    intro i j
    simp only [hK]
    have h1 : r i - r j = -(r j - r i) := by abel
    rw [h1]
    congr 1
    · congr 1
      refine Finset.sum_congr rfl fun n _ => ?_
      rw [dotProduct_neg, cos_neg]
    · exact box_symm (fun v => realTerm α (sqNorm v)) (fun v => by rw [sqNorm_neg]) cell _ _
  have hval : ∀ (e : Fin N → ℝ) (i : Fin N), ewRec acc α cell r e i + ewReal acc α cell r e i -
      2 * e i * √(α / π) = ∑ j, e j * K i j := by
    intro e i
    rw [add_sub_assoc, ewRec_eq, ewReal_eq acc α cell r e i hok.1 ha hbox, ← Finset.sum_add_distrib]
    exact Finset.sum_congr rfl fun j _ => by simp only [hK]; ring
  rw [hφ, hψ]
  simp only [hval, Finset.mul_sum]
  rw [Finset.sum_comm]
  refine Finset.sum_congr rfl fun j _ => Finset.sum_congr rfl fun i _ => ?_
  rw [hsymm i j]; ring

/-- Moving all atoms together does not change anything. -/
theorem c119_translation {N : ℕ} (acc w : ℝ) (cell : Mat) (r : Fin N → Vec) (q : Fin N → ℝ) (t : Vec) :
    ewPotential acc w cell (fun i => r i + t) q = ewPotential acc w cell r q := by
  have h1 : ∀ α i, ewRec acc α cell (fun i => r i + t) q i = ewRec acc α cell r q i := by
    intro α i
    rw [ewRec_eq, ewRec_eq]
    simp only [add_sub_add_right_eq_sub]
  have h2 : ∀ n i j, ewDist cell (fun i => r i + t) n i j = ewDist cell r n i j := by
    intro n i j
    rw [ewDist_eq, ewDist_eq]
    simp only [add_sub_add_right_eq_sub]
  unfold ewPotential ewReal
  simp only [h1, h2]

/-- In cells with orthogonal sides, the potentials of neutral charges converge to values that depend
neither on the weight nor on the route of the summation: they are also the limit of the direct sums. -/
theorem c119_converges {N : ℕ} (cell : Mat) (r : Fin N → Vec) (q : Fin N → ℝ) (hN : 0 < N)
    (hcell : Orthorhombic cell) (hq : ∑ i, q i = 0) (ha : Apart cell r) :
    ∃ φ : Fin N → ℝ, (∀ w, 0 < w → Converges w cell r q φ) ∧
      ∀ i, Tendsto (fun c => screened c cell r q i) atTop (𝓝 (φ i)) := by
  obtain ⟨L, hL, rfl⟩ := hcell
  have hV : 0 < L 0 * L 1 * L 2 := by have := hL 0; have := hL 1; have := hL 2; positivity
  have hM : (Matrix.diagonal L : Mat).det ≠ 0 := by rw [det_diag]; exact hV.ne'
  choose κ hκ using kernel_const L hL
  have hsum : ∀ (i : Fin N) (a : ℝ), ∑ j, q j * (κ (r i - r j) + a) = ∑ j, q j * κ (r i - r j) := by
    intro i a
    simp only [mul_add, Finset.sum_add_distrib, ← Finset.sum_mul, hq, zero_mul, add_zero]
  refine ⟨fun i => ∑ j, q j * κ (r i - r j), fun w hw => ?_, fun i => ?_⟩
  · refine ew_limit w _ r q _ hM hN.ne' hw ha fun i => ?_
    rw [← hsum i (π / (L 0 * L 1 * L 2 * ewAlpha w N (Matrix.diagonal L)))]
    exact Finset.sum_congr rfl fun j _ => by
      rw [hκ _ _ (ewAlpha_pos w N _ hM hN.ne' hw)]
  · have hc0 : Tendsto (fun c : ℝ => 1 / c ^ 2) atTop (𝓝[>] 0) := by
      refine tendsto_nhdsWithin_iff.2 ⟨?_, ?_⟩
      · simp only [one_div]
        exact tendsto_inv_atTop_zero.comp (tendsto_pow_atTop two_ne_zero)
      · filter_upwards [eventually_gt_atTop 0] with c hc
        exact Set.mem_Ioi.2 (by positivity)
    have hrec : ∀ j, Tendsto (fun c : ℝ => 4 * π / |(Matrix.diagonal L : Mat).det| *
        ∑' n, recTerm (1 / c ^ 2) (sqNorm (recVec (Matrix.diagonal L) n))
          (cos (recVec (Matrix.diagonal L) n ⬝ᵥ (r i - r j)))) atTop (𝓝 0) := by
      intro j
      have h := ((discrete_rec _ hM).rec_tendsto
        (c := fun n => cos (recVec (Matrix.diagonal L) n ⬝ᵥ (r i - r j)))
        (fun n => abs_cos_le_one _)).comp hc0
      simpa using h.const_mul (4 * π / |(Matrix.diagonal L : Mat).det|)
    have hself : Tendsto (fun c : ℝ => q i * (2 * √(1 / c ^ 2 / π))) atTop (𝓝 0) := by
      have h1 : Tendsto (fun a : ℝ => q i * (2 * √(a / π))) (𝓝[>] 0) (𝓝 (q i * (2 * √(0 / π)))) := by
        refine Tendsto.mono_left ?_ nhdsWithin_le_nhds
        exact (by fun_prop : Continuous fun a : ℝ => q i * (2 * √(a / π))).tendsto 0
      have h2 := h1.comp hc0
      simpa [Function.comp_def] using h2
    have hmain := ((tendsto_finset_sum Finset.univ fun j (_ : j ∈ Finset.univ) =>
      (hrec j).const_mul (q j)).const_sub (∑ j, q j * κ (r i - r j))).add hself
    simp only [mul_zero, Finset.sum_const_zero, sub_zero, add_zero] at hmain
    refine hmain.congr' ?_
    filter_upwards [eventually_gt_atTop 0] with c hc
    rw [screened_eq c hc _ hM r q i ha]
    congr 1
    rw [← hsum i (π / (L 0 * L 1 * L 2 * (1 / c ^ 2))), ← Finset.sum_sub_distrib]
    refine Finset.sum_congr rfl fun j _ => ?_
    rw [← hκ (r i - r j) (1 / c ^ 2) (by positivity), ewKernel]
    ring

/-- The energies converge as well, to half the sum of charges times potentials. -/
theorem c119_energy {N : ℕ} (unit : ℝ) (cell : Mat) (r : Fin N → Vec) (q : Fin N → ℝ) (hN : 0 < N)
    (hcell : Orthorhombic cell) (hq : ∑ i, q i = 0) (ha : Apart cell r) :
    ∃ E : ℝ, (∀ w, 0 < w → ∃ f : ℝ → ℝ, (∀ acc, 0 ≤ acc → ewEnergy unit acc w cell r q = .ok (f acc)) ∧
      Tendsto f atTop (𝓝 E)) ∧
      Tendsto (fun c => unit * (∑ i, q i * screened c cell r q i) / 2) atTop (𝓝 E) := by
  obtain ⟨φ, h1, h2⟩ := c119_converges cell r q hN hcell hq ha
  refine ⟨unit * (∑ i, q i * φ i) / 2, fun w hw => ?_, ?_⟩
  · obtain ⟨f, hf, hl⟩ := h1 w hw
    refine ⟨fun acc => unit * (∑ i, q i * f acc i) / 2, fun acc hacc => ?_, ?_⟩
    · rw [ewEnergy, hf acc hacc]
    · exact ((tendsto_finset_sum _ fun i _ => (hl i).const_mul (q i)).const_mul unit).div_const 2
  · exact ((tendsto_finset_sum _ fun i _ => (h2 i).const_mul (q i)).const_mul unit).div_const 2

/-- In cells with orthogonal sides, replacing atoms by images of them leaves the converged potentials
as they are, also for charged systems. -/
theorem c119_images {N : ℕ} (w : ℝ) (cell : Mat) (r : Fin N → Vec) (q φ : Fin N → ℝ)
    (hcell : Orthorhombic cell) (ha : Apart cell r) (h : Converges w cell r q φ) (m : Fin N → Ix) :
    Converges w cell (fun i => r i + latticeVector cell (m i)) q φ := by
  obtain ⟨L, hL, rfl⟩ := hcell
  have hok : (Matrix.diagonal L : Mat).det ≠ 0 ∧ N ≠ 0 ∧ 0 < w ∧ 0 ≤ (0 : ℝ) := by
    obtain ⟨f, hf, _⟩ := h
    exact (c119_accepts 0 w _ r q).1 ⟨_, hf 0 le_rfl⟩
  have h1 := ew_limit w _ r q _ hok.1 hok.2.1 hok.2.2.1 ha fun i => rfl
  rw [c119_unique w _ r q _ _ h h1]
  refine ew_limit w _ _ q _ hok.1 hok.2.1 hok.2.2.1 ?_ fun i => ?_
  · intro i j hij n hn
    refine ha i j hij (n - m i + m j) ?_
    simp only [latticeVector_eq] at hn ⊢
    rw [sub_eq_add_neg n, ix_add_lat, ix_add_lat, ix_neg_lat, ← hn]
    abel
  · refine Finset.sum_congr rfl fun j _ => ?_
    rw [← kernel_image _ L hL (r i - r j) (m i - m j)]
    congr 2
    simp only [latticeVector_eq]
    rw [sub_eq_add_neg (m i), ix_add_lat, ix_neg_lat]
    abel

/-- In cells with orthogonal sides and with all atoms within one cell, every wave and every image that
is left out is damped to at most `10^-accuracy`. -/
theorem c119_cutoff_partial {N : ℕ} (acc w : ℝ) (cell : Mat) (r : Fin N → Vec) (L : Vec)
    (hL : ∀ k, 0 < L k) (hcell : cell = Matrix.diagonal L) (hN : 0 < N) (hw : 0 < w) (hacc : 0 ≤ acc)
    (hr : ∀ i j k, |r i k - r j k| ≤ L k) :
    (∀ n, n ∉ ixBox (maxG acc (ewAlpha w N cell) cell) →
      exp (-sqNorm (recVec cell n) / (4 * ewAlpha w N cell)) ≤ 10 ^ (-acc)) ∧
    ∀ n, n ∉ ixBox (maxR acc (ewAlpha w N cell) cell) → ∀ i j,
      erfc (√(ewAlpha w N cell) * ewDist cell r n i j) ≤ 10 ^ (-acc) := by
  subst hcell
  have hV : 0 < L 0 * L 1 * L 2 := by have := hL 0; have := hL 1; have := hL 2; positivity
  have hM : (Matrix.diagonal L : Mat).det ≠ 0 := by rw [det_diag]; exact hV.ne'
  set α := ewAlpha w N (Matrix.diagonal L)
  have hα : 0 < α := ewAlpha_pos w N _ hM hN.ne' hw
  have hπ := Real.pi_pos
  obtain ⟨hG, hR⟩ := exp_acc acc α hacc hα
  have hG0 : 0 ≤ ewGcut acc α := by unfold ewGcut; positivity
  have hR0 : 0 ≤ ewRcut acc α := by unfold ewRcut; positivity
  constructor
  · intro n hn
    obtain ⟨k, hk⟩ := not_mem_ixBox _ n hn
    have hLk := hL k
    have h1 : 0 ≤ ewGcut acc α / (2 * π * recLen (Matrix.diagonal L) k) := by
      rw [recLen_diag L hL]; positivity
    have h2 := pyInt_lt _ h1
    rw [maxG] at hk
    push_cast at hk
    have h3 : ewGcut acc α / (2 * π * recLen (Matrix.diagonal L) k) ≤ |zvec n k| := by linarith
    rw [recLen_diag L hL, div_le_iff₀ (by positivity)] at h3
    have h4 : ewGcut acc α ≤ |recVec (Matrix.diagonal L) n k| := by
      rw [recVec_diag L hL, abs_div, abs_mul, abs_of_pos (by positivity : 0 < 2 * π), abs_of_pos hLk]
      refine h3.trans (le_of_eq ?_)
      ring
    have h5 : ewGcut acc α ^ 2 ≤ sqNorm (recVec (Matrix.diagonal L) n) := by
      refine le_trans ?_ (sqNorm_ge _ k)
      rw [← sq_abs (recVec (Matrix.diagonal L) n k)]
      gcongr
    rw [← hG]
    refine exp_le_exp.2 ?_
    rw [neg_div, neg_div]
    exact neg_le_neg (by gcongr)
  · intro n hn i j
    obtain ⟨k, hk⟩ := not_mem_ixBox _ n hn
    have hLk := hL k
    have h1 : 0 ≤ ewRcut acc α / cellLen (Matrix.diagonal L) k := by
      rw [cellLen_diag L hL]; positivity
    have h2 := pyInt_lt _ h1
    rw [maxR] at hk
    push_cast at hk
    have h3 : ewRcut acc α / cellLen (Matrix.diagonal L) k + 1 ≤ |zvec n k| := by linarith
    rw [cellLen_diag L hL] at h3
    have h4 : ewRcut acc α + L k ≤ |zvec n k * L k| := by
      rw [abs_mul, abs_of_pos hLk]
      have := mul_le_mul_of_nonneg_right h3 hLk.le
      have e : (ewRcut acc α / L k + 1) * L k = ewRcut acc α + L k := by field_simp
      linarith
    have h5 : ewRcut acc α ≤ |(r i - r j - latVec (Matrix.diagonal L) n) k| := by
      have h6 : (r i - r j - latVec (Matrix.diagonal L) n) k = (r i k - r j k) - zvec n k * L k := by
        simp [latVec_diag]
      rw [h6, abs_sub_comm]
      have h7 := abs_sub_abs_le_abs_sub (zvec n k * L k) (r i k - r j k)
      linarith [hr i j k]
    have h6 : ewRcut acc α ^ 2 ≤ sqNorm (r i - r j - latVec (Matrix.diagonal L) n) := by
      refine le_trans ?_ (sqNorm_ge _ k)
      rw [← sq_abs ((r i - r j - latVec (Matrix.diagonal L) n) k)]
      gcongr
    rw [ewDist_eq]
    refine (erfc_le_gauss _ (mul_nonneg (Real.sqrt_nonneg _) (Real.sqrt_nonneg _))).trans ?_
    rw [← hR, mul_pow, Real.sq_sqrt hα.le, Real.sq_sqrt (sqNorm_nonneg _)]
    refine exp_le_exp.2 ?_
    rw [neg_mul]
    exact neg_le_neg (by gcongr)

/-- A skewed cell. -/
noncomputable def skewCell : Mat := !![1, 0, 0; 1/2, 1, 0; 0, 0, 1]

theorem skew_det : skewCell.det = 1 := by
  simp [skewCell, Matrix.det_fin_three]

theorem skew_inv : skewCell⁻¹ = !![1, 0, 0; -1/2, 1, 0; 0, 0, 1] := by
  refine Matrix.inv_eq_right_inv ?_
  ext i j
  fin_cases i <;> fin_cases j <;> simp [skewCell, Matrix.mul_apply, Fin.sum_univ_three] <;>
    norm_num

theorem skew_rec (n : Ix) (x : Vec) : recVec skewCell n ⬝ᵥ x =
    2 * π * ((n.1 - n.2.1 / 2) * x 0 + n.2.1 * x 1 + n.2.2 * x 2) := by
  simp [recVec, latVec, skew_inv, dotProduct, Fin.sum_univ_three]
  ring

theorem skew_apart (y : Vec) (hy : y 1 = 1 / 2) : Apart skewCell ![0, y] := by
  have h2 : ∀ z : ℤ, (z : ℝ) ≠ 1 / 2 ∧ (z : ℝ) ≠ -(1 / 2) := by
    intro z
    constructor <;> intro h
    · have : ((2 * z : ℤ) : ℝ) = (1 : ℤ) := by push_cast; linarith
      have := Int.cast_injective this
      omega
    · have : ((2 * z : ℤ) : ℝ) = (-1 : ℤ) := by push_cast; linarith
      have := Int.cast_injective this
      omega
  intro i j hij n h
  have h1 := congrFun h 1
  rw [latticeVector_eq] at h1
  fin_cases i <;> fin_cases j <;> simp [latVec, skewCell, hy] at h1 hij
  · exact (h2 n.2.1).2 (by rw [← h1]; norm_num)
  · exact (h2 n.2.1).1 (by rw [← h1]; norm_num)

/-- In a skewed cell, two unit charges of opposite sign: replacing the second atom by its neighbouring
image changes the converged potential of the first. -/
theorem c119_skew_fails : ∃ (cell : Mat) (r r' : Fin 2 → Vec) (q φ φ' : Fin 2 → ℝ), cell.det ≠ 0 ∧
    (∑ i, q i = 0) ∧ Apart cell r ∧ (∀ i, ∃ m, r' i = r i + latticeVector cell m) ∧
    Converges 1 cell r q φ ∧ Converges 1 cell r' q φ' ∧ φ 0 ≠ φ' 0 := by
  have hM : skewCell.det ≠ 0 := by rw [skew_det]; norm_num
  set r : Fin 2 → Vec := ![0, ![0, 1/2, 0]] with hr
  set r' : Fin 2 → Vec := ![0, ![1, 1/2, 0]] with hr'
  set q : Fin 2 → ℝ := ![1, -1] with hq
  set α := ewAlpha 1 2 skewCell with hα
  have hα0 : 0 < α := ewAlpha_pos 1 2 _ hM two_ne_zero one_pos
  have ha : Apart skewCell r := skew_apart _ (by simp)
  have ha' : Apart skewCell r' := skew_apart _ (by simp)
  refine ⟨skewCell, r, r', q, fun i => ∑ j, q j * ewKernel α skewCell (r i - r j),
    fun i => ∑ j, q j * ewKernel α skewCell (r' i - r' j), hM, by simp [hq, Fin.sum_univ_two], ha, ?_,
    ew_limit 1 _ r q _ hM two_ne_zero one_pos ha fun i => rfl,
    ew_limit 1 _ r' q _ hM two_ne_zero one_pos ha' fun i => rfl, ?_⟩
  · intro i
    fin_cases i
    · exact ⟨(0, 0, 0), by funext j; simp [latticeVector, hr, hr']⟩
    · refine ⟨(1, 0, 0), ?_⟩
      funext j
      fin_cases j <;> simp [latticeVector, hr, hr', skewCell]
  · intro heq
    simp only [Fin.sum_univ_two, hq, cons_val_zero, cons_val_one] at heq
    have h00 : r 0 - r 0 = r' 0 - r' 0 := by rw [sub_self, sub_self]
    rw [h00] at heq
    have h1 : ewKernel α skewCell (r 0 - r 1) = ewKernel α skewCell (r' 0 - r' 1) := by linarith
    have h2 : r 0 - r 1 = (r' 0 - r' 1) + latVec skewCell (1, 0, 0) := by
      funext j
      fin_cases j <;> simp [latVec, hr, hr', skewCell]
    unfold ewKernel at h1
    have h3 : ∑' n, realTerm α (sqNorm (r 0 - r 1 - latVec skewCell n)) =
        ∑' n, realTerm α (sqNorm (r' 0 - r' 1 - latVec skewCell n)) := by
      rw [h2]; exact real_image α skewCell _ _
    rw [h3, skew_det] at h1
    have hπ := Real.pi_pos
    have h4 : ∑' n, recTerm α (sqNorm (recVec skewCell n)) (cos (recVec skewCell n ⬝ᵥ (r 0 - r 1))) =
        ∑' n, recTerm α (sqNorm (recVec skewCell n)) (cos (recVec skewCell n ⬝ᵥ (r' 0 - r' 1))) := by
      have := add_left_cancel h1
      exact mul_left_cancel₀ (by simp [hπ.ne']) this
    have hc1 : ∀ n : Ix, cos (recVec skewCell n ⬝ᵥ (r' 0 - r' 1)) = 1 := by
      intro n
      have : recVec skewCell n ⬝ᵥ (r' 0 - r' 1) = ((-n.1 : ℤ) : ℝ) * (2 * π) := by
        rw [skew_rec]; simp [hr']; ring
      rw [this, cos_int_mul_two_pi]
    have hc2 : ∀ n : Ix, cos (recVec skewCell n ⬝ᵥ (r 0 - r 1)) = cos (n.2.1 * π) := by
      intro n
      have : recVec skewCell n ⬝ᵥ (r 0 - r 1) = -(n.2.1 * π) := by
        rw [skew_rec]; simp [hr]; ring
      rw [this, cos_neg]
    simp only [hc1, hc2] at h4
    have hs1 := (discrete_rec skewCell hM).rec_summable (c := fun _ => 1) (fun n => by simp) α hα0
    have hs2 := (discrete_rec skewCell hM).rec_summable (c := fun n => cos (n.2.1 * π))
      (fun n => abs_cos_le_one _) α hα0
    have hpos : 0 < ∑' n : Ix, (recTerm α (sqNorm (recVec skewCell n)) 1 -
        recTerm α (sqNorm (recVec skewCell n)) (cos (n.2.1 * π))) := by
      refine (hs1.sub hs2).tsum_pos (fun n => ?_) (0, 1, 0) ?_
      · unfold recTerm
        split_ifs
        · simp
        · have h5 := sqNorm_nonneg (recVec skewCell n)
          have h6 : 0 ≤ exp (-sqNorm (recVec skewCell n) / (4 * α)) / sqNorm (recVec skewCell n) := by
            positivity
          nlinarith [cos_le_one (n.2.1 * π)]
      · have hne : sqNorm (recVec skewCell (0, 1, 0)) ≠ 0 := by
          rw [Ne, recVec_eq_zero skewCell hM]; simp
        have h5 : 0 < sqNorm (recVec skewCell (0, 1, 0)) := lt_of_le_of_ne (sqNorm_nonneg _) (Ne.symm hne)
        unfold recTerm
        rw [if_neg hne, if_neg hne]
        simp only [Int.cast_one, one_mul, cos_pi]
        have h6 : 0 < exp (-sqNorm (recVec skewCell (0, 1, 0)) / (4 * α)) /
          sqNorm (recVec skewCell (0, 1, 0)) := by positivity
        linarith
    rw [hs1.tsum_sub hs2, h4, sub_self] at hpos
    exact lt_irrefl _ hpos

/-- Rock salt–like example: two opposite charges in a box of sides 1, 2 and 3. -/
theorem ew_example : Orthorhombic (Matrix.diagonal ![1, 2, 3]) ∧
    (∑ i, (![1, -1] : Fin 2 → ℝ) i = 0) ∧ Apart (Matrix.diagonal ![1, 2, 3]) ![0, ![1/2, 1, 3/2]] := by
  refine ⟨⟨![1, 2, 3], fun k => by fin_cases k <;> norm_num, rfl⟩, by simp [Fin.sum_univ_two], ?_⟩
  have h2 : ∀ z : ℤ, (z : ℝ) ≠ 1 / 2 ∧ (z : ℝ) ≠ -(1 / 2) := by
    intro z
    constructor <;> intro h
    · have : ((2 * z : ℤ) : ℝ) = (1 : ℤ) := by push_cast; linarith
      have := Int.cast_injective this
      omega
    · have : ((2 * z : ℤ) : ℝ) = (-1 : ℤ) := by push_cast; linarith
      have := Int.cast_injective this
      omega
  intro i j hij n h
  have h1 := congrFun h 0
  rw [latticeVector_eq, latVec_diag] at h1
  fin_cases i <;> fin_cases j <;> simp [zvec] at h1 hij
  · exact (h2 n.1).2 (by rw [← h1]; norm_num)
  · exact (h2 n.1).1 (by rw [← h1]; norm_num)

example : ∃ φ : Fin 2 → ℝ, (∀ w, 0 < w → Converges w (Matrix.diagonal ![1, 2, 3])
    ![0, ![1/2, 1, 3/2]] ![1, -1] φ) ∧
    (∀ m : Fin 2 → Ix, Converges 1 (Matrix.diagonal ![1, 2, 3]) (fun i => (![0, ![1/2, 1, 3/2]] : Fin 2 → Vec) i +
      latticeVector (Matrix.diagonal ![1, 2, 3]) (m i)) ![1, -1] φ) := by
  obtain ⟨h1, h2, h3⟩ := ew_example
  obtain ⟨φ, hφ, _⟩ := c119_converges _ _ _ two_pos h1 h2 h3
  exact ⟨φ, hφ, fun m => c119_images 1 _ _ _ φ h1 h3 (hφ 1 one_pos) m⟩

example (φ ψ : Fin 2 → ℝ) (w acc : ℝ)
    (hp : ewPotential acc w (Matrix.diagonal ![1, 2, 3]) ![0, ![1/2, 1, 3/2]] ![1, -1] = .ok φ)
    (hq : ewPotential acc w (Matrix.diagonal ![1, 2, 3]) ![0, ![1/2, 1, 3/2]] ![0, 1] = .ok ψ) :
    φ 1 = ψ 0 - ψ 1 := by
  have := c119_reciprocity acc w _ _ _ _ _ _ ew_example.2.2 hp hq
  simpa [Fin.sum_univ_two, sub_eq_add_neg] using this

example : ∃ φ, ewPotential 8 (1/10) (Matrix.diagonal ![1, 2, 3]) ![0, ![1/2, 1, 3/2]] ![1, -1] = .ok φ := by
  refine (c119_accepts _ _ _ _ _).2 ⟨?_, two_ne_zero, by norm_num, by norm_num⟩
  rw [det_diag]; simp

example : ∀ n, n ∉ ixBox (maxR 8 (ewAlpha 1 2 (Matrix.diagonal ![1, 2, 3])) (Matrix.diagonal ![1, 2, 3])) →
    ∀ i j, erfc (√(ewAlpha 1 2 (Matrix.diagonal ![1, 2, 3])) *
      ewDist (Matrix.diagonal ![1, 2, 3]) (![0, ![1/2, 1, 3/2]] : Fin 2 → Vec) n i j) ≤ 10 ^ (-8 : ℝ) :=
  (c119_cutoff_partial 8 1 _ ![0, ![1/2, 1, 3/2]] ![1, 2, 3]
    (fun k => by fin_cases k <;> norm_num) rfl two_pos one_pos (by norm_num)
    (fun i j k => by fin_cases i <;> fin_cases j <;> fin_cases k <;> norm_num [abs_le])).2

end Hotbit
