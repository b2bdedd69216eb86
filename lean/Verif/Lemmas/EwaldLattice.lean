import Verif.Spec.Ewald
import Verif.Lemmas.EwaldKernel
import Mathlib.Analysis.SpecialFunctions.Gaussian.PoissonSummation
import Mathlib.Analysis.Normed.Ring.InfiniteSum

/-! Helper lemmas for the Ewald sum: lattices, Poisson summation, and the limit of the finite sums. -/

namespace Hotbit

open Real Filter Topology Matrix

/-- The integers of a lattice vector as a vector. -/
noncomputable def zvec (n : Ix) : Vec := ![(n.1 : ℝ), n.2.1, n.2.2]

theorem latVec_eq (M : Mat) (n : Ix) : latVec M n = zvec n ᵥ* M := by
  funext j
  simp [latVec, zvec, vecMul, dotProduct, Fin.sum_univ_three]

theorem latticeVector_eq (M : Mat) (n : Ix) : latticeVector M n = latVec M n := by
  funext j
  simp [latVec, latticeVector]

theorem sqNorm_nonneg (v : Vec) : 0 ≤ sqNorm v := Finset.sum_nonneg fun j _ => mul_self_nonneg _

theorem sqNorm_eq_zero (v : Vec) : sqNorm v = 0 ↔ v = 0 := by
  constructor
  · intro h
    have := (Finset.sum_eq_zero_iff_of_nonneg fun j _ => mul_self_nonneg (v j)).1 h
    funext j
    simpa using this j (Finset.mem_univ j)
  · rintro rfl; simp [sqNorm]

theorem sqNorm_neg (v : Vec) : sqNorm (-v) = sqNorm v := by simp [sqNorm]

theorem vecLen_eq (v : Vec) : vecLen v = √(sqNorm v) := by
  simp [vecLen, sqNorm, Fin.sum_univ_three, sq]

theorem gauss_int (b : ℝ) (hb : 0 < b) : Summable fun n : ℤ => exp (-b * (n : ℝ) ^ 2) := by
  have h : Summable fun n : ℕ => exp (-b * (n : ℝ) ^ 2) := by
    have h1 : Summable fun n : ℕ => exp (-b) ^ n :=
      summable_geometric_of_lt_one (exp_pos _).le (Real.exp_lt_one_iff.2 (by linarith))
    refine Summable.of_nonneg_of_le (fun n => (exp_pos _).le) (fun n => ?_) h1
    rw [← exp_nat_mul]
    refine exp_le_exp.2 ?_
    have h2 : (n : ℝ) ≤ (n : ℝ) ^ 2 := by
      exact_mod_cast Nat.le_self_pow two_ne_zero n
    nlinarith
  refine Summable.of_nat_of_neg ?_ ?_
  · simpa using h
  · simpa using h

theorem gauss_int_shift (b y : ℝ) (hb : 0 < b) :
    Summable fun n : ℤ => exp (-b * (y - n) ^ 2) := by
  refine Summable.of_nonneg_of_le (fun n => (exp_pos _).le) (fun n => ?_)
    ((gauss_int (b / 2) (by linarith)).mul_left (exp (b * y ^ 2)))
  rw [← exp_add]
  refine exp_le_exp.2 ?_
  nlinarith [sq_nonneg (2 * y - n)]

theorem gauss_zvec (b : ℝ) (hb : 0 < b) (y : Vec) :
    Summable fun n : Ix => exp (-b * sqNorm (y - zvec n)) := by
  have h := Summable.mul_of_nonneg (gauss_int_shift b (y 0) hb)
    (Summable.mul_of_nonneg (gauss_int_shift b (y 1) hb) (gauss_int_shift b (y 2) hb)
      (fun n => (exp_pos _).le) (fun n => (exp_pos _).le))
    (fun n => (exp_pos _).le) (fun n => mul_nonneg (exp_pos _).le (exp_pos _).le)
  refine h.congr fun n => ?_
  rw [← exp_add, ← exp_add]
  congr 1
  simp [sqNorm, zvec, Fin.sum_univ_three]
  ring

theorem cell_bound (M : Mat) (hM : M.det ≠ 0) : ∃ c, 0 < c ∧ ∀ v : Vec, c * sqNorm v ≤ sqNorm (v ᵥ* M) := by
  set F : ℝ := ∑ k, ∑ j, M⁻¹ j k ^ 2 with hF
  have hF0 : 0 ≤ F := Finset.sum_nonneg fun k _ => Finset.sum_nonneg fun j _ => sq_nonneg _
  refine ⟨1 / (F + 1), by positivity, fun v => ?_⟩
  have hu : IsUnit M.det := isUnit_iff_ne_zero.2 hM
  have hv : v = (v ᵥ* M) ᵥ* M⁻¹ := by
    rw [vecMul_vecMul, Matrix.mul_nonsing_inv _ hu, vecMul_one]
  have h1 : sqNorm v ≤ sqNorm (v ᵥ* M) * F := by
    have h2 : ∀ k, v k * v k ≤ sqNorm (v ᵥ* M) * ∑ j, M⁻¹ j k ^ 2 := by
      intro k
      have h3 : v k = ∑ j, (v ᵥ* M) j * M⁻¹ j k := by
        conv_lhs => rw [hv]
        rfl
      have h4 := Finset.sum_mul_sq_le_sq_mul_sq Finset.univ (v ᵥ* M) fun j => M⁻¹ j k
      rw [← h3] at h4
      have h5 : sqNorm (v ᵥ* M) = ∑ j, (v ᵥ* M) j ^ 2 := by simp [sqNorm, sq]
      rw [h5]; nlinarith
    calc sqNorm v = ∑ k, v k * v k := rfl
      _ ≤ ∑ k, sqNorm (v ᵥ* M) * ∑ j, M⁻¹ j k ^ 2 := Finset.sum_le_sum fun k _ => h2 k
      _ = _ := by rw [hF, Finset.mul_sum]
  have h6 := sqNorm_nonneg (v ᵥ* M)
  rw [one_div, inv_mul_le_iff₀ (by positivity)]
  nlinarith

theorem discrete_lat (M : Mat) (hM : M.det ≠ 0) (x : Vec) :
    Discrete fun n : Ix => sqNorm (x - latVec M n) := by
  refine ⟨fun n => sqNorm_nonneg _, fun b hb => ?_⟩
  obtain ⟨c, hc, h⟩ := cell_bound M hM
  refine Summable.of_nonneg_of_le (fun n => (exp_pos _).le) (fun n => ?_)
    (gauss_zvec (b * c) (by positivity) (x ᵥ* M⁻¹))
  refine exp_le_exp.2 ?_
  have hu : IsUnit M.det := isUnit_iff_ne_zero.2 hM
  have h1 : x - latVec M n = (x ᵥ* M⁻¹ - zvec n) ᵥ* M := by
    rw [sub_vecMul, vecMul_vecMul, Matrix.nonsing_inv_mul _ hu, vecMul_one, latVec_eq]
  rw [h1]
  have := mul_le_mul_of_nonneg_left (h (x ᵥ* M⁻¹ - zvec n)) hb.le
  linarith

theorem sqNorm_recVec (cell : Mat) (n : Ix) :
    sqNorm (recVec cell n) = (2 * π) ^ 2 * sqNorm (latVec cell⁻¹ n) := by
  simp only [sqNorm, recVec, Finset.mul_sum]
  exact Finset.sum_congr rfl fun j _ => by ring

theorem det_inv_ne (M : Mat) (hM : M.det ≠ 0) : M⁻¹.det ≠ 0 := by
  rw [Matrix.det_nonsing_inv]
  simpa using hM

theorem discrete_rec (cell : Mat) (hM : cell.det ≠ 0) :
    Discrete fun n : Ix => sqNorm (recVec cell n) := by
  refine ⟨fun n => sqNorm_nonneg _, fun b hb => ?_⟩
  have h := (discrete_lat cell⁻¹ (det_inv_ne _ hM) 0).gauss (b * (2 * π) ^ 2)
    (by have := Real.pi_pos; positivity)
  refine h.congr fun n => ?_
  rw [sqNorm_recVec, zero_sub, sqNorm_neg]
  congr 1; ring

theorem zvec_eq_zero (n : Ix) : zvec n = 0 ↔ n = (0, 0, 0) := by
  constructor
  · intro h
    have h0 := congrFun h 0
    have h1 := congrFun h 1
    have h2 := congrFun h 2
    obtain ⟨a, b, c⟩ := n
    simp [zvec] at h0 h1 h2
    simp [h0, h1, h2]
  · rintro rfl
    funext j
    fin_cases j <;> simp [zvec]

theorem latVec_eq_zero (M : Mat) (hM : M.det ≠ 0) (n : Ix) : latVec M n = 0 ↔ n = (0, 0, 0) := by
  rw [← zvec_eq_zero, latVec_eq]
  constructor
  · intro h
    have hu : IsUnit M.det := isUnit_iff_ne_zero.2 hM
    have : zvec n ᵥ* M ᵥ* M⁻¹ = 0 := by rw [h, zero_vecMul]
    rwa [vecMul_vecMul, Matrix.mul_nonsing_inv _ hu, vecMul_one] at this
  · intro h; rw [h, zero_vecMul]

theorem recVec_zero (cell : Mat) : recVec cell (0, 0, 0) = 0 := by
  funext j; simp [recVec, latVec]

/-- The complete sum of the interaction with an atom and its images at `x`, for one splitting. -/
noncomputable def ewKernel (α : ℝ) (cell : Mat) (x : Vec) : ℝ :=
  ∑' n, realTerm α (sqNorm (x - latVec cell n)) +
    4 * π / |cell.det| * ∑' n, recTerm α (sqNorm (recVec cell n)) (cos (recVec cell n ⬝ᵥ x))

theorem ewRec_eq {N : ℕ} (acc α : ℝ) (cell : Mat) (r : Fin N → Vec) (q : Fin N → ℝ) (i : Fin N) :
    ewRec acc α cell r q i = ∑ j, q j * (4 * π / |cell.det| *
      ∑ n ∈ ixBox (maxG acc α cell), recTerm α (sqNorm (recVec cell n))
        (cos (recVec cell n ⬝ᵥ (r i - r j)))) := by
  have h : ∀ n, exp (-sqNorm (recVec cell n) / (4 * α)) * recGsq cell n *
      ((∑ a, sin (ewPhase cell r n a) * q a) * sin (ewPhase cell r n i) +
        (∑ a, cos (ewPhase cell r n a) * q a) * cos (ewPhase cell r n i)) =
      ∑ j, q j * recTerm α (sqNorm (recVec cell n)) (cos (recVec cell n ⬝ᵥ (r i - r j))) := by
    intro n
    have h1 : ∀ c, recTerm α (sqNorm (recVec cell n)) c =
        exp (-sqNorm (recVec cell n) / (4 * α)) * recGsq cell n * c := by
      intro c
      have h0 := sqNorm_nonneg (recVec cell n)
      unfold recTerm recGsq
      by_cases hn : n = (0, 0, 0)
      · rw [if_pos hn, hn, recVec_zero, if_pos (by simp [sqNorm])]; ring
      · rw [if_neg hn]
        by_cases hz : sqNorm (recVec cell n) = 0
        · rw [if_pos hz, if_neg (by rw [hz]; exact lt_irrefl 0)]; ring
        · rw [if_neg hz, if_pos (lt_of_le_of_ne h0 (Ne.symm hz))]; ring
    have h2 : ∀ j, cos (recVec cell n ⬝ᵥ (r i - r j)) =
        cos (ewPhase cell r n i) * cos (ewPhase cell r n j) +
          sin (ewPhase cell r n i) * sin (ewPhase cell r n j) := by
      intro j
      rw [dotProduct_sub, cos_sub]; rfl
    simp only [h1, h2, Finset.sum_mul, ← Finset.sum_add_distrib, Finset.mul_sum]
    exact Finset.sum_congr rfl fun j _ => by ring
  unfold ewRec
  simp only [h]
  rw [Finset.sum_comm, Finset.sum_mul]
  refine Finset.sum_congr rfl fun j _ => ?_
  rw [← Finset.mul_sum]; ring

theorem ixBox_zero (m : Fin 3 → ℤ) (h : ∀ k, 0 ≤ m k) : ((0, 0, 0) : Ix) ∈ ixBox m := by
  simp [ixBox, h 0, h 1, h 2]

theorem ewDist_eq {N : ℕ} (cell : Mat) (r : Fin N → Vec) (n : Ix) (i j : Fin N) :
    ewDist cell r n i j = √(sqNorm (r i - r j - latVec cell n)) := by
  unfold ewDist
  congr 2
  funext k
  simp; ring

open Classical in
theorem ewReal_eq {N : ℕ} (acc α : ℝ) (cell : Mat) (r : Fin N → Vec) (q : Fin N → ℝ) (i : Fin N)
    (hM : cell.det ≠ 0) (ha : Apart cell r) (hb : ∀ k, 0 ≤ maxR acc α cell k) :
    ewReal acc α cell r q i - 2 * q i * √(α / π) = ∑ j, q j *
      ∑ n ∈ ixBox (maxR acc α cell), realTerm α (sqNorm (r i - r j - latVec cell n)) := by
  have hne : ∀ j n, (n ≠ (0, 0, 0) ∨ j ≠ i) → sqNorm (r i - r j - latVec cell n) ≠ 0 := by
    intro j n h
    rw [Ne, sqNorm_eq_zero, sub_eq_zero]
    by_cases hj : j = i
    · subst hj
      rw [sub_self]
      intro h0
      rcases h with h | h
      · exact h ((latVec_eq_zero cell hM n).1 h0.symm)
      · exact h rfl
    · rw [← latticeVector_eq]
      exact ha i j (Ne.symm hj) n
  have hF : ∑ j, q j * ∑ n ∈ ixBox (maxR acc α cell), realTerm α (sqNorm (r i - r j - latVec cell n)) =
      ∑ n ∈ ixBox (maxR acc α cell), ∑ j, q j * realTerm α (sqNorm (r i - r j - latVec cell n)) := by
    rw [Finset.sum_comm]
    exact Finset.sum_congr rfl fun j _ => by rw [Finset.mul_sum]
  rw [hF]
  set F : Ix → ℝ := fun n => ∑ j, q j * realTerm α (sqNorm (r i - r j - latVec cell n)) with hFd
  have hsplit : ∑ n ∈ ixBox (maxR acc α cell), F n =
      (∑ n ∈ ixBox (maxR acc α cell), if n ≠ (0, 0, 0) then F n else 0) + F (0, 0, 0) := by
    rw [← Finset.sum_erase_add _ _ (ixBox_zero _ hb),
      ← Finset.sum_erase_add (ixBox (maxR acc α cell)) (fun n => if n ≠ (0, 0, 0) then F n else 0)
        (ixBox_zero _ hb)]
    have : ∑ n ∈ (ixBox (maxR acc α cell)).erase (0, 0, 0), F n =
        ∑ n ∈ (ixBox (maxR acc α cell)).erase (0, 0, 0), if n ≠ (0, 0, 0) then F n else 0 :=
      Finset.sum_congr rfl fun n hn => by rw [if_pos (Finset.ne_of_mem_erase hn)]
    rw [this]; simp
  have hreal : ∀ j n, (n ≠ (0, 0, 0) ∨ j ≠ i) → q j * realTerm α (sqNorm (r i - r j - latVec cell n)) =
      q j * erfc (√α * ewDist cell r n i j) / ewDist cell r n i j := by
    intro j n h
    rw [realTerm, if_neg (hne j n h), ewDist_eq, mul_div_assoc]
  have h1 : (∑ n ∈ ixBox (maxR acc α cell), if n ≠ (0, 0, 0) then F n else 0) =
      ∑ n ∈ ixBox (maxR acc α cell), if n ≠ (0, 0, 0) then
      ∑ j, q j * erfc (√α * ewDist cell r n i j) / ewDist cell r n i j else 0 := by
    refine Finset.sum_congr rfl fun n _ => ?_
    by_cases hn : n = (0, 0, 0)
    · simp [hn]
    · rw [if_pos hn, if_pos hn]
      exact Finset.sum_congr rfl fun j _ => hreal j n (Or.inl hn)
  have h2 : F (0, 0, 0) = (∑ j, if j = i then 0 else
      q j * erfc (√α * ewDist cell r (0, 0, 0) i j) / ewDist cell r (0, 0, 0) i j) -
        2 * q i * √(α / π) := by
    have : 2 * q i * √(α / π) = ∑ j, if j = i then 2 * q j * √(α / π) else 0 := by simp
    rw [this, ← Finset.sum_sub_distrib]
    refine Finset.sum_congr rfl fun j _ => ?_
    by_cases hj : j = i
    · subst hj
      rw [if_pos rfl, if_pos rfl, sub_self, (latVec_eq_zero cell hM (0, 0, 0)).2 rfl, sub_zero,
        realTerm, if_pos (by simp [sqNorm])]
      ring
    · rw [if_neg hj, if_neg hj, sub_zero]
      exact hreal j _ (Or.inr hj)
  rw [hsplit, h1, h2, ewReal]
  ring

theorem ixBox_tendsto (m : ℝ → Fin 3 → ℤ) (h : ∀ k, Tendsto (fun t => m t k) atTop atTop) :
    Tendsto (fun t => ixBox (m t)) atTop atTop := by
  rw [tendsto_atTop]
  intro s
  have : ∀ᶠ t in atTop, ∀ n ∈ s, n ∈ ixBox (m t) := by
    refine (Finset.eventually_all s).2 fun n _ => ?_
    filter_upwards [(h 0).eventually_ge_atTop |n.1|, (h 1).eventually_ge_atTop |n.2.1|,
      (h 2).eventually_ge_atTop |n.2.2|] with t h0 h1 h2
    simp only [ixBox, Finset.mem_product, Finset.mem_Icc]
    exact ⟨abs_le.1 h0, abs_le.1 h1, abs_le.1 h2⟩
  filter_upwards [this] with t ht
  exact fun n hn => ht n hn

theorem pyInt_tendsto (f : ℝ → ℝ) (h : Tendsto f atTop atTop) :
    Tendsto (fun t => pyInt (f t) + 1) atTop atTop := by
  have h1 : Tendsto (fun t => ⌊f t⌋) atTop atTop := tendsto_floor_atTop.comp h
  refine tendsto_atTop_mono' _ ?_ h1
  filter_upwards [h.eventually_ge_atTop 0] with t ht
  rw [pyInt, if_pos ht]
  omega

theorem cellLen_pos (cell : Mat) (hM : cell.det ≠ 0) (k : Fin 3) : 0 < cellLen cell k := by
  refine Real.sqrt_pos.2 (lt_of_le_of_ne (Finset.sum_nonneg fun j _ => sq_nonneg _) fun h => hM ?_)
  have := (Finset.sum_eq_zero_iff_of_nonneg fun j _ => sq_nonneg (cell k j)).1 h.symm
  exact Matrix.det_eq_zero_of_row_eq_zero k fun j => by simpa using this j (Finset.mem_univ j)

theorem recLen_pos (cell : Mat) (hM : cell.det ≠ 0) (k : Fin 3) : 0 < recLen cell k := by
  refine Real.sqrt_pos.2 (lt_of_le_of_ne (Finset.sum_nonneg fun j _ => sq_nonneg _) fun h =>
    det_inv_ne cell hM ?_)
  have := (Finset.sum_eq_zero_iff_of_nonneg fun j _ => sq_nonneg (cell⁻¹ j k)).1 h.symm
  exact Matrix.det_eq_zero_of_column_eq_zero k fun j => by simpa using this j (Finset.mem_univ j)

theorem log10_pos : 0 < log 10 := Real.log_pos (by norm_num)

theorem maxG_tendsto (α : ℝ) (hα : 0 < α) (cell : Mat) (hM : cell.det ≠ 0) (k : Fin 3) :
    Tendsto (fun acc => maxG acc α cell k) atTop atTop := by
  unfold maxG
  refine pyInt_tendsto _ ?_
  refine Tendsto.atTop_div_const (by have := recLen_pos cell hM k; have := Real.pi_pos; positivity) ?_
  refine Tendsto.const_mul_atTop two_pos ?_
  refine tendsto_sqrt_atTop.comp ?_
  refine Tendsto.atTop_mul_const hα ?_
  exact Tendsto.const_mul_atTop log10_pos tendsto_id

theorem maxR_tendsto (α : ℝ) (hα : 0 < α) (cell : Mat) (hM : cell.det ≠ 0) (k : Fin 3) :
    Tendsto (fun acc => maxR acc α cell k) atTop atTop := by
  unfold maxR
  refine pyInt_tendsto _ ?_
  refine Tendsto.atTop_div_const (cellLen_pos cell hM k) ?_
  refine tendsto_sqrt_atTop.comp ?_
  refine Tendsto.atTop_div_const hα ?_
  exact Tendsto.const_mul_atTop log10_pos tendsto_id

theorem ewAlpha_pos (w : ℝ) (N : ℕ) (cell : Mat) (hM : cell.det ≠ 0) (hN : N ≠ 0) (hw : 0 < w) :
    0 < ewAlpha w N cell := by
  have h1 : 0 < |cell.det| := abs_pos.2 hM
  have h2 : (0 : ℝ) < N := by exact_mod_cast Nat.pos_of_ne_zero hN
  have := Real.pi_pos
  exact Real.rpow_pos_of_pos (by positivity) _

/-- With the accuracy goal, the potentials converge to the complete sums. -/
theorem ew_limit {N : ℕ} (w : ℝ) (cell : Mat) (r : Fin N → Vec) (q φ : Fin N → ℝ) (hM : cell.det ≠ 0)
    (hN : N ≠ 0) (hw : 0 < w) (ha : Apart cell r)
    (hφ : ∀ i, φ i = ∑ j, q j * ewKernel (ewAlpha w N cell) cell (r i - r j)) :
    Converges w cell r q φ := by
  set α := ewAlpha w N cell with hαd
  have hα : 0 < α := ewAlpha_pos w N cell hM hN hw
  refine ⟨fun acc i => ewRec acc α cell r q i + ewReal acc α cell r q i - 2 * q i * √(α / π),
    fun acc hacc => ?_, fun i => ?_⟩
  · rw [ewPotential, if_neg]
    push Not
    exact ⟨hM, hN, hw, hacc⟩
  · have hR := ixBox_tendsto (fun acc => maxR acc α cell) fun k => maxR_tendsto α hα cell hM k
    have hG := ixBox_tendsto (fun acc => maxG acc α cell) fun k => maxG_tendsto α hα cell hM k
    have key : Tendsto (fun acc => (∑ j, q j * (4 * π / |cell.det| *
        ∑ n ∈ ixBox (maxG acc α cell), recTerm α (sqNorm (recVec cell n))
          (cos (recVec cell n ⬝ᵥ (r i - r j))))) + ∑ j, q j *
        ∑ n ∈ ixBox (maxR acc α cell), realTerm α (sqNorm (r i - r j - latVec cell n))) atTop
        (𝓝 ((∑ j, q j * (4 * π / |cell.det| * ∑' n, recTerm α (sqNorm (recVec cell n))
          (cos (recVec cell n ⬝ᵥ (r i - r j))))) +
          ∑ j, q j * ∑' n, realTerm α (sqNorm (r i - r j - latVec cell n)))) := by
      refine Tendsto.add ?_ ?_
      · refine tendsto_finset_sum _ fun j _ => ((Tendsto.const_mul _ ?_).const_mul _)
        exact (((discrete_rec cell hM).rec_summable (fun n => abs_cos_le_one _) α hα).hasSum).comp hG
      · refine tendsto_finset_sum _ fun j _ => (Tendsto.const_mul _ ?_)
        exact (((discrete_lat cell hM (r i - r j)).real_summable α hα).hasSum).comp hR
    have hlim : φ i = (∑ j, q j * (4 * π / |cell.det| * ∑' n, recTerm α (sqNorm (recVec cell n))
          (cos (recVec cell n ⬝ᵥ (r i - r j))))) +
          ∑ j, q j * ∑' n, realTerm α (sqNorm (r i - r j - latVec cell n)) := by
      rw [hφ, ← Finset.sum_add_distrib]
      exact Finset.sum_congr rfl fun j _ => by rw [ewKernel]; ring
    rw [hlim]
    refine key.congr' ?_
    filter_upwards [(maxR_tendsto α hα cell hM 0).eventually_ge_atTop 0,
      (maxR_tendsto α hα cell hM 1).eventually_ge_atTop 0,
      (maxR_tendsto α hα cell hM 2).eventually_ge_atTop 0] with acc h0 h1 h2
    rw [← ewRec_eq, ← ewReal_eq acc α cell r q i hM ha (by intro k; fin_cases k <;> assumption)]
    ring

end Hotbit
