import Verif.Lemmas.MultipoleRotation
import Verif.Lemmas.PairSum
import Mathlib.Analysis.Calculus.IteratedDeriv.Defs
import Mathlib.Analysis.Complex.RealDeriv

/-!
# Local expansions: shift, field, and conversion of multipoles
-/

namespace Hotbit

open Finset Complex

set_option linter.unusedSimpArgs false

/-- The harmonics of `-dr` from the angles of `dr`. -/
theorem solidR_neg_isSolid (r : Vec) (h : r ≠ 0) (lmax : ℕ) (junk : Moments) :
    IsSolid lmax (solidR (cartToSph r).1 (-(cartToSph r).2.1) (Real.pi + (cartToSph r).2.2) lmax junk) (-r) := by
  have hn : norm3 (-r) = norm3 r := by unfold norm3; simp
  have h' : -r ≠ 0 := neg_ne_zero.2 h
  have hφ : ((‖(((-r) 0 : ℝ) : ℂ) + ((-r) 1 : ℝ) * I‖ : ℝ) : ℂ) *
      exp ((Real.pi + arg ((r 0 : ℂ) + r 1 * I) : ℝ) * I) = ((-r) 0 : ℝ) + ((-r) 1 : ℝ) * I := by
    have e : (((-r) 0 : ℝ) : ℂ) + ((-r) 1 : ℝ) * I = -((r 0 : ℂ) + r 1 * I) := by
      simp only [Pi.neg_apply, ofReal_neg]; ring
    rw [e, norm_neg, ofReal_add, add_mul, Complex.exp_add, Complex.exp_pi_mul_I]
    have := Complex.norm_mul_exp_arg_mul_I ((r 0 : ℂ) + r 1 * I)
    linear_combination -this
  have key := fun l m hm => legR_solV_angle (-r) h' _ hφ l m hm
  have hc : (-r) 2 / norm3 (-r) = -(r 2 / norm3 r) := by rw [hn, Pi.neg_apply, neg_div]
  rw [hc, hn] at key
  constructor
  · intro l hl
    have := key l 0 (by omega)
    simp only [Nat.cast_zero, mul_zero, zero_mul, Complex.exp_zero, mul_one] at this
    simp only [solidR, storeL0, if_pos hl, cartToSph, mul_self_sqrt_arg]
    push_cast at *
    exact this
  · intro l m h1 h2 h3
    simp only [solidR, cartToSph, mul_self_sqrt_arg]
    rw [storeLM_of_le _ _ _ h1 h2 h3]
    exact key l m h2

theorem at_neg (M : Moments) (l : ℕ) (k : ℤ) : M.at l (-k) = (-1) ^ k * starRingEnd ℂ (M.at l k) := by
  unfold Moments.at
  rcases lt_trichotomy k 0 with h | h | h
  · rw [if_neg (by omega), if_neg (by omega), if_pos h, map_mul, Complex.conj_conj, ← mul_assoc, map_zpow₀, map_neg,
      map_one, ← zpow_add₀ (by norm_num)]
    simp
  · subst h; simp
  · rw [if_pos (by omega), if_neg (by omega), if_neg (by omega), neg_neg]

theorem at_real (M : Moments) (l : ℕ) : M.at l 0 = (M.l0 l : ℂ) := by
  unfold Moments.at; simp

theorem at_pos (M : Moments) (l m : ℕ) (h : 1 ≤ m) : M.at l m = M.lm (lm2index l m) := by
  unfold Moments.at
  rw [if_neg (by omega), if_neg (by omega)]

theorem neg_one_zpow_mul_self (k : ℤ) : ((-1 : ℂ) ^ k) * (-1) ^ k = 1 := by
  rw [← zpow_add₀ (by norm_num), ← two_mul, zpow_mul]; norm_num

/-- Symmetric sums of products are real. -/
theorem sum_sym_re (k : ℕ) (a b : ℤ → ℂ) (ha : ∀ m, a (-m) = (-1) ^ m * starRingEnd ℂ (a m))
    (hb : ∀ m, b (-m) = (-1) ^ m * starRingEnd ℂ (b m)) :
    ∑ m ∈ Icc (-(k : ℤ)) k, a m * b m =
      (((a 0).re * (b 0).re + ∑ m ∈ Icc 1 k, 2 * (a (m : ℕ) * b (m : ℕ)).re : ℝ) : ℂ) := by
  rw [sum_Icc_sym]
  have ha0 : ((a 0).re : ℂ) = a 0 := by
    have := ha 0
    simp only [neg_zero, zpow_zero, one_mul] at this
    exact Complex.conj_eq_iff_re.1 this.symm
  have hb0 : ((b 0).re : ℂ) = b 0 := by
    have := hb 0
    simp only [neg_zero, zpow_zero, one_mul] at this
    exact Complex.conj_eq_iff_re.1 this.symm
  push_cast
  rw [ha0, hb0]
  congr 1
  refine Finset.sum_congr rfl fun m _ => ?_
  rw [ha, hb, Complex.re_eq_add_conj, map_mul]
  linear_combination (starRingEnd ℂ (a m) * starRingEnd ℂ (b m)) * neg_one_zpow_mul_self m

theorem conj_solV_neg (l : ℕ) (v : Vec) (m : ℤ) :
    starRingEnd ℂ (solV l (-m) v) = (-1) ^ m * starRingEnd ℂ (starRingEnd ℂ (solV l m v)) := by
  rw [solV_neg_m]; simp

/-- A term of a local expansion as a sum over all `m`. -/
theorem localTerm_eq (L : Moments) (l : ℕ) (t : Vec) :
    (localTerm L l t : ℂ) = ∑ m ∈ Icc (-(l : ℤ)) l, L.at l m * starRingEnd ℂ (solV l m (-t)) := by
  rw [sum_sym_re l (fun m => L.at l m) (fun m => starRingEnd ℂ (solV l m (-t))) (at_neg L l) (conj_solV_neg l (-t))]
  unfold localTerm
  congr 1
  congr 1
  · rw [at_real, Complex.ofReal_re, regularR_eq l 0 (by omega)]; simp
  · refine Finset.sum_congr rfl fun m hm => ?_
    rw [Finset.mem_Icc] at hm
    rw [at_pos L l m hm.1, regularR_eq l m hm.2]

/-- Coefficients of a shifted local expansion. -/
noncomputable def locV (L : Moments) (lin : ℕ) (dr : Vec) (l : ℕ) (m : ℤ) : ℂ :=
  if l ≤ lin then ∑ k ∈ range (lin - l + 1), ∑ μ ∈ Icc (-(k : ℤ)) k,
    L.at (l + k) (m + μ) * starRingEnd ℂ (solV k μ (-dr)) else 0

/-- At the same centre nothing changes. -/
theorem locV_zero (L : Moments) (lin l : ℕ) (m : ℤ) (h : l ≤ lin) : locV L lin 0 l m = L.at l m := by
  unfold locV
  rw [if_pos h, Finset.sum_eq_single 0]
  · simp [solV_origin]
  · intro k _ hk
    refine Finset.sum_eq_zero fun μ _ => ?_
    rw [neg_zero, solV_origin, if_neg (by tauto)]; simp
  · simp

/-- What `local_to_local` computes. -/
theorem l2l_at (dr : Vec) (lin : ℕ) (L : Moments) (lout : ℕ) (out junk : Moments) (l : ℕ) (hl : l ≤ lout) :
    ((l2l dr lin L lout out junk).l0 l : ℂ) = out.l0 l + locV L lin dr l 0 ∧
    ∀ m : ℕ, 1 ≤ m → m ≤ l → (l2l dr lin L lout out junk).lm (lm2index l m) = out.lm (lm2index l m) + locV L lin dr l m := by
  unfold l2l
  by_cases h : dr = 0
  · subst h
    rw [if_pos ((vec_eq_zero _).2 rfl)]
    constructor
    · simp only [accumL0]
      by_cases h1 : l ≤ lin
      · rw [if_pos (by omega), locV_zero _ _ _ _ h1, at_real, ofReal_add]
      · rw [if_neg (by omega)]; unfold locV; rw [if_neg h1, add_zero]
    · intro m h1 h2
      simp only
      by_cases h3 : l ≤ lin
      · rw [if_pos (lm2index_nonneg l m h1 h2 _ (by omega)), locV_zero _ _ _ _ h3, at_pos _ _ _ h1]
      · have := lm2index_mono (le_refl (min lin lout)) (show min lin lout < l by omega) h1
        rw [if_neg (by omega)]; unfold locV; rw [if_neg h3, add_zero]
  · rw [if_neg (fun h' => h ((vec_eq_zero _).1 h'))]
    have hR := solidR_neg_isSolid dr h lin junk
    constructor
    · simp only [accumL0, if_pos hl]
      rw [ofReal_add]
      congr 1
      unfold locV
      by_cases h1 : l ≤ lin
      · rw [if_pos h1, if_pos h1, ofReal_sum]
        refine Finset.sum_congr rfl fun k hk => ?_
        rw [Finset.mem_range] at hk
        simp only [zero_add]
        rw [sum_sym_re k (fun m => L.at (l + k) m) (fun m => starRingEnd ℂ (solV k m (-dr))) (at_neg L (l + k))
          (conj_solV_neg k (-dr))]
        congr 1
        congr 1
        · rw [at_real, Complex.ofReal_re, ← hR.1 k (by omega), Complex.conj_ofReal, Complex.ofReal_re]
        · refine Finset.sum_congr rfl fun m hm => ?_
          rw [Finset.mem_Icc] at hm
          rw [at_pos L (l + k) m hm.1, ← hR.2 k m hm.1 hm.2 (by omega)]
      · rw [if_neg h1, if_neg h1]; simp
    · intro m h1 h2
      simp only
      rw [accumLM_of_le _ _ _ h1 h2 hl]
      congr 1
      unfold locV
      by_cases h3 : l ≤ lin
      · rw [if_pos h3, if_pos h3]
        refine Finset.sum_congr rfl fun k hk => ?_
        rw [Finset.mem_range] at hk
        refine Finset.sum_congr rfl fun μ hμ => ?_
        rw [Finset.mem_Icc] at hμ
        rw [hR.at_eq (by omega) (by rw [abs_le]; omega)]
      · rw [if_neg h3, if_neg h3]

theorem locV_neg (L : Moments) (lin : ℕ) (dr : Vec) (l : ℕ) (m : ℤ) :
    locV L lin dr l (-m) = (-1) ^ m * starRingEnd ℂ (locV L lin dr l m) := by
  unfold locV
  by_cases h : l ≤ lin
  · rw [if_pos h, if_pos h, map_sum, Finset.mul_sum]
    refine Finset.sum_congr rfl fun k _ => ?_
    rw [map_sum, Finset.mul_sum]
    refine Finset.sum_bij (fun μ _ => -μ) ?_ ?_ ?_ ?_
    · intro μ hμ; rw [Finset.mem_Icc] at *; omega
    · intro a _ b _ hab; exact neg_injective hab
    · intro μ hμ; exact ⟨-μ, by rw [Finset.mem_Icc] at *; omega, by simp⟩
    · intro μ _
      rw [show -m + μ = -(m + -μ) by ring, at_neg, map_mul, Complex.conj_conj]
      have := solV_neg_m k (-μ) (-dr)
      rw [neg_neg] at this
      rw [this, map_mul, Complex.conj_conj, map_zpow₀, map_neg, map_one, zpow_add₀ (by norm_num)]
      linear_combination ((-1) ^ m * starRingEnd ℂ (L.at (l + k) (m + -μ)) * solV k (-μ) (-dr)) * neg_one_zpow_mul_self (-μ)
  · rw [if_neg h, if_neg h]; simp

/-- Reindexing of the double sum over degrees. -/
theorem sum_degrees (N : ℕ) (f : ℕ → ℕ → ℂ) :
    ∑ l ∈ range (N + 1), ∑ k ∈ range (N - l + 1), f l k = ∑ j ∈ range (N + 1), ∑ k ∈ range (j + 1), f (j - k) k := by
  rw [Finset.sum_sigma', Finset.sum_sigma']
  refine Finset.sum_bij' (fun a _ => ⟨a.1 + a.2, a.2⟩) (fun a _ => ⟨a.1 - a.2, a.2⟩) ?_ ?_ ?_ ?_ ?_
  · rintro ⟨l, k⟩ h; simp only [Finset.mem_sigma, Finset.mem_range] at *; omega
  · rintro ⟨l, k⟩ h; simp only [Finset.mem_sigma, Finset.mem_range] at *; omega
  · rintro ⟨l, k⟩ h; simp
  · rintro ⟨l, k⟩ h
    simp only [Finset.mem_sigma, Finset.mem_range] at h
    simp only [Sigma.mk.injEq, heq_eq_eq, and_true]
    omega
  · rintro ⟨l, k⟩ h; simp

theorem sum_orders (l k : ℕ) (g c d : ℤ → ℂ) (hd : ∀ m : ℤ, (l : ℤ) < |m| → d m = 0) :
    ∑ m ∈ Icc (-(l : ℤ)) l, (∑ μ ∈ Icc (-(k : ℤ)) k, g (m + μ) * c μ) * d m =
      ∑ n ∈ Icc (-((l + k : ℕ) : ℤ)) ((l + k : ℕ) : ℤ), g n * ∑ μ ∈ Icc (-(k : ℤ)) k, c μ * d (n - μ) := by
  simp only [Finset.sum_mul, Finset.mul_sum]
  rw [Finset.sum_comm, Finset.sum_comm (s := Icc (-((l + k : ℕ) : ℤ)) ((l + k : ℕ) : ℤ))]
  refine Finset.sum_congr rfl fun μ hμ => ?_
  rw [Finset.mem_Icc] at hμ
  have := sum_Icc_shift (-(l : ℤ)) l μ fun n => g n * c μ * d (n - μ)
  simp only [add_sub_cancel_right] at this
  rw [this]
  simp only [← mul_assoc]
  apply Finset.sum_subset
  · intro x; simp only [Finset.mem_Icc]; push_cast; omega
  · intro x hx hn
    rw [hd, mul_zero]
    simp only [Finset.mem_Icc] at hx hn
    rw [lt_abs]
    omega

/-- The shifted coefficients describe the same potential. -/
theorem locV_potential (L : Moments) (lin : ℕ) (dr t : Vec) :
    ∑ l ∈ range (lin + 1), ∑ m ∈ Icc (-(l : ℤ)) l, locV L lin dr l m * starRingEnd ℂ (solV l m (-t)) =
      (localPot lin L (dr + t) : ℂ) := by
  unfold localPot
  rw [ofReal_sum]
  have e1 : ∑ l ∈ range (lin + 1), ∑ m ∈ Icc (-(l : ℤ)) l, locV L lin dr l m * starRingEnd ℂ (solV l m (-t)) =
      ∑ l ∈ range (lin + 1), ∑ k ∈ range (lin - l + 1), ∑ n ∈ Icc (-((l + k : ℕ) : ℤ)) ((l + k : ℕ) : ℤ),
        L.at (l + k) n * ∑ μ ∈ Icc (-(k : ℤ)) k,
          starRingEnd ℂ (solV k μ (-dr)) * starRingEnd ℂ (solV l (n - μ) (-t)) := by
    refine Finset.sum_congr rfl fun l hl => ?_
    rw [Finset.mem_range] at hl
    have : ∀ k, _ := fun k => sum_orders l k (L.at (l + k)) (fun μ => starRingEnd ℂ (solV k μ (-dr)))
      (fun m => starRingEnd ℂ (solV l m (-t))) (fun m hm => by rw [solV_zero_of_lt _ _ _ hm, map_zero])
    simp only [← this]
    rw [Finset.sum_comm]
    refine Finset.sum_congr rfl fun m _ => ?_
    unfold locV
    rw [if_pos (by omega), Finset.sum_mul]
  rw [e1, sum_degrees lin fun l k => ∑ n ∈ Icc (-((l + k : ℕ) : ℤ)) ((l + k : ℕ) : ℤ),
        L.at (l + k) n * ∑ μ ∈ Icc (-(k : ℤ)) k,
          starRingEnd ℂ (solV k μ (-dr)) * starRingEnd ℂ (solV l (n - μ) (-t))]
  refine Finset.sum_congr rfl fun j _ => ?_
  rw [localTerm_eq]
  have : ∀ k ∈ range (j + 1), ∑ n ∈ Icc (-((j - k + k : ℕ) : ℤ)) ((j - k + k : ℕ) : ℤ),
        L.at (j - k + k) n * ∑ μ ∈ Icc (-(k : ℤ)) k,
          starRingEnd ℂ (solV k μ (-dr)) * starRingEnd ℂ (solV (j - k) (n - μ) (-t)) =
      ∑ n ∈ Icc (-(j : ℤ)) j, L.at j n * ∑ μ ∈ Icc (-(k : ℤ)) k,
          starRingEnd ℂ (solV k μ (-dr)) * starRingEnd ℂ (solV (j - k) (n - μ) (-t)) := by
    intro k hk
    rw [Finset.mem_range] at hk
    rw [show j - k + k = j by omega]
  rw [Finset.sum_congr rfl this, Finset.sum_comm]
  refine Finset.sum_congr rfl fun n _ => ?_
  rw [neg_add, solV_add, map_sum, Finset.mul_sum]
  refine Finset.sum_congr rfl fun k _ => ?_
  rw [map_sum]
  simp only [map_mul]

/-- A symmetric family of coefficients as arrays. -/
theorem at_of_values (M : Moments) (l : ℕ) (c : ℤ → ℂ) (hc : ∀ m, c (-m) = (-1) ^ m * starRingEnd ℂ (c m))
    (h0 : (M.l0 l : ℂ) = c 0) (h1 : ∀ m : ℕ, 1 ≤ m → m ≤ l → M.lm (lm2index l m) = c m) (m : ℤ) (hm : |m| ≤ l) :
    M.at l m = c m := by
  rw [abs_le] at hm
  rcases lt_trichotomy m 0 with h | h | h
  · obtain ⟨n, rfl⟩ : ∃ n : ℕ, m = -(n : ℤ) := ⟨(-m).toNat, by omega⟩
    rw [at_neg, at_pos _ _ _ (by omega), h1 n (by omega) (by omega), hc]
  · subst h; rw [at_real, h0]
  · obtain ⟨n, rfl⟩ : ∃ n : ℕ, m = (n : ℤ) := ⟨m.toNat, by omega⟩
    rw [at_pos _ _ _ (by omega), h1 n (by omega) (by omega)]

theorem l2l_at_eq (dr : Vec) (lin : ℕ) (L : Moments) (lout : ℕ) (junk : Moments) (l : ℕ) (hl : l ≤ lout) (m : ℤ)
    (hm : |m| ≤ l) : (l2l dr lin L lout Moments.zero junk).at l m = locV L lin dr l m := by
  obtain ⟨h0, h1⟩ := l2l_at dr lin L lout Moments.zero junk l hl
  refine at_of_values _ l _ (locV_neg L lin dr l) ?_ ?_ m hm
  · rw [h0]; simp [Moments.zero]
  · intro m a b; rw [h1 m a b]; simp [Moments.zero]

/-- Derivative of a term of a local expansion at its centre. -/
theorem solV_line_deriv (l : ℕ) (m : ℤ) (u : Vec) :
    HasDerivAt (fun s : ℝ => solV l m (-(s • u)))
      (if l = 1 then solV 1 m (-u) else 0) 0 := by
  have d := solS_hasDerivAt 0 0 0 (-(u 0 + u 1 * I)) (-(u 0 - u 1 * I)) (-(u 2 : ℂ)) l m ((0 : ℝ) : ℂ)
  have d' := HasDerivAt.comp_ofReal d
  have e : (fun s : ℝ => solV l m (-(s • u))) =
      fun s : ℝ => solS (0 + (s : ℂ) * -(u 0 + u 1 * I)) (0 + (s : ℂ) * -(u 0 - u 1 * I)) (0 + (s : ℂ) * -(u 2 : ℂ)) l m := by
    funext s
    unfold solV
    simp only [Pi.neg_apply, Pi.smul_apply, smul_eq_mul, ofReal_neg, ofReal_mul]
    congr 1 <;> ring
  rw [e]
  refine d'.congr_deriv ?_
  cases l with
  | zero => simp
  | succ k =>
    simp only [ofReal_zero, zero_mul, add_zero]
    rw [solS_origin, solS_origin, solS_origin]
    by_cases hk : k = 0
    · subst hk
      simp only [zero_add, if_true, true_and]
      unfold solV solS
      simp only [solS, Pi.neg_apply, ofReal_neg]
      simp
      ring_nf
    · rw [if_neg (by tauto), if_neg (by tauto), if_neg (by tauto), if_neg (by omega)]; ring

end Hotbit
