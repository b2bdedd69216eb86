import Verif.Lemmas.Multipole

/-!
# Irregular harmonics, moments of charges, shift of moments
-/

namespace Hotbit

open Finset Complex

set_option linter.unusedSimpArgs false

/-- The irregular array against the regular one, `m = 0`. -/
theorem legI_zero (c s : ℝ) : ∀ l : ℕ, legI c s l 0 = (l.factorial : ℝ) * l.factorial * legR c s l 0
  | 0 => by simp [legI, legR]
  | 1 => by simp [legI, legR]
  | l + 2 => by
    have h1 := legI_zero c s (l + 1)
    have h2 := legI_zero c s l
    unfold legI legR
    rw [if_neg (by omega), if_neg (by omega), if_pos (by omega), if_neg (by omega), if_neg (by omega),
      if_pos (by omega), h1, h2]
    have : (l : ℝ) + 2 ≠ 0 := by positivity
    simp only [Nat.factorial_succ, Nat.cast_mul, Nat.cast_add, Nat.cast_one, Nat.cast_zero, Nat.cast_ofNat]
    field_simp
    ring

/-- The irregular array against the regular one, `m ≥ 1`. -/
theorem legI_pos (c s : ℝ) : ∀ l m : ℕ, 1 ≤ m → m ≤ l →
    s * legI c s l m = ((l - m).factorial : ℝ) * (l + m).factorial * legR c s l m
  | 0, m => by omega
  | 1, m => by
    intro h1 h2
    obtain rfl : m = 1 := by omega
    simp [legI, legR]
    ring
  | l + 2, m => by
    intro h1 h2
    unfold legI legR
    by_cases ha : m = l + 2
    · have h := legI_pos c s (l + 1) (l + 1) (by omega) (by omega)
      subst ha
      rw [if_pos rfl, if_pos rfl]
      rw [show l + 2 + (l + 2) = (l + 1 + (l + 1)) + 1 + 1 by ring]
      simp only [Nat.factorial_succ, Nat.cast_mul, Nat.cast_add, Nat.cast_one, Nat.sub_self, Nat.factorial_zero] at *
      have : (l : ℝ) + 2 ≠ 0 := by positivity
      field_simp
      linear_combination (-(2 * ((l : ℝ) + 2) - 1) * s * (2 * ((l : ℝ) + 2))) * h
    · rw [if_neg ha, if_neg ha]
      by_cases hb : m = l + 1
      · have h := legI_pos c s (l + 1) (l + 1) (by omega) (by omega)
        subst hb
        rw [if_pos rfl, if_pos rfl, show l + 2 - (l + 1) = 1 by omega,
          show l + 2 + (l + 1) = (l + 1 + (l + 1)) + 1 by ring]
        simp only [Nat.factorial_succ, Nat.cast_mul, Nat.cast_add, Nat.cast_one, Nat.sub_self,
          Nat.factorial_zero] at *
        linear_combination ((2 * ((l : ℝ) + 2) - 1) * c) * h
      · rw [if_neg hb, if_neg hb]
        have hm : m ≤ l := by omega
        rw [if_pos hm, if_pos hm]
        have e1 := legI_pos c s (l + 1) m h1 (by omega)
        have e2 := legI_pos c s l m h1 hm
        obtain ⟨d, rfl⟩ := Nat.exists_eq_add_of_le hm
        rw [show m + d + 1 - m = d + 1 by omega, show m + d + 1 + m = m + d + m + 1 by ring] at e1
        rw [show m + d - m = d by omega] at e2
        rw [show m + d + 2 - m = d + 1 + 1 by omega, show m + d + 2 + m = m + d + m + 1 + 1 by ring]
        simp only [Nat.factorial_succ, Nat.cast_mul, Nat.cast_add, Nat.cast_one] at *
        have p1 : (m : ℝ) + d + 2 + m ≠ 0 := by positivity
        have p2 : (m : ℝ) + d + 2 - m ≠ 0 := by ring_nf; positivity
        field_simp
        linear_combination ((2 * ((m : ℝ) + d + 2) - 1) * c * ((m + d + 2 + m) * (m + d + 2 - m))) * e1
          - (((m : ℝ) + d + 2 - m - 1) * ((m : ℝ) + d + 2 + m - 1) * ((m + d + 2 + m) * (m + d + 2 - m))) * e2

/-- What `solid_harmonic_I` stores. -/
theorem solidI_l0 (r : Vec) (lmax : ℕ) (junk : Moments) (l : ℕ) (hl : l ≤ lmax) :
    ((solidI (cartToSph r).1 (cartToSph r).2.1 (cartToSph r).2.2 lmax junk).l0 l : ℂ) = irregularI l 0 r := by
  simp only [solidI, storeL0, if_pos hl, cartToSph, mul_self_sqrt_arg]
  unfold irregularI assocLegendre cosTheta azimuth
  rw [legI_zero, legR_eq _ _ l 0 (by omega)]
  have : (l.factorial : ℂ) ≠ 0 := by exact_mod_cast l.factorial_ne_zero
  unfold legQ
  simp only [Nat.cast_zero, mul_zero, zero_mul, Complex.exp_zero, mul_one, pow_zero, one_mul, add_zero,
    Nat.sub_zero]
  push_cast
  field_simp

theorem solidI_lm (r : Vec) (lmax : ℕ) (junk : Moments) (l m : ℕ) (h1 : 1 ≤ m) (h2 : m ≤ l) (hl : l ≤ lmax) :
    (solidI (cartToSph r).1 (cartToSph r).2.1 (cartToSph r).2.2 lmax junk).lm (lm2index l m) = irregularI l m r := by
  simp only [solidI, cartToSph, mul_self_sqrt_arg]
  rw [storeLM_of_le _ _ _ h1 h2 hl, ← ofReal_mul, legI_pos _ _ l m h1 h2, legR_eq _ _ l m h2]
  unfold irregularI assocLegendre cosTheta azimuth legQ
  have : ((l + m).factorial : ℂ) ≠ 0 := by exact_mod_cast (l + m).factorial_ne_zero
  push_cast
  field_simp

/-- `get_moments` gives the moments. -/
theorem getMoments_isMoments (lmax : ℕ) (qr : List (ℝ × Vec)) (c : Vec) :
    IsMoments lmax (getMoments lmax qr c) qr c := by
  rw [isMoments_iff]
  have key : ∀ (qr : List (ℝ × Vec)) (M : Moments) (L : List (ℝ × Vec)),
      (∀ l ≤ lmax, (M.l0 l : ℂ) = momV L c l 0) →
      (∀ l m : ℕ, 1 ≤ m → m ≤ l → l ≤ lmax → starRingEnd ℂ (M.lm (lm2index l m)) = momV L c l m) →
      let N := qr.foldl (fun M a =>
        let R := pySolidR (a.2 - c) lmax
        (⟨fun l => M.l0 l + a.1 * R.l0 l, fun j => M.lm j + a.1 * R.lm j⟩ : Moments)) M
      (∀ l ≤ lmax, (N.l0 l : ℂ) = momV (L ++ qr) c l 0) ∧
      (∀ l m : ℕ, 1 ≤ m → m ≤ l → l ≤ lmax → starRingEnd ℂ (N.lm (lm2index l m)) = momV (L ++ qr) c l m) := by
    intro qr
    induction qr with
    | nil => intro M L h0 h1; simpa using ⟨h0, h1⟩
    | cons a qr ih =>
      intro M L h0 h1
      have hR := pySolidR_isSolid (a.2 - c) lmax
      have := ih ⟨fun l => M.l0 l + a.1 * (pySolidR (a.2 - c) lmax).l0 l,
        fun j => M.lm j + a.1 * (pySolidR (a.2 - c) lmax).lm j⟩ (L ++ [a]) ?_ ?_
      · simpa [List.append_assoc] using this
      · intro l hl
        rw [momV_append, ← h0 l hl]
        have hc : starRingEnd ℂ (solV l 0 (a.2 - c)) = solV l 0 (a.2 - c) := by
          rw [← solV_real, Complex.conj_ofReal]
        simp [momV, hc, hR.1 l hl]
      · intro l m a1 a2 a3
        rw [momV_append, ← h1 l m a1 a2 a3]
        simp [momV, hR.2 l m a1 a2 a3]
  have := key qr Moments.zero [] (by intro l _; simp [Moments.zero, momV]) (by intro l m _ _ _; simp [Moments.zero, momV])
  rw [List.nil_append] at this
  exact this

theorem sum_Icc_sub_window (k l : ℕ) (hk : k ≤ l) (m : ℤ) (f : ℤ → ℂ)
    (hf : ∀ μ, ((l - k : ℕ) : ℤ) < |m - μ| → f μ = 0) :
    ∑ μ ∈ Icc (max (-(k : ℤ)) (k - l + m)) (min (k : ℤ) (-k + l + m)), f μ = ∑ μ ∈ Icc (-(k : ℤ)) k, f μ := by
  apply Finset.sum_subset
  · intro x; simp only [Finset.mem_Icc]; omega
  · intro x hx hn
    apply hf
    simp only [Finset.mem_Icc] at hx hn
    rw [lt_abs]
    omega

theorem sum_Icc_one_min (k d : ℕ) (f : ℕ → ℂ) (hf : ∀ μ, d < μ → f μ = 0) :
    ∑ μ ∈ Icc 1 (min k d), f μ = ∑ μ ∈ Icc 1 k, f μ := by
  apply Finset.sum_subset
  · intro x; simp only [Finset.mem_Icc]; omega
  · intro x hx hn
    apply hf
    simp only [Finset.mem_Icc] at hx hn
    omega

theorem lm2index_nonneg (l m : ℕ) (h1 : 1 ≤ m) (h2 : m ≤ l) (lmax : ℕ) (hl : l ≤ lmax) :
    0 ≤ lm2index l m ∧ lm2index l m ≤ lm2index lmax lmax := by
  have nn : 0 ≤ (l : ℤ) * (l - 1) := by
    rcases Nat.eq_zero_or_pos l with h | h
    · subst h; simp
    · exact mul_nonneg (by omega) (by omega)
  refine ⟨?_, ?_⟩
  · unfold lm2index
    have : 0 ≤ (l : ℤ) * (l - 1) / 2 := Int.ediv_nonneg nn (by norm_num)
    omega
  · rcases Nat.lt_or_ge l lmax with h | h
    · exact (lm2index_mono h2 h (by omega)).le
    · obtain rfl : l = lmax := by omega
      unfold lm2index; omega

/-- The sums of `multipole_to_multipole`, component `m = 0`. -/
theorem m2m_sum0 (lmax : ℕ) (child R : Moments) (qr : List (ℝ × Vec)) (c c' : Vec)
    (hM : IsMoments lmax child qr c) (hR : IsSolid lmax R (c - c')) (l : ℕ) (hl : l ≤ lmax) :
    ((∑ k ∈ range (l + 1),
        (child.l0 (l - k) * R.l0 k + ∑ μ ∈ Icc 1 (min k (l - k)),
          2 * (-1) ^ μ * (child.lm (lm2index (l - k : ℕ) μ) * R.lm (lm2index k μ)).re) : ℝ) : ℂ)
      = momV qr c' l 0 := by
  have hM' := (isMoments_iff _ _ _ _).1 hM
  rw [momV_add qr c c' l 0, Complex.ofReal_sum]
  apply Finset.sum_congr rfl
  intro k hk
  rw [Finset.mem_range] at hk
  rw [sum_Icc_sym, Complex.ofReal_add, Complex.ofReal_mul, Complex.ofReal_sum, hM'.1 (l - k) (by omega),
    hR.1 k (by omega)]
  have hc : starRingEnd ℂ (solV k 0 (c - c')) = solV k 0 (c - c') := by
    rw [← solV_real, Complex.conj_ofReal]
  rw [hc, sub_zero]
  congr 1
  rw [← sum_Icc_one_min k (l - k)]
  · apply Finset.sum_congr rfl
    intro μ hμ
    rw [Finset.mem_Icc] at hμ
    rw [hM'.2 (l - k) μ (by omega) (by omega) (by omega), hR.2 k μ (by omega) (by omega) (by omega), re_pair]
    rw [zero_sub, zero_sub, neg_neg, momV_neg_m, solV_neg_m]
  · intro μ hμ
    rw [momV_zero_of_lt _ _ _ _ (by rw [zero_sub, abs_neg, abs_of_nonneg (by omega)]; omega),
      momV_zero_of_lt _ _ _ _ (by rw [zero_sub, neg_neg, abs_of_nonneg (by omega)]; omega)]
    simp

/-- The sums of `multipole_to_multipole`, component `m ≥ 1`. -/
theorem m2m_sum (lmax : ℕ) (child R : Moments) (qr : List (ℝ × Vec)) (c c' : Vec)
    (hM : IsMoments lmax child qr c) (hR : IsSolid lmax R (c - c')) (l m : ℕ) (hl : l ≤ lmax) :
    (∑ k ∈ range (l + 1), ∑ μ ∈ Icc (max (-(k : ℤ)) (k - l + m)) (min (k : ℤ) (-k + l + m)),
          child.at (l - k) (m - μ) * starRingEnd ℂ (R.at k μ)) = momV qr c' l m := by
  rw [momV_add qr c c' l m]
  apply Finset.sum_congr rfl
  intro k hk
  rw [Finset.mem_range] at hk
  rw [← sum_Icc_sub_window k l (by omega) m]
  · apply Finset.sum_congr rfl
    intro μ hμ
    rw [Finset.mem_Icc] at hμ
    rw [hM.at_eq (by omega) (by rw [abs_le]; omega), hR.at_eq (by omega) (by rw [abs_le]; omega)]
  · intro μ hμ
    rw [momV_zero_of_lt _ _ _ _ hμ, zero_mul]

theorem m2m_isMoments (lmax : ℕ) (child M junk : Moments) (qr qr' : List (ℝ × Vec)) (c c' : Vec)
    (hc : IsMoments lmax child qr c) (hM : IsMoments lmax M qr' c') :
    IsMoments lmax (m2m (c - c') lmax child M junk) (qr' ++ qr) c' := by
  have hM' := (isMoments_iff _ _ _ _).1 hM
  rw [isMoments_iff]
  unfold m2m
  by_cases h : c - c' = 0
  · rw [if_pos ((vec_eq_zero _).2 h)]
    obtain rfl : c = c' := sub_eq_zero.1 h
    have hc' := (isMoments_iff _ _ _ _).1 hc
    constructor
    · intro l hl
      simp only [accumL0, if_pos hl, momV_append, ofReal_add, hM'.1 l hl, hc'.1 l hl]
    · intro l m h1 h2 h3
      have := lm2index_nonneg l m h1 h2 lmax h3
      simp only [if_pos this, momV_append, hM'.2 l m h1 h2 h3, hc'.2 l m h1 h2 h3]
  · rw [if_neg (fun h' => h ((vec_eq_zero _).1 h'))]
    have hR := solidR_isSolid (c - c') h lmax junk
    constructor
    · intro l hl
      simp only [accumL0, if_pos hl]
      rw [ofReal_add, m2m_sum0 lmax child _ qr c c' hc hR l hl, momV_append, hM'.1 l hl]
    · intro l m h1 h2 h3
      simp only
      rw [accumLM_of_le _ _ _ h1 h2 h3, m2m_sum lmax child _ qr c c' hc hR l m h3, momV_append,
        hM'.2 l m h1 h2 h3]

end Hotbit
