import Verif.Lemmas.LaplaceSeries
import Mathlib.Analysis.Complex.Basic
import Mathlib.Data.Nat.Choose.Sum
import Mathlib.Analysis.SpecificLimits.Normed

/-!
# Expansion about two centres: bound of the terms and error
-/

namespace Hotbit

open Finset Complex

set_option linter.unusedSimpArgs false

/-- Term of degree `l` in the target and `k` in the source. -/
noncomputable def biT (u a r : Vec) (l k : ℕ) : ℂ :=
  ∑ m ∈ Icc (-(l : ℤ)) l, ∑ μ ∈ Icc (-(k : ℤ)) k,
    starRingEnd ℂ (solV k μ a) * irrV (l + k) (m + μ) r * starRingEnd ℂ (solV l m (-u))

theorem sum_Icc_range {R : Type*} [AddCommMonoid R] (l : ℕ) (g : ℤ → R) :
    ∑ m ∈ Icc (-(l : ℤ)) l, g m = ∑ i ∈ range (2 * l + 1), g ((i : ℤ) - l) := by
  refine Finset.sum_bij' (fun m _ => (m + l).toNat) (fun i _ => (i : ℤ) - l) ?_ ?_ ?_ ?_ ?_
  · intro m hm; rw [Finset.mem_Icc] at hm; rw [Finset.mem_range]; omega
  · intro i hi; rw [Finset.mem_range] at hi; rw [Finset.mem_Icc]; omega
  · intro m hm; rw [Finset.mem_Icc] at hm; omega
  · intro i hi; omega
  · intro m hm; rw [Finset.mem_Icc] at hm
    congr 1; omega

theorem irrW_inv (l i : ℕ) (h : i ≤ 2 * l) :
    (irrW l ((i : ℤ) - l))⁻¹ = ((2 * l).choose i : ℝ) / ((2 * l).factorial : ℝ) := by
  unfold irrW
  have e1 : ((l : ℤ) - ((i : ℤ) - l)).toNat = 2 * l - i := by omega
  have e2 : ((l : ℤ) + ((i : ℤ) - l)).toNat = i := by omega
  rw [e1, e2]
  have hc := Nat.choose_mul_factorial_mul_factorial h
  have hc' : ((2 * l).choose i : ℝ) * i.factorial * (2 * l - i).factorial = (2 * l).factorial := by exact_mod_cast hc
  have h1 : (i.factorial : ℝ) ≠ 0 := Nat.cast_ne_zero.2 i.factorial_ne_zero
  have h2 : ((2 * l - i).factorial : ℝ) ≠ 0 := Nat.cast_ne_zero.2 (Nat.factorial_ne_zero _)
  have h3 : ((2 * l).factorial : ℝ) ≠ 0 := Nat.cast_ne_zero.2 (Nat.factorial_ne_zero _)
  rw [eq_div_iff h3, ← hc']
  field_simp

theorem irrW_pos (l : ℕ) (m : ℤ) : 0 < irrW l m := by unfold irrW; positivity

theorem choose_step (a : ℕ) (f : ℕ → ℝ) :
    ∑ i ∈ range (a + 2), ((a + 1).choose i : ℝ) * f i = ∑ i ∈ range (a + 1), (a.choose i : ℝ) * (f i + f (i + 1)) := by
  have := Finset.sum_choose_succ_mul (fun i _ => f i) a
  rw [this, ← Finset.sum_add_distrib]
  refine Finset.sum_congr rfl fun i _ => ?_
  ring

/-- Vandermonde's convolution, summed against any function. -/
theorem choose_convolution (a b : ℕ) (f : ℕ → ℝ) :
    ∑ i ∈ range (a + 1), ∑ j ∈ range (b + 1), (a.choose i : ℝ) * (b.choose j : ℝ) * f (i + j) =
      ∑ s ∈ range (a + b + 1), ((a + b).choose s : ℝ) * f s := by
  induction b generalizing f with
  | zero => simp
  | succ b ih =>
    have e : ∀ i, ∑ j ∈ range (b + 1 + 1), (a.choose i : ℝ) * ((b + 1).choose j : ℝ) * f (i + j) =
        ∑ j ∈ range (b + 1), (a.choose i : ℝ) * (b.choose j : ℝ) * (fun s => f s + f (s + 1)) (i + j) := by
      intro i
      have := choose_step b (fun j => f (i + j))
      simp only [mul_assoc, ← Finset.mul_sum]
      rw [this]
      rfl
    refine (Finset.sum_congr rfl fun i _ => e i).trans ((ih fun s => f s + f (s + 1)).trans ?_)
    rw [show a + (b + 1) + 1 = a + b + 2 by ring, show a + (b + 1) = a + b + 1 by ring, choose_step]

/-- Sum of the squares of the irregular harmonics with the weights of both centres. -/
theorem irr_two_norm (r : Vec) (h : r ≠ 0) (l k : ℕ) :
    ∑ m ∈ Icc (-(l : ℤ)) l, ∑ μ ∈ Icc (-(k : ℤ)) k, (irrW l m)⁻¹ * (irrW k μ)⁻¹ * ‖irrV (l + k) (m + μ) r‖ ^ 2 =
      ((2 * (l + k)).choose (2 * l) : ℝ) * (norm3 r)⁻¹ ^ (2 * (l + k) + 2) := by
  have hp := norm3_pos h
  rw [sum_Icc_range]
  have e1 : ∀ i ∈ range (2 * l + 1), ∑ μ ∈ Icc (-(k : ℤ)) k, (irrW l ((i : ℤ) - l))⁻¹ * (irrW k μ)⁻¹ *
      ‖irrV (l + k) ((i : ℤ) - l + μ) r‖ ^ 2 =
      ∑ j ∈ range (2 * k + 1), ((2 * l).choose i : ℝ) * ((2 * k).choose j : ℝ) *
        (fun s : ℕ => (((2 * l).factorial : ℝ))⁻¹ * ((2 * k).factorial : ℝ)⁻¹ *
          ‖irrV (l + k) ((s : ℤ) - (l + k : ℕ)) r‖ ^ 2) (i + j) := by
    intro i hi
    rw [Finset.mem_range] at hi
    rw [sum_Icc_range]
    refine Finset.sum_congr rfl fun j hj => ?_
    rw [Finset.mem_range] at hj
    rw [irrW_inv l i (by omega), irrW_inv k j (by omega)]
    have : ((i + j : ℕ) : ℤ) - ((l + k : ℕ) : ℤ) = (i : ℤ) - l + ((j : ℤ) - k) := by push_cast; ring
    simp only [this]
    ring
  refine ((Finset.sum_congr rfl e1).trans (choose_convolution (2 * l) (2 * k)
    (fun s : ℕ => (((2 * l).factorial : ℝ))⁻¹ * ((2 * k).factorial : ℝ)⁻¹ *
      ‖irrV (l + k) ((s : ℤ) - (l + k : ℕ)) r‖ ^ 2))).trans ?_
  have e2 : ∀ s ∈ range (2 * l + 2 * k + 1), ((2 * l + 2 * k).choose s : ℝ) *
      ((((2 * l).factorial : ℝ))⁻¹ * ((2 * k).factorial : ℝ)⁻¹ * ‖irrV (l + k) ((s : ℤ) - (l + k : ℕ)) r‖ ^ 2) =
      ((2 * (l + k)).choose (2 * l) : ℝ) * (norm3 r)⁻¹ ^ (2 * (2 * (l + k) + 1)) *
        (irrW (l + k) ((s : ℤ) - (l + k : ℕ)) * ‖solV (l + k) ((s : ℤ) - (l + k : ℕ)) r‖ ^ 2) := by
    intro s hs
    rw [Finset.mem_range] at hs
    have hw := irrW_inv (l + k) s (by omega)
    have hw0 := irrW_pos (l + k) ((s : ℤ) - (l + k : ℕ))
    set w := irrW (l + k) ((s : ℤ) - (l + k : ℕ)) with hwdef
    unfold irrV
    rw [irrFac_irrW, ← hwdef, norm_mul, norm_mul, Complex.norm_real, Complex.norm_real, Real.norm_eq_abs, Real.norm_eq_abs,
      abs_of_pos hw0, abs_of_pos (by positivity)]
    have hc := Nat.choose_mul_factorial_mul_factorial (show 2 * l ≤ 2 * (l + k) by omega)
    have hc' : ((2 * (l + k)).choose (2 * l) : ℝ) * (2 * l).factorial * (2 * k).factorial = (2 * (l + k)).factorial := by
      rw [show 2 * (l + k) - 2 * l = 2 * k by omega] at hc
      exact_mod_cast hc
    have h1 : ((2 * l).factorial : ℝ) ≠ 0 := Nat.cast_ne_zero.2 (Nat.factorial_ne_zero _)
    have h2 : ((2 * k).factorial : ℝ) ≠ 0 := Nat.cast_ne_zero.2 (Nat.factorial_ne_zero _)
    have h3 : ((2 * (l + k)).factorial : ℝ) ≠ 0 := Nat.cast_ne_zero.2 (Nat.factorial_ne_zero _)
    have hw1 : ((2 * l + 2 * k).choose s : ℝ) * w = (2 * (l + k)).factorial := by
      rw [show 2 * l + 2 * k = 2 * (l + k) by ring]
      rw [eq_div_iff h3] at hw
      rw [← hw]; field_simp
    have hpow : ((norm3 r)⁻¹ ^ (2 * (l + k) + 1)) ^ 2 = (norm3 r)⁻¹ ^ (2 * (2 * (l + k) + 1)) := by
      rw [← pow_mul]; congr 1; ring
    have : ((2 * l + 2 * k).choose s : ℝ) * (((2 * l).factorial : ℝ)⁻¹ * ((2 * k).factorial : ℝ)⁻¹ *
        (w * ‖solV (l + k) ((s : ℤ) - (l + k : ℕ)) r‖ * (norm3 r)⁻¹ ^ (2 * (l + k) + 1)) ^ 2) =
        (((2 * l + 2 * k).choose s : ℝ) * w) * (((2 * l).factorial : ℝ)⁻¹ * ((2 * k).factorial : ℝ)⁻¹) *
          (w * ‖solV (l + k) ((s : ℤ) - (l + k : ℕ)) r‖ ^ 2 * ((norm3 r)⁻¹ ^ (2 * (l + k) + 1)) ^ 2) := by ring
    rw [this, hw1, hpow, ← hc']
    field_simp
  rw [Finset.sum_congr rfl e2, ← Finset.mul_sum, show 2 * l + 2 * k + 1 = 2 * (l + k) + 1 by ring,
    ← sum_Icc_range (l + k) (fun M => irrW (l + k) M * ‖solV (l + k) M r‖ ^ 2), solV_norm]
  have : (norm3 r)⁻¹ ^ (2 * (2 * (l + k) + 1)) = (norm3 r)⁻¹ ^ (2 * (l + k)) * (norm3 r)⁻¹ ^ (2 * (l + k) + 2) := by
    rw [← pow_add]; congr 1; ring
  have h3 : (norm3 r)⁻¹ ^ (2 * (l + k)) * norm3 r ^ (2 * (l + k)) = 1 := by rw [← mul_pow]; field_simp; simp
  rw [this]
  linear_combination (((2 * (l + k)).choose (2 * l) : ℝ) * (norm3 r)⁻¹ ^ (2 * (l + k) + 2)) * h3

theorem dot3_le (a b : Vec) : dot3 a b ≤ norm3 a * norm3 b := by
  have ha := norm3_nonneg a
  have hb := norm3_nonneg b
  refine (abs_le_of_sq_le_sq' ?_ (by positivity)).2
  rw [mul_pow, norm3_sq, norm3_sq]
  unfold dot3
  nlinarith [sq_nonneg (a 0 * b 1 - a 1 * b 0), sq_nonneg (a 0 * b 2 - a 2 * b 0), sq_nonneg (a 1 * b 2 - a 2 * b 1)]

theorem norm3_add_le (a b : Vec) : norm3 (a + b) ≤ norm3 a + norm3 b := by
  have ha := norm3_nonneg a
  have hb := norm3_nonneg b
  refine (abs_le_of_sq_le_sq' ?_ (by positivity)).2
  have h := dot3_le a b
  have e : norm3 (a + b) ^ 2 = norm3 a ^ 2 + 2 * dot3 a b + norm3 b ^ 2 := by
    rw [norm3_sq, norm3_sq, norm3_sq]
    unfold dot3
    simp only [Pi.add_apply]
    ring
  rw [e]
  nlinarith

/-- Bound of the terms. -/
theorem biT_le (u a r : Vec) (h : r ≠ 0) (l k : ℕ) :
    ‖biT u a r l k‖ ≤ (norm3 u + norm3 a) ^ (l + k) * (norm3 r)⁻¹ ^ (l + k + 1) := by
  have hp := norm3_pos h
  have hu := norm3_nonneg u
  have ha := norm3_nonneg a
  set P : Finset (ℤ × ℤ) := Icc (-(l : ℤ)) l ×ˢ Icc (-(k : ℤ)) k with hP
  set f : ℤ × ℤ → ℝ := fun p => (√(irrW k p.2) * ‖solV k p.2 a‖) * (√(irrW l p.1) * ‖solV l p.1 (-u)‖) with hf
  set g : ℤ × ℤ → ℝ := fun p => √((irrW l p.1)⁻¹ * (irrW k p.2)⁻¹) * ‖irrV (l + k) (p.1 + p.2) r‖ with hg
  have h1 : ‖biT u a r l k‖ ≤ ∑ p ∈ P, f p * g p := by
    unfold biT
    rw [hP, Finset.sum_product]
    refine (norm_sum_le _ _).trans (Finset.sum_le_sum fun m _ => ?_)
    refine (norm_sum_le _ _).trans (Finset.sum_le_sum fun μ _ => ?_)
    rw [norm_mul, norm_mul, Complex.norm_conj, Complex.norm_conj]
    have hk := irrW_pos k μ
    have hl := irrW_pos l m
    have e : √(irrW k μ) * √(irrW l m) * √((irrW l m)⁻¹ * (irrW k μ)⁻¹) = 1 := by
      rw [← Real.sqrt_mul hk.le, ← Real.sqrt_mul (by positivity)]
      rw [show irrW k μ * irrW l m * ((irrW l m)⁻¹ * (irrW k μ)⁻¹) = 1 by field_simp, Real.sqrt_one]
    simp only [hf, hg]
    refine le_of_eq ?_
    linear_combination (-(‖solV k μ a‖ * ‖irrV (l + k) (m + μ) r‖ * ‖solV l m (-u)‖)) * e
  have h2 : (∑ p ∈ P, f p * g p) ^ 2 ≤ ((norm3 u + norm3 a) ^ (l + k) * (norm3 r)⁻¹ ^ (l + k + 1)) ^ 2 := by
    refine (Finset.sum_mul_sq_le_sq_mul_sq _ _ _).trans ?_
    have ef : ∑ p ∈ P, f p ^ 2 = norm3 u ^ (2 * l) * norm3 a ^ (2 * k) := by
      rw [hP, Finset.sum_product]
      have : ∀ m ∈ Icc (-(l : ℤ)) l, ∑ μ ∈ Icc (-(k : ℤ)) k, f (m, μ) ^ 2 =
          (irrW l m * ‖solV l m (-u)‖ ^ 2) * norm3 a ^ (2 * k) := by
        intro m _
        rw [← solV_norm k a, Finset.mul_sum]
        refine Finset.sum_congr rfl fun μ _ => ?_
        simp only [hf, mul_pow, Real.sq_sqrt (irrW_nonneg _ _)]
        ring
      rw [Finset.sum_congr rfl this, ← Finset.sum_mul, solV_norm, norm3_neg]
    have eg : ∑ p ∈ P, g p ^ 2 = ((2 * (l + k)).choose (2 * l) : ℝ) * (norm3 r)⁻¹ ^ (2 * (l + k) + 2) := by
      rw [hP, Finset.sum_product, ← irr_two_norm r h l k]
      refine Finset.sum_congr rfl fun m _ => Finset.sum_congr rfl fun μ _ => ?_
      have hk := irrW_pos k μ
      have hl := irrW_pos l m
      simp only [hg, mul_pow]
      rw [Real.sq_sqrt (by positivity)]
    rw [ef, eg]
    have hb : norm3 u ^ (2 * l) * norm3 a ^ (2 * k) * ((2 * (l + k)).choose (2 * l) : ℝ) ≤
        (norm3 u + norm3 a) ^ (2 * (l + k)) := by
      rw [add_pow]
      have := Finset.single_le_sum (f := fun m => norm3 u ^ m * norm3 a ^ (2 * (l + k) - m) * ((2 * (l + k)).choose m : ℝ))
        (s := range (2 * (l + k) + 1)) (fun i _ => by positivity) (show 2 * l ∈ range (2 * (l + k) + 1) by
          rw [Finset.mem_range]; omega)
      rw [show 2 * (l + k) - 2 * l = 2 * k by omega] at this
      exact this
    calc norm3 u ^ (2 * l) * norm3 a ^ (2 * k) * (((2 * (l + k)).choose (2 * l) : ℝ) * (norm3 r)⁻¹ ^ (2 * (l + k) + 2))
        = (norm3 u ^ (2 * l) * norm3 a ^ (2 * k) * ((2 * (l + k)).choose (2 * l) : ℝ)) * (norm3 r)⁻¹ ^ (2 * (l + k) + 2) := by ring
      _ ≤ (norm3 u + norm3 a) ^ (2 * (l + k)) * (norm3 r)⁻¹ ^ (2 * (l + k) + 2) :=
          mul_le_mul_of_nonneg_right hb (by positivity)
      _ = _ := by rw [mul_pow, ← pow_mul, ← pow_mul]; congr 2 <;> ring
  exact h1.trans (abs_le_of_sq_le_sq' h2 (by positivity)).2

/-- The terms of the series are sums of terms of the two expansions. -/
theorem lapT_two (u a r : Vec) (n : ℕ) :
    ((lapT (a - u) r n : ℝ) : ℂ) = ∑ k ∈ range (n + 1), biT u a r (n - k) k := by
  rw [lapT_eq]
  have e : ∀ M ∈ Icc (-(n : ℤ)) n, starRingEnd ℂ (solV n M (a - u)) * irrV n M r =
      ∑ k ∈ range (n + 1), irrV n M r * ∑ μ ∈ Icc (-(k : ℤ)) k,
        starRingEnd ℂ (solV k μ a) * starRingEnd ℂ (solV (n - k) (M - μ) (-u)) := by
    intro M _
    rw [sub_eq_add_neg, solV_add, map_sum, Finset.sum_mul]
    refine Finset.sum_congr rfl fun k _ => ?_
    rw [map_sum, mul_comm]
    congr 1
    refine Finset.sum_congr rfl fun μ _ => ?_
    rw [map_mul]
  rw [Finset.sum_congr rfl e, Finset.sum_comm]
  refine Finset.sum_congr rfl fun k hk => ?_
  rw [Finset.mem_range] at hk
  have := sum_orders (n - k) k (fun M => irrV n M r) (fun μ => starRingEnd ℂ (solV k μ a))
    (fun m => starRingEnd ℂ (solV (n - k) m (-u))) (by
      intro m hm; rw [solV_zero_of_lt _ _ _ hm]; simp)
  have hn : n - k + k = n := by omega
  rw [hn] at this
  rw [← this]
  unfold biT
  rw [hn]
  refine Finset.sum_congr rfl fun m _ => ?_
  rw [Finset.sum_mul]
  refine Finset.sum_congr rfl fun μ _ => ?_
  ring

theorem antidiagonal_square (p : ℕ) (F : ℕ → ℕ → ℂ) :
    ∑ n ∈ range (2 * p + 1), ∑ k ∈ range (n + 1), (if n - k ≤ p ∧ k ≤ p then F (n - k) k else 0) =
      ∑ l ∈ range (p + 1), ∑ k ∈ range (p + 1), F l k := by
  rw [Finset.sum_sigma', ← Finset.sum_filter, Finset.sum_sigma']
  refine Finset.sum_bij' (fun x _ => ⟨x.1 - x.2, x.2⟩) (fun x _ => ⟨x.1 + x.2, x.2⟩) ?_ ?_ ?_ ?_ ?_
  · rintro ⟨n, k⟩ h; simp only [Finset.mem_filter, Finset.mem_sigma, Finset.mem_range] at *; omega
  · rintro ⟨l, k⟩ h; simp only [Finset.mem_filter, Finset.mem_sigma, Finset.mem_range] at *; omega
  · rintro ⟨n, k⟩ h; simp only [Finset.mem_filter, Finset.mem_sigma, Finset.mem_range] at *
    have : n - k + k = n := by omega
    simp [this]
  · rintro ⟨l, k⟩ h; simp
  · rintro ⟨n, k⟩ h; rfl

theorem two_error (u a r : Vec) (h : norm3 u + norm3 a < norm3 r) (p : ℕ) :
    ‖(((norm3 (r + u - a))⁻¹ : ℝ) : ℂ) - ∑ l ∈ range (p + 1), ∑ k ∈ range (p + 1), biT u a r l k‖ ≤
      farError p (norm3 u + norm3 a) (norm3 r) := by
  have hu := norm3_nonneg u
  have ha := norm3_nonneg a
  have hp : 0 < norm3 r := by linarith
  have hr : r ≠ 0 := by
    intro h0; rw [h0, norm3_eq_zero.2 rfl] at hp; exact lt_irrefl _ hp
  set s := norm3 u + norm3 a with hs
  have x0 : 0 ≤ s / norm3 r := by positivity
  have x1 : s / norm3 r < 1 := (div_lt_one hp).2 h
  -- the observer is inside the region of convergence
  have hau : norm3 (a - u) < norm3 r := by
    have : norm3 (a - u) ≤ norm3 a + norm3 (-u) := by
      rw [sub_eq_add_neg]; exact norm3_add_le a (-u)
    rw [norm3_neg] at this
    linarith
  have hT := lap_hasSum (a - u) r hau
  rw [show r - (a - u) = r + u - a by abel] at hT
  have hTc : HasSum (fun n => ((lapT (a - u) r n : ℝ) : ℂ)) (((norm3 (r + u - a))⁻¹ : ℝ) : ℂ) :=
    Complex.hasSum_ofReal.2 hT
  set t : ℕ → ℂ := fun n => ∑ k ∈ range (n + 1), (if n - k ≤ p ∧ k ≤ p then biT u a r (n - k) k else 0) with ht
  have hD : HasSum t (∑ l ∈ range (p + 1), ∑ k ∈ range (p + 1), biT u a r l k) := by
    rw [← antidiagonal_square]
    apply hasSum_sum_of_ne_finset_zero
    intro n hn
    rw [Finset.mem_range] at hn
    simp only [ht]
    refine Finset.sum_eq_zero fun k hk => ?_
    rw [Finset.mem_range] at hk
    rw [if_neg (by omega)]
  have hd := (hasSum_nat_add_iff' (p + 1)).2 (hTc.sub hD)
  have hz : ∑ n ∈ range (p + 1), (((lapT (a - u) r n : ℝ) : ℂ) - t n) = 0 := by
    refine Finset.sum_eq_zero fun n hn => ?_
    rw [Finset.mem_range] at hn
    rw [lapT_two, ht, sub_eq_zero]
    refine Finset.sum_congr rfl fun k hk => ?_
    rw [Finset.mem_range] at hk
    rw [if_pos (by omega)]
  rw [hz, sub_zero] at hd
  have hb : ∀ n, ‖((lapT (a - u) r (n + (p + 1)) : ℝ) : ℂ) - t (n + (p + 1))‖ ≤
      (norm3 r)⁻¹ * (s / norm3 r) ^ (p + 1) * ((n : ℝ) * (s / norm3 r) ^ n + ((p : ℝ) + 2) * (s / norm3 r) ^ n) := by
    intro n
    rw [lapT_two, ht]
    simp only
    rw [← Finset.sum_sub_distrib]
    have hterm : ∀ k ∈ range (n + (p + 1) + 1),
        ‖biT u a r (n + (p + 1) - k) k - (if n + (p + 1) - k ≤ p ∧ k ≤ p then biT u a r (n + (p + 1) - k) k else 0)‖ ≤
          s ^ (n + (p + 1)) * (norm3 r)⁻¹ ^ (n + (p + 1) + 1) := by
      intro k hk
      rw [Finset.mem_range] at hk
      have hbi := biT_le u a r hr (n + (p + 1) - k) k
      rw [show n + (p + 1) - k + k = n + (p + 1) by omega] at hbi
      by_cases hc : n + (p + 1) - k ≤ p ∧ k ≤ p
      · rw [if_pos hc, sub_self, norm_zero]; positivity
      · rw [if_neg hc, sub_zero]; exact hbi
    refine (norm_sum_le_of_le _ hterm).trans (le_of_eq ?_)
    rw [Finset.sum_const, Finset.card_range, nsmul_eq_mul, div_eq_mul_inv, mul_pow, mul_pow, pow_succ (norm3 r)⁻¹ (n + (p + 1)),
      pow_add s, pow_add (norm3 r)⁻¹]
    push_cast
    ring
  have hx : ‖s / norm3 r‖ < 1 := by rwa [Real.norm_eq_abs, abs_of_nonneg x0]
  have hg := ((hasSum_coe_mul_geometric_of_norm_lt_one hx).add ((hasSum_geometric_of_lt_one x0 x1).mul_left ((p : ℝ) + 2))).mul_left
    ((norm3 r)⁻¹ * (s / norm3 r) ^ (p + 1))
  have := tsum_of_norm_bounded hg hb
  rw [hd.tsum_eq] at this
  unfold farError
  rw [div_eq_mul_inv ((p : ℝ) + 2)]
  exact this

end Hotbit
