import Verif.Lemmas.MultipoleLocal
import Mathlib.Analysis.Calculus.IteratedDeriv.Lemmas
import Mathlib.Analysis.Calculus.Deriv.Inv
import Mathlib.Analysis.Calculus.Deriv.Pow

/-!
# Derivatives of irregular harmonics, conversion of multipoles to a local expansion
-/

namespace Hotbit

open Finset Complex

set_option linter.unusedSimpArgs false

/-- The factor `(l-m)!(l+m)!`. -/
noncomputable def irrFac (l : ℕ) (m : ℤ) : ℂ := (((l : ℤ) - m).toNat.factorial : ℂ) * (((l : ℤ) + m).toNat.factorial : ℂ)

/-- Irregular harmonic for any sign of `m`. -/
noncomputable def irrV (l : ℕ) (m : ℤ) (r : Vec) : ℂ :=
  irrFac l m * solV l m r * (((norm3 r)⁻¹ ^ (2 * l + 1) : ℝ) : ℂ)

theorem irrFac_neg (l : ℕ) (m : ℤ) : irrFac l (-m) = irrFac l m := by
  unfold irrFac; rw [sub_neg_eq_add, ← sub_eq_add_neg, mul_comm]

theorem conj_irrFac (l : ℕ) (m : ℤ) : starRingEnd ℂ (irrFac l m) = irrFac l m := by
  unfold irrFac; simp

theorem irrV_neg_m (l : ℕ) (m : ℤ) (r : Vec) : irrV l (-m) r = (-1) ^ m * starRingEnd ℂ (irrV l m r) := by
  unfold irrV
  rw [solV_neg_m, irrFac_neg]
  simp only [map_mul, conj_irrFac, Complex.conj_ofReal]
  ring

theorem irregularI_eq (l m : ℕ) (hm : m ≤ l) (r : Vec) (h : r ≠ 0) : irregularI l m r = irrV l m r := by
  have hp := norm3_pos h
  unfold irrV
  rw [← regularR_eq l m hm r]
  unfold irregularI regularR irrFac
  have e1 : ((l : ℤ) - m).toNat = l - m := by omega
  have e2 : ((l : ℤ) + m).toNat = l + m := by omega
  rw [e1, e2]
  have h1 : ((l + m).factorial : ℂ) ≠ 0 := by exact_mod_cast (l + m).factorial_ne_zero
  have h2 : ((norm3 r : ℝ) : ℂ) ≠ 0 := by exact_mod_cast hp.ne'
  push_cast
  rw [show 2 * l + 1 = l + (l + 1) by ring]
  simp only [one_div, inv_pow]
  field_simp
  ring

theorem irrFac_z (l : ℕ) (m : ℤ) (hm : |m| ≤ l) : irrFac (l + 1) m = irrFac l m * (((l : ℂ) + 1 - m) * (l + 1 + m)) := by
  rw [abs_le] at hm
  unfold irrFac
  obtain ⟨a, ha⟩ : ∃ a : ℕ, (l : ℤ) - m = a := ⟨((l : ℤ) - m).toNat, by omega⟩
  obtain ⟨b, hb⟩ : ∃ b : ℕ, (l : ℤ) + m = b := ⟨((l : ℤ) + m).toNat, by omega⟩
  have ca : ((l : ℂ) - m) = a := by exact_mod_cast congrArg (fun x : ℤ => (x : ℂ)) ha
  have cb : ((l : ℂ) + m) = b := by exact_mod_cast congrArg (fun x : ℤ => (x : ℂ)) hb
  rw [show (((l + 1 : ℕ) : ℤ) - m).toNat = a + 1 by push_cast; omega,
    show (((l + 1 : ℕ) : ℤ) + m).toNat = b + 1 by push_cast; omega, ha, hb, Nat.factorial_succ, Nat.factorial_succ]
  simp only [Int.toNat_natCast]
  push_cast
  rw [show (l : ℂ) + 1 - m = a + 1 by rw [← ca]; ring, show (l : ℂ) + 1 + m = b + 1 by rw [← cb]; ring]
  ring

theorem irrFac_up (l : ℕ) (m : ℤ) (hm : |m| ≤ l) :
    irrFac (l + 1) (m + 1) = irrFac l m * (((l : ℂ) + 2 + m) * (l + 1 + m)) := by
  rw [abs_le] at hm
  unfold irrFac
  obtain ⟨a, ha⟩ : ∃ a : ℕ, (l : ℤ) - m = a := ⟨((l : ℤ) - m).toNat, by omega⟩
  obtain ⟨b, hb⟩ : ∃ b : ℕ, (l : ℤ) + m = b := ⟨((l : ℤ) + m).toNat, by omega⟩
  have cb : ((l : ℂ) + m) = b := by exact_mod_cast congrArg (fun x : ℤ => (x : ℂ)) hb
  rw [show (((l + 1 : ℕ) : ℤ) - (m + 1)).toNat = a by push_cast; omega,
    show (((l + 1 : ℕ) : ℤ) + (m + 1)).toNat = b + 1 + 1 by push_cast; omega, ha, hb, Nat.factorial_succ,
    Nat.factorial_succ]
  simp only [Int.toNat_natCast]
  push_cast
  rw [show (l : ℂ) + 1 + m = b + 1 by rw [← cb]; ring, show (l : ℂ) + 2 + m = b + 2 by rw [← cb]; ring]
  ring

theorem irrFac_down (l : ℕ) (m : ℤ) (hm : |m| ≤ l) :
    irrFac (l + 1) (m - 1) = irrFac l m * (((l : ℂ) + 2 - m) * (l + 1 - m)) := by
  have := irrFac_up l (-m) (by rwa [abs_neg])
  rw [show -m + 1 = -(m - 1) by ring, irrFac_neg, irrFac_neg] at this
  rw [this]
  push_cast
  ring

/-- Derivative of the inverse powers of the distance. -/
theorem inv_norm_pow_hasDerivAt (r u : Vec) (h : r ≠ 0) (n : ℕ) :
    HasDerivAt (fun s : ℝ => (norm3 (r + s • u))⁻¹ ^ n)
      (-(n : ℝ) * (r 0 * u 0 + r 1 * u 1 + r 2 * u 2) * (norm3 r)⁻¹ ^ (n + 2)) 0 := by
  have hp := norm3_pos h
  have d := norm3_hasDerivAt r u h
  have d2 := (HasDerivAt.fun_inv d (by simpa using hp.ne')).fun_pow n
  refine d2.congr_deriv ?_
  rw [dotProduct, Fin.sum_univ_three]
  simp only [zero_smul, add_zero, Pi.smul_apply, smul_eq_mul]
  cases n with
  | zero => simp
  | succ k =>
    rw [Nat.add_sub_cancel]
    have : norm3 r ≠ 0 := hp.ne'
    simp only [inv_pow]
    field_simp
    ring

theorem solV_hasDerivAt (l : ℕ) (m : ℤ) (r u : Vec) :
    HasDerivAt (fun s : ℝ => solV (l + 1) m (r + s • u))
      (u 2 * solV l m r - (u 0 + u 1 * I) / 2 * solV l (m - 1) r + (u 0 - u 1 * I) / 2 * solV l (m + 1) r) 0 := by
  have d := solS_hasDerivAt (r 0 + r 1 * I) (r 0 - r 1 * I) (r 2) (u 0 + u 1 * I) (u 0 - u 1 * I) (u 2) (l + 1) m ((0 : ℝ) : ℂ)
  have d' := HasDerivAt.comp_ofReal d
  have e : (fun s : ℝ => solV (l + 1) m (r + s • u)) =
      fun s : ℝ => solS ((r 0 + r 1 * I) + (s : ℂ) * (u 0 + u 1 * I)) ((r 0 - r 1 * I) + (s : ℂ) * (u 0 - u 1 * I))
        ((r 2 : ℂ) + (s : ℂ) * (u 2 : ℂ)) (l + 1) m := by
    funext s
    unfold solV
    simp only [Pi.add_apply, Pi.smul_apply, smul_eq_mul, ofReal_add, ofReal_mul]
    congr 1 <;> ring
  rw [e]
  refine d'.congr_deriv ?_
  simp only [ofReal_zero, zero_mul, add_zero]
  rfl

theorem solV_zero_const (m : ℤ) (r u : Vec) :
    HasDerivAt (fun s : ℝ => solV 0 m (r + s • u)) 0 0 := by
  have : (fun s : ℝ => solV 0 m (r + s • u)) = fun _ => solV 0 m r := by
    funext s; simp [solV, solS]
  rw [this]; exact hasDerivAt_const _ _

theorem norm3_sq_pq (r : Vec) : ((r 2 : ℂ)) ^ 2 + (r 0 + r 1 * I) * (r 0 - r 1 * I) = ((norm3 r ^ 2 : ℝ) : ℂ) := by
  rw [norm3_sq]; push_cast
  linear_combination (-(r 1 : ℂ) ^ 2) * Complex.I_mul_I

/-- Derivative of the irregular harmonics. -/
theorem irrV_hasDerivAt (l : ℕ) (m : ℤ) (hm : |m| ≤ l) (r u : Vec) (h : r ≠ 0) :
    HasDerivAt (fun s : ℝ => irrV l m (r + s • u))
      (-(u 2 : ℂ) * irrV (l + 1) m r + (u 0 - u 1 * I) / 2 * irrV (l + 1) (m + 1) r
        - (u 0 + u 1 * I) / 2 * irrV (l + 1) (m - 1) r) 0 := by
  have hp := norm3_pos h
  have hn : ((norm3 r : ℝ) : ℂ) ≠ 0 := by exact_mod_cast hp.ne'
  have dn := HasDerivAt.ofReal_comp (inv_norm_pow_hasDerivAt r u h (2 * l + 1))
  have hI := Complex.I_mul_I
  have hpq := norm3_sq_pq r
  have fz := irrFac_z l m hm
  have fu := irrFac_up l m hm
  have fd := irrFac_down l m hm
  have hpow : (((norm3 r)⁻¹ ^ (2 * l + 1) : ℝ) : ℂ) = ((norm3 r)⁻¹ ^ (2 * (l + 1) + 1) : ℝ) * ((norm3 r ^ 2 : ℝ) : ℂ) := by
    rw [← ofReal_mul]; congr 1; simp only [inv_pow]; field_simp; ring
  have e3 : 2 * l + 1 + 2 = 2 * (l + 1) + 1 := by ring
  rw [e3] at dn
  cases l with
  | zero =>
    obtain rfl : m = 0 := by rw [abs_le] at hm; push_cast at hm; omega
    have d := ((solV_zero_const 0 r u).const_mul (irrFac 0 0)).fun_mul dn
    refine d.congr_deriv ?_
    unfold irrV
    rw [fz, fu, fd]
    simp only [solV, solS, zero_smul, add_zero]
    push_cast
    norm_num
    ring_nf
    linear_combination (-(irrFac 0 0) * (u 1 : ℂ) * r 1 * ((norm3 r : ℂ))⁻¹ ^ 3) * hI
  | succ k =>
    have d := ((solV_hasDerivAt k m r u).const_mul (irrFac (k + 1) m)).fun_mul dn
    refine d.congr_deriv ?_
    unfold irrV
    rw [fz, fu, fd]
    simp only [zero_smul, add_zero]
    rw [hpow, ← hpq]
    have hz := solS_mul_z (r 0 + r 1 * I) (r 0 - r 1 * I) (r 2) k m
    have hq := solS_mul_p (r 0 + r 1 * I) (r 0 - r 1 * I) (r 2) k (m + 1)
    have hp' := solS_mul_q (r 0 + r 1 * I) (r 0 - r 1 * I) (r 2) k (m - 1)
    rw [add_sub_cancel_right] at hq
    rw [sub_add_cancel] at hp'
    unfold solV
    generalize solS (↑(r 0) + ↑(r 1) * I) (↑(r 0) - ↑(r 1) * I) ↑(r 2) (k + 1) m = S1 at *
    generalize solS (↑(r 0) + ↑(r 1) * I) (↑(r 0) - ↑(r 1) * I) ↑(r 2) (k + 2) m = Sz at *
    have e12 : k + 1 + 1 = k + 2 := rfl
    rw [e12] at *
    generalize solS (↑(r 0) + ↑(r 1) * I) (↑(r 0) - ↑(r 1) * I) ↑(r 2) (k + 2) (m + 1) = Su at *
    generalize solS (↑(r 0) + ↑(r 1) * I) (↑(r 0) - ↑(r 1) * I) ↑(r 2) (k + 2) (m - 1) = Sd at *
    generalize solS (↑(r 0) + ↑(r 1) * I) (↑(r 0) - ↑(r 1) * I) ↑(r 2) k m = T at *
    generalize solS (↑(r 0) + ↑(r 1) * I) (↑(r 0) - ↑(r 1) * I) ↑(r 2) k (m + 1) = Tu at *
    generalize solS (↑(r 0) + ↑(r 1) * I) (↑(r 0) - ↑(r 1) * I) ↑(r 2) k (m - 1) = Td at *
    push_cast at *
    generalize irrFac (k + 1) m = F at *
    generalize (((norm3 r : ℝ) : ℂ)⁻¹) ^ (2 * (k + 2) + 1) = N at *
    linear_combination (-F * N * u 2) * hz - (F * N * (u 0 - u 1 * I) / 2) * hq
      - (F * N * (u 0 + u 1 * I) / 2) * hp' + (F * N * (2 * (k + 1) + 1) * u 1 * r 1 * S1 * (-1)) * hI

/-- Successive derivatives along a line where a chain of functions differentiates into the next. -/
theorem iteratedDeriv_chain (U : Set ℝ) (hU : IsOpen U) (G : ℕ → ℝ → ℂ)
    (h : ∀ n, ∀ s ∈ U, HasDerivAt (G n) (G (n + 1) s) s) (n : ℕ) : ∀ s ∈ U,
    iteratedDeriv n (fun s => (G 0 s).re) s = (G n s).re := by
  induction n with
  | zero => intro s _; simp
  | succ n ih =>
    intro s hs
    rw [iteratedDeriv_succ]
    have e : iteratedDeriv n (fun s => (G 0 s).re) =ᶠ[nhds s] fun s => (G n s).re :=
      Filter.eventually_of_mem (hU.mem_nhds hs) ih
    rw [e.deriv_eq]
    have d : HasDerivAt (fun s => (G n s).re) ((G (n + 1) s).re) s :=
      Complex.reCLM.hasFDerivAt.comp_hasDerivAt s (h n s hs)
    exact d.deriv

/-- The same chain at another point of the line. -/
theorem irrV_hasDerivAt' (l : ℕ) (m : ℤ) (hm : |m| ≤ l) (r u : Vec) (s : ℝ) (h : r + s • u ≠ 0) :
    HasDerivAt (fun s : ℝ => irrV l m (r + s • u))
      (-(u 2 : ℂ) * irrV (l + 1) m (r + s • u) + (u 0 - u 1 * I) / 2 * irrV (l + 1) (m + 1) (r + s • u)
        - (u 0 + u 1 * I) / 2 * irrV (l + 1) (m - 1) (r + s • u)) s := by
  have d := irrV_hasDerivAt l m hm (r + s • u) u h
  have d0 : HasDerivAt (fun t : ℝ => t - s) 1 s := (hasDerivAt_id s).sub_const s
  have d2 := HasDerivAt.scomp_of_eq (h := fun t : ℝ => t - s) s d d0 (by simp)
  have e : ((fun t : ℝ => irrV l m (r + s • u + t • u)) ∘ fun t : ℝ => t - s) = fun t => irrV l m (r + t • u) := by
    funext t
    simp only [Function.comp_apply]
    congr 1
    rw [add_assoc, ← add_smul, add_sub_cancel]
  rw [e, one_smul] at d2
  exact d2

/-- Derivative of order `n` of an irregular harmonic along `u`, divided by `n!`. -/
noncomputable def irrDer (k : ℕ) (μ : ℤ) (u : Vec) (n : ℕ) (r : Vec) : ℂ :=
  ∑ m ∈ Icc (-(n : ℤ)) n, starRingEnd ℂ (solV n m (-u)) * irrV (k + n) (μ + m) r

theorem conj_solV_succ (n : ℕ) (m : ℤ) (u : Vec) :
    ((n : ℂ) + 1) * starRingEnd ℂ (solV (n + 1) m (-u)) = -(u 2 : ℂ) * starRingEnd ℂ (solV n m (-u))
      + (u 0 - u 1 * I) / 2 * starRingEnd ℂ (solV n (m - 1) (-u))
      - (u 0 + u 1 * I) / 2 * starRingEnd ℂ (solV n (m + 1) (-u)) := by
  have h := congrArg (starRingEnd ℂ) (solS_succ ((-u) 0 + (-u) 1 * I) ((-u) 0 - (-u) 1 * I) ((-u) 2) n m)
  unfold solV
  simp only [map_mul, map_add, map_sub, map_div₀, map_one, map_natCast, Complex.conj_ofReal, Complex.conj_I, map_ofNat,
    Pi.neg_apply, ofReal_neg, map_neg] at *
  rw [h]
  ring

theorem irrDer_succ (k : ℕ) (μ : ℤ) (u : Vec) (n : ℕ) (r : Vec) :
    ((n : ℂ) + 1) * irrDer k μ u (n + 1) r =
      ∑ m ∈ Icc (-(n : ℤ)) n, starRingEnd ℂ (solV n m (-u)) *
        (-(u 2 : ℂ) * irrV (k + n + 1) (μ + m) r + (u 0 - u 1 * I) / 2 * irrV (k + n + 1) (μ + m + 1) r
          - (u 0 + u 1 * I) / 2 * irrV (k + n + 1) (μ + m - 1) r) := by
  have hz : ∀ m : ℤ, (n : ℤ) < |m| → starRingEnd ℂ (solV n m (-u)) = 0 := by
    intro m hm; rw [solV_zero_of_lt _ _ _ hm, map_zero]
  have s0 := sum_Icc_shift_zero n 0 (by norm_num) (fun m => starRingEnd ℂ (solV n m (-u)))
    (fun m => irrV (k + n + 1) (μ + m) r) hz
  have s1 := sum_Icc_shift_zero n 1 (by norm_num) (fun m => starRingEnd ℂ (solV n m (-u)))
    (fun m => irrV (k + n + 1) (μ + m) r) hz
  have s2 := sum_Icc_shift_zero n (-1) (by norm_num) (fun m => starRingEnd ℂ (solV n m (-u)))
    (fun m => irrV (k + n + 1) (μ + m) r) hz
  simp only [add_zero, sub_zero, sub_neg_eq_add] at s0 s1 s2
  have lhs : ((n : ℂ) + 1) * irrDer k μ u (n + 1) r =
      -(u 2 : ℂ) * ∑ m ∈ Icc (-((n + 1 : ℕ) : ℤ)) ((n + 1 : ℕ) : ℤ), starRingEnd ℂ (solV n m (-u)) * irrV (k + n + 1) (μ + m) r
      + (u 0 - u 1 * I) / 2 * ∑ m ∈ Icc (-((n + 1 : ℕ) : ℤ)) ((n + 1 : ℕ) : ℤ), starRingEnd ℂ (solV n (m - 1) (-u)) * irrV (k + n + 1) (μ + m) r
      - (u 0 + u 1 * I) / 2 * ∑ m ∈ Icc (-((n + 1 : ℕ) : ℤ)) ((n + 1 : ℕ) : ℤ), starRingEnd ℂ (solV n (m + 1) (-u)) * irrV (k + n + 1) (μ + m) r := by
    unfold irrDer
    rw [Finset.mul_sum, Finset.mul_sum, Finset.mul_sum, Finset.mul_sum, ← Finset.sum_add_distrib, ← Finset.sum_sub_distrib]
    refine Finset.sum_congr rfl fun m _ => ?_
    rw [← mul_assoc, conj_solV_succ, ← add_assoc]
    ring
  rw [lhs, ← s0, ← s1, ← s2, Finset.mul_sum, Finset.mul_sum, Finset.mul_sum, ← Finset.sum_add_distrib,
    ← Finset.sum_sub_distrib]
  refine Finset.sum_congr rfl fun m _ => ?_
  rw [← add_assoc, ← add_assoc, ← sub_eq_add_neg]
  ring

theorem irrDer_hasDerivAt (k : ℕ) (μ : ℤ) (hμ : |μ| ≤ k) (u r : Vec) (n : ℕ) (s : ℝ) (h : r + s • u ≠ 0) :
    HasDerivAt (fun s : ℝ => (n.factorial : ℂ) * irrDer k μ u n (r + s • u))
      (((n + 1).factorial : ℂ) * irrDer k μ u (n + 1) (r + s • u)) s := by
  have d : HasDerivAt (fun s : ℝ => ∑ m ∈ Icc (-(n : ℤ)) n, starRingEnd ℂ (solV n m (-u)) * irrV (k + n) (μ + m) (r + s • u))
      (∑ m ∈ Icc (-(n : ℤ)) n, starRingEnd ℂ (solV n m (-u)) *
        (-(u 2 : ℂ) * irrV (k + n + 1) (μ + m) (r + s • u) + (u 0 - u 1 * I) / 2 * irrV (k + n + 1) (μ + m + 1) (r + s • u)
          - (u 0 + u 1 * I) / 2 * irrV (k + n + 1) (μ + m - 1) (r + s • u))) s := by
    refine HasDerivAt.fun_sum fun m hm => ?_
    rw [Finset.mem_Icc] at hm
    exact (irrV_hasDerivAt' (k + n) (μ + m) (by rw [abs_le] at *; push_cast; omega) r u s h).const_mul _
  have d2 := d.const_mul (n.factorial : ℂ)
  refine d2.congr_deriv ?_
  rw [← irrDer_succ, Nat.factorial_succ]
  push_cast
  ring

theorem line_open (r u : Vec) : IsOpen {s : ℝ | r + s • u ≠ 0} := by
  have hc : Continuous fun s : ℝ => r + s • u := by fun_prop
  exact isOpen_ne.preimage hc

/-- A term of a multipole potential as a sum over all `m`. -/
theorem multiTerm_eq (M : Moments) (l : ℕ) (r : Vec) (h : r ≠ 0) :
    (multiTerm M l r : ℂ) = ∑ m ∈ Icc (-(l : ℤ)) l, M.at l m * irrV l m r := by
  rw [sum_sym_re l (fun m => M.at l m) (fun m => irrV l m r) (at_neg M l) (fun m => irrV_neg_m l m r)]
  unfold multiTerm
  congr 1
  congr 1
  · rw [at_real, Complex.ofReal_re, irregularI_eq l 0 (by omega) r h]; simp
  · refine Finset.sum_congr rfl fun m hm => ?_
    rw [Finset.mem_Icc] at hm
    rw [at_pos M l m hm.1, irregularI_eq l m hm.2 r h]

/-- Derivatives of a multipole potential along a line. -/
theorem multiPot_iteratedDeriv (lmax : ℕ) (M : Moments) (r u : Vec) (h : r ≠ 0) (n : ℕ) :
    iteratedDeriv n (fun s : ℝ => multiPot lmax M (r + s • u)) 0 =
      (∑ k ∈ range (lmax + 1), ∑ μ ∈ Icc (-(k : ℤ)) k, M.at k μ * ((n.factorial : ℂ) * irrDer k μ u n r)).re := by
  set G : ℕ → ℝ → ℂ := fun n s => ∑ k ∈ range (lmax + 1), ∑ μ ∈ Icc (-(k : ℤ)) k,
    M.at k μ * ((n.factorial : ℂ) * irrDer k μ u n (r + s • u)) with hG
  have hch := iteratedDeriv_chain {s : ℝ | r + s • u ≠ 0} (line_open r u) G (by
    intro n s hs
    refine HasDerivAt.fun_sum fun k _ => HasDerivAt.fun_sum fun μ hμ => ?_
    rw [Finset.mem_Icc] at hμ
    exact (irrDer_hasDerivAt k μ (by rw [abs_le]; omega) u r n s hs).const_mul _) n 0 (by simpa using h)
  have e0 : (fun s : ℝ => multiPot lmax M (r + s • u)) =ᶠ[nhds 0] fun s => (G 0 s).re := by
    filter_upwards [(line_open r u).mem_nhds (show (0 : ℝ) ∈ {s : ℝ | r + s • u ≠ 0} by simpa using h)] with s hs
    rw [← Complex.ofReal_re (multiPot lmax M (r + s • u))]
    congr 1
    unfold multiPot
    rw [ofReal_sum, hG]
    refine Finset.sum_congr rfl fun k _ => ?_
    rw [multiTerm_eq M k _ hs]
    refine Finset.sum_congr rfl fun μ _ => ?_
    unfold irrDer
    simp [solV, solS]
  rw [Filter.EventuallyEq.iteratedDeriv_eq n e0, hch, hG]
  simp

/-- The arrays `I` of a vector. -/
theorem solidI_at (r : Vec) (h : r ≠ 0) (lmax : ℕ) (junk : Moments) (l : ℕ) (hl : l ≤ lmax) (m : ℤ) (hm : |m| ≤ l) :
    (solidI (cartToSph r).1 (cartToSph r).2.1 (cartToSph r).2.2 lmax junk).at l m = irrV l m r := by
  refine at_of_values _ l (fun m => irrV l m r) (fun m => irrV_neg_m l m r) ?_ ?_ m hm
  · rw [solidI_l0 r lmax junk l hl, irregularI_eq l 0 (by omega) r h]; rfl
  · intro m h1 h2
    rw [solidI_lm r lmax junk l m h1 h2 hl, irregularI_eq l m h2 r h]

/-- Coefficients of the local expansion of a multipole potential. -/
noncomputable def mulV (M : Moments) (lmax : ℕ) (dr : Vec) (l : ℕ) (m : ℤ) : ℂ :=
  ∑ k ∈ range (lmax + 1), ∑ μ ∈ Icc (-(k : ℤ)) k, M.at k μ * irrV (l + k) (m + μ) dr

theorem mulV_neg (M : Moments) (lmax : ℕ) (dr : Vec) (l : ℕ) (m : ℤ) :
    mulV M lmax dr l (-m) = (-1) ^ m * starRingEnd ℂ (mulV M lmax dr l m) := by
  unfold mulV
  rw [map_sum, Finset.mul_sum]
  refine Finset.sum_congr rfl fun k _ => ?_
  rw [map_sum, Finset.mul_sum]
  refine Finset.sum_bij (fun μ _ => -μ) ?_ ?_ ?_ ?_
  · intro μ hμ; rw [Finset.mem_Icc] at *; omega
  · intro a _ b _ hab; exact neg_injective hab
  · intro μ hμ; exact ⟨-μ, by rw [Finset.mem_Icc] at *; omega, by simp⟩
  · intro μ _
    have := at_neg M k (-μ)
    rw [neg_neg] at this
    rw [this, show -m + μ = -(m + -μ) by ring, irrV_neg_m, map_mul, zpow_add₀ (by norm_num)]
    linear_combination ((-1) ^ m * starRingEnd ℂ (M.at k (-μ)) * starRingEnd ℂ (irrV (l + k) (m + -μ) dr)) * neg_one_zpow_mul_self (-μ)

/-- What `multipole_to_local` computes. -/
theorem m2l_values (dr : Vec) (h : dr ≠ 0) (lmax : ℕ) (M L junk : Moments) (l : ℕ) (hl : l ≤ lmax) :
    ((m2l dr lmax M L junk).l0 l : ℂ) = L.l0 l + mulV M lmax dr l 0 ∧
    ∀ m : ℕ, 1 ≤ m → m ≤ l → (m2l dr lmax M L junk).lm (lm2index l m) = L.lm (lm2index l m) + mulV M lmax dr l m := by
  have hJ := solidI_at dr h (2 * lmax) junk
  unfold m2l
  constructor
  · simp only [accumL0, if_pos hl]
    rw [ofReal_add]
    congr 1
    unfold mulV
    rw [ofReal_sum]
    refine Finset.sum_congr rfl fun k hk => ?_
    rw [Finset.mem_range] at hk
    simp only [zero_add]
    rw [sum_sym_re k (fun m => M.at k m) (fun m => irrV (l + k) m dr) (at_neg M k) (fun m => irrV_neg_m (l + k) m dr)]
    congr 1
    congr 1
    · rw [at_real, Complex.ofReal_re, ← hJ (l + k) (by omega) 0 (by rw [abs_zero]; positivity), at_real, Complex.ofReal_re]
    · refine Finset.sum_congr rfl fun m hm => ?_
      rw [Finset.mem_Icc] at hm
      rw [at_pos M k m hm.1, ← hJ (l + k) (by omega) m (by rw [abs_le]; push_cast; omega), at_pos _ _ _ hm.1]
  · intro m h1 h2
    simp only
    rw [accumLM_of_le _ _ _ h1 h2 hl]
    congr 1
    unfold mulV
    refine Finset.sum_congr rfl fun k hk => ?_
    rw [Finset.mem_range] at hk
    refine Finset.sum_congr rfl fun μ hμ => ?_
    rw [Finset.mem_Icc] at hμ
    rw [hJ (l + k) (by omega) (m + μ) (by rw [abs_le]; push_cast; omega)]

/-- The local expansion is the Taylor expansion of the multipole potential. -/
theorem m2l_taylor (dr : Vec) (h : dr ≠ 0) (lmax : ℕ) (M L junk : Moments) (l : ℕ) (hl : l ≤ lmax) (u : Vec) :
    localTerm (m2l dr lmax M L junk) l u = localTerm L l u +
      iteratedDeriv l (fun s : ℝ => multiPot lmax M (dr + s • u)) 0 / l.factorial := by
  have hf : (l.factorial : ℝ) ≠ 0 := by exact_mod_cast l.factorial_ne_zero
  obtain ⟨h0, h1⟩ := m2l_values dr h lmax M L junk l hl
  have hat : ∀ m ∈ Icc (-(l : ℤ)) l, (m2l dr lmax M L junk).at l m = L.at l m + mulV M lmax dr l m := by
    intro m hm
    rw [Finset.mem_Icc] at hm
    refine at_of_values _ l (fun m => L.at l m + mulV M lmax dr l m) ?_ ?_ ?_ m (by rw [abs_le]; omega)
    · intro m; simp only [at_neg, mulV_neg, map_add]; ring
    · simp only [at_real, h0]
    · intro m a b; simp only [at_pos _ _ _ a, h1 m a b]
  have e : (localTerm (m2l dr lmax M L junk) l u : ℂ) = localTerm L l u +
      ∑ m ∈ Icc (-(l : ℤ)) l, mulV M lmax dr l m * starRingEnd ℂ (solV l m (-u)) := by
    rw [localTerm_eq, localTerm_eq, ← Finset.sum_add_distrib]
    refine Finset.sum_congr rfl fun m hm => ?_
    rw [hat m hm]; ring
  have e2 : ∑ m ∈ Icc (-(l : ℤ)) l, mulV M lmax dr l m * starRingEnd ℂ (solV l m (-u)) =
      ∑ k ∈ range (lmax + 1), ∑ μ ∈ Icc (-(k : ℤ)) k, M.at k μ * irrDer k μ u l dr := by
    unfold mulV irrDer
    simp only [Finset.sum_mul, Finset.mul_sum]
    rw [Finset.sum_comm]
    refine Finset.sum_congr rfl fun k _ => ?_
    rw [Finset.sum_comm]
    refine Finset.sum_congr rfl fun μ _ => Finset.sum_congr rfl fun m _ => ?_
    rw [add_comm l k, add_comm m μ]; ring
  have hre := congrArg Complex.re e
  rw [Complex.add_re, Complex.ofReal_re, Complex.ofReal_re] at hre
  rw [hre, multiPot_iteratedDeriv lmax M dr u h l, e2]
  congr 1
  rw [eq_div_iff hf]
  have e3 : ∑ k ∈ range (lmax + 1), ∑ μ ∈ Icc (-(k : ℤ)) k, M.at k μ * ((l.factorial : ℂ) * irrDer k μ u l dr) =
      ((l.factorial : ℝ) : ℂ) * ∑ k ∈ range (lmax + 1), ∑ μ ∈ Icc (-(k : ℤ)) k, M.at k μ * irrDer k μ u l dr := by
    simp only [Finset.mul_sum]
    refine Finset.sum_congr rfl fun k _ => Finset.sum_congr rfl fun μ _ => ?_
    push_cast; ring
  rw [e3, Complex.re_ofReal_mul]
  ring

end Hotbit
