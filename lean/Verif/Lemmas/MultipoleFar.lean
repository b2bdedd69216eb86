import Verif.Lemmas.LaplaceTwo
import Verif.Lemmas.MultipoleTaylor
import Verif.Props.MultipoleLocal

/-!
# Far charges through multipole moments and a local expansion
-/

namespace Hotbit

open Finset Complex

set_option linter.unusedSimpArgs false

theorem m2l_localTerm (dr : Vec) (h : dr ≠ 0) (lmax : ℕ) (M L junk : Moments) (l : ℕ) (hl : l ≤ lmax) (u : Vec) :
    (localTerm (m2l dr lmax M L junk) l u : ℂ) = localTerm L l u +
      ∑ m ∈ Icc (-(l : ℤ)) l, mulV M lmax dr l m * starRingEnd ℂ (solV l m (-u)) := by
  obtain ⟨h0, h1⟩ := m2l_values dr h lmax M L junk l hl
  have hat : ∀ m ∈ Icc (-(l : ℤ)) l, (m2l dr lmax M L junk).at l m = L.at l m + mulV M lmax dr l m := by
    intro m hm
    rw [Finset.mem_Icc] at hm
    refine at_of_values _ l (fun m => L.at l m + mulV M lmax dr l m) ?_ ?_ ?_ m (by rw [abs_le]; omega)
    · intro m; simp only [at_neg, mulV_neg, map_add]; ring
    · simp only [at_real, h0]
    · intro m a b; simp only [at_pos _ _ _ a, h1 m a b]
  rw [localTerm_eq, localTerm_eq, ← Finset.sum_add_distrib]
  refine Finset.sum_congr rfl fun m hm => ?_
  rw [hat m hm]; ring

/-- `multipole_to_local` adds to the local expansion. -/
theorem m2l_localPot_add (dr : Vec) (h : dr ≠ 0) (lmax : ℕ) (M L junk : Moments) (u : Vec) :
    localPot lmax (m2l dr lmax M L junk) u =
      localPot lmax L u + localPot lmax (m2l dr lmax M Moments.zero junk) u := by
  have z : ∀ l, localTerm Moments.zero l u = 0 := by
    intro l; unfold localTerm; simp [Moments.zero]
  unfold localPot
  rw [← Finset.sum_add_distrib]
  refine Finset.sum_congr rfl fun l hl => ?_
  rw [Finset.mem_range] at hl
  have e1 := m2l_localTerm dr h lmax M L junk l (by omega) u
  have e2 := m2l_localTerm dr h lmax M Moments.zero junk l (by omega) u
  rw [z, ofReal_zero, zero_add] at e2
  rw [← e2] at e1
  exact_mod_cast e1

/-- The local expansion of the moments of charges, as a sum over the charges. -/
theorem m2l_charges (dr : Vec) (h : dr ≠ 0) (p : ℕ) (M junk : Moments) (qr : List (ℝ × Vec)) (c u : Vec)
    (hM : IsMoments p M qr c) :
    ((localPot p (m2l dr p M Moments.zero junk) u : ℝ) : ℂ) =
      (qr.map fun a => (a.1 : ℂ) * ∑ l ∈ range (p + 1), ∑ k ∈ range (p + 1), biT u (a.2 - c) dr l k).sum := by
  have z : ∀ l, localTerm Moments.zero l u = 0 := by
    intro l; unfold localTerm; simp [Moments.zero]
  have e : ((localPot p (m2l dr p M Moments.zero junk) u : ℝ) : ℂ) =
      ∑ l ∈ range (p + 1), ∑ k ∈ range (p + 1), ∑ m ∈ Icc (-(l : ℤ)) l, ∑ μ ∈ Icc (-(k : ℤ)) k,
        momV qr c k μ * irrV (l + k) (m + μ) dr * starRingEnd ℂ (solV l m (-u)) := by
    unfold localPot
    rw [ofReal_sum]
    refine Finset.sum_congr rfl fun l hl => ?_
    rw [Finset.mem_range] at hl
    rw [m2l_localTerm dr h p M Moments.zero junk l (by omega) u, z, ofReal_zero, zero_add]
    rw [Finset.sum_comm (s := range (p + 1))]
    refine Finset.sum_congr rfl fun m _ => ?_
    unfold mulV
    rw [Finset.sum_mul]
    refine Finset.sum_congr rfl fun k hk => ?_
    rw [Finset.mem_range] at hk
    rw [Finset.sum_mul]
    refine Finset.sum_congr rfl fun μ hμ => ?_
    rw [Finset.mem_Icc] at hμ
    rw [hM.at_eq (by omega) (by rw [abs_le]; omega)]
  rw [e]
  clear e hM
  unfold momV biT
  induction qr with
  | nil => simp
  | cons a qr ih =>
    simp only [List.map_cons, List.sum_cons, add_mul, Finset.sum_add_distrib, ih]
    congr 1
    simp only [Finset.mul_sum]
    refine Finset.sum_congr rfl fun l _ => Finset.sum_congr rfl fun k _ =>
      Finset.sum_congr rfl fun m _ => Finset.sum_congr rfl fun μ _ => ?_
    ring

/-- Error of the far field. -/
theorem m2l_error (dr : Vec) (p : ℕ) (M junk : Moments) (qr : List (ℝ × Vec)) (c u : Vec)
    (hM : IsMoments p M qr c) (h0 : dr ≠ 0) (h : ∀ a ∈ qr, norm3 u + norm3 (a.2 - c) < norm3 dr) :
    |chargePot qr (c + dr + u) - localPot p (m2l dr p M Moments.zero junk) u| ≤
      farSum p qr c (norm3 u) (norm3 dr) := by
  have e := m2l_charges dr h0 p M junk qr c u hM
  have : ‖((chargePot qr (c + dr + u) - localPot p (m2l dr p M Moments.zero junk) u : ℝ) : ℂ)‖ ≤
      farSum p qr c (norm3 u) (norm3 dr) := by
    rw [ofReal_sub, e]
    unfold chargePot farSum
    clear e hM
    induction qr with
    | nil => simp
    | cons a qr ih =>
      simp only [List.map_cons, List.sum_cons]
      have i := ih fun b hb => h b (List.mem_cons_of_mem _ hb)
      have t := two_error u (a.2 - c) dr (h a List.mem_cons_self) p
      rw [ofReal_add, add_sub_add_comm]
      refine (norm_add_le _ _).trans (add_le_add ?_ i)
      rw [div_eq_mul_inv, ofReal_mul, ← mul_sub, norm_mul, Complex.norm_real, Real.norm_eq_abs,
        show c + dr + u - a.2 = dr + u - (a.2 - c) by abel]
      exact mul_le_mul_of_nonneg_left t (abs_nonneg _)
  rwa [Complex.norm_real, Real.norm_eq_abs] at this

theorem farError_tendsto (s R : ℝ) (hs : 0 ≤ s) (h : s < R) :
    Filter.Tendsto (fun p : ℕ => farError p s R) Filter.atTop (nhds 0) := by
  have hR : 0 < R := by linarith
  have x0 : 0 ≤ s / R := by positivity
  have x1 : s / R < 1 := (div_lt_one hR).2 h
  have t1 : Filter.Tendsto (fun p : ℕ => (s / R) ^ (p + 1)) Filter.atTop (nhds 0) :=
    (tendsto_pow_atTop_nhds_zero_of_lt_one x0 x1).comp (Filter.tendsto_add_atTop_nat 1)
  have t2 : Filter.Tendsto (fun p : ℕ => (p : ℝ) * (s / R) ^ p) Filter.atTop (nhds 0) :=
    tendsto_self_mul_const_pow_of_lt_one x0 x1
  have e : (fun p : ℕ => farError p s R) = fun p : ℕ =>
      R⁻¹ * (s / R / (1 - s / R) ^ 2) * (s / R) ^ (p + 1) +
        R⁻¹ / (1 - s / R) * (s / R) * ((p : ℝ) * (s / R) ^ p) +
        R⁻¹ / (1 - s / R) * 2 * (s / R) ^ (p + 1) := by
    funext p
    unfold farError
    ring
  rw [e]
  have := ((t1.const_mul (R⁻¹ * (s / R / (1 - s / R) ^ 2))).add
    (t2.const_mul (R⁻¹ / (1 - s / R) * (s / R)))).add (t1.const_mul (R⁻¹ / (1 - s / R) * 2))
  simpa using this

theorem farError_nonneg (p : ℕ) (s R : ℝ) (hs : 0 ≤ s) (h : s < R) : 0 ≤ farError p s R := by
  have hR : 0 < R := by linarith
  have x1 : s / R < 1 := (div_lt_one hR).2 h
  have : 0 < 1 - s / R := by linarith
  unfold farError
  positivity

end Hotbit
