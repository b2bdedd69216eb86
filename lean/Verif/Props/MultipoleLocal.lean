import Verif.Lemmas.LaplaceSeries
import Verif.Props.Multipole
import Mathlib.Analysis.Complex.Basic

/-!
# Local expansions, and how good the expansions are (C79, C80, C81)
-/

namespace Hotbit

open Finset Complex

set_option linter.unusedSimpArgs false

/-! ### C79 -/

/-- C79: `local_to_local` describes the same potential about the new centre. -/
theorem c79_shift (dr t : Vec) (lin lout : ℕ) (h : lin ≤ lout) (L junk : Moments) :
    localPot lout (l2l dr lin L lout Moments.zero junk) t = localPot lin L (dr + t) := by
  have e : ((localPot lout (l2l dr lin L lout Moments.zero junk) t : ℝ) : ℂ) = (localPot lin L (dr + t) : ℝ) := by
    rw [← locV_potential]
    unfold localPot
    rw [ofReal_sum]
    have hz : ∑ l ∈ range (lin + 1), ∑ m ∈ Icc (-(l : ℤ)) l, locV L lin dr l m * starRingEnd ℂ (solV l m (-t)) =
        ∑ l ∈ range (lout + 1), ∑ m ∈ Icc (-(l : ℤ)) l, locV L lin dr l m * starRingEnd ℂ (solV l m (-t)) := by
      refine Finset.sum_subset (Finset.range_mono (by omega)) fun l _ hl => ?_
      refine Finset.sum_eq_zero fun m _ => ?_
      rw [Finset.mem_range] at hl
      unfold locV
      rw [if_neg (by omega), zero_mul]
    rw [hz]
    refine Finset.sum_congr rfl fun l hl => ?_
    rw [localTerm_eq]
    refine Finset.sum_congr rfl fun m hm => ?_
    rw [Finset.mem_range] at hl
    rw [Finset.mem_Icc] at hm
    rw [l2l_at_eq dr lin L lout junk l (by omega) m (by rw [abs_le]; omega)]
  exact_mod_cast e

theorem localPot_zero (lmax : ℕ) (L : Moments) : localPot lmax L 0 = L.l0 0 := by
  have e : ((localPot lmax L 0 : ℝ) : ℂ) = (L.l0 0 : ℝ) := by
    unfold localPot
    rw [ofReal_sum, Finset.sum_eq_single 0]
    · rw [localTerm_eq]; simp [solV, solS, at_real]
    · intro l _ hl
      rw [localTerm_eq]
      refine Finset.sum_eq_zero fun m _ => ?_
      rw [neg_zero, solV_origin, if_neg (by tauto)]; simp
    · intro h; simp at h
  exact_mod_cast e

/-- C79: coefficient 0 about the new centre is the value of the potential there (what the code takes as
potential of an atom). -/
theorem c79_value (dr : Vec) (lin lout : ℕ) (L junk : Moments) :
    (l2l dr lin L lout Moments.zero junk).l0 0 = localPot lin L dr := by
  have e := l2l_at dr lin L lout Moments.zero junk 0 (by omega)
  have e2 := locV_potential L lin dr 0
  rw [add_zero, Finset.sum_eq_single 0] at e2
  · have : ((((l2l dr lin L lout Moments.zero junk).l0 0 : ℝ)) : ℂ) = (localPot lin L dr : ℝ) := by
      rw [← e2, e.1]; simp [Moments.zero, solV, solS]
    exact_mod_cast this
  · intro l _ hl
    refine Finset.sum_eq_zero fun m _ => ?_
    rw [neg_zero, solV_origin, if_neg (by tauto)]; simp
  · intro h; simp at h

theorem localTerm_one (L : Moments) (u : Vec) :
    localTerm L 1 u = (L.lm 0).re * u 0 + (L.lm 0).im * u 1 - L.l0 1 * u 2 := by
  unfold localTerm
  have h0 : regularR 1 0 (-u) = ((-(u 2) : ℝ) : ℂ) := by
    rw [regularR_eq 1 0 (by omega)]; simp [solV, solS]
  have h1 : regularR 1 1 (-u) = ⟨u 0 / 2, u 1 / 2⟩ := by
    rw [regularR_eq 1 1 (by omega)]
    have := solV_one_one (-u)
    simp only [Pi.neg_apply, neg_neg] at this
    exact_mod_cast this
  have e : lm2index ((1 : ℕ) : ℤ) ((1 : ℕ) : ℤ) = 0 := by simp [lm2index]
  rw [h0, Finset.Icc_self, Finset.sum_singleton, e, h1]
  simp only [ofReal_re, mul_re, conj_re, conj_im]
  ring

/-- C79: the vector the code takes as field of an atom, `[-Re L'₁₁, -Im L'₁₁, L'₁₀]`, is minus the gradient
of the potential. -/
theorem c79_field (dr u : Vec) (lin lout : ℕ) (hi : 1 ≤ lin) (ho : 1 ≤ lout) (L junk : Moments) :
    let L' := l2l dr lin L lout Moments.zero junk
    HasDerivAt (fun s : ℝ => localPot lin L (dr + s • u))
      (-(-(L'.lm 0).re * u 0 + -(L'.lm 0).im * u 1 + L'.l0 1 * u 2)) 0 := by
  intro L'
  have d : HasDerivAt (fun s : ℝ => ((localPot lin L (dr + s • u) : ℝ) : ℂ))
      ((localTerm L' 1 u : ℝ) : ℂ) 0 := by
    have e : (fun s : ℝ => ((localPot lin L (dr + s • u) : ℝ) : ℂ)) = fun s : ℝ =>
        ∑ l ∈ range (lin + 1), ∑ m ∈ Icc (-(l : ℤ)) l, locV L lin dr l m * starRingEnd ℂ (solV l m (-(s • u))) := by
      funext s
      rw [locV_potential]
    rw [e]
    have hd := HasDerivAt.fun_sum (u := range (lin + 1))
      (A := fun l (s : ℝ) => ∑ m ∈ Icc (-(l : ℤ)) l, locV L lin dr l m * starRingEnd ℂ (solV l m (-(s • u))))
      (A' := fun l => ∑ m ∈ Icc (-(l : ℤ)) l, locV L lin dr l m *
        starRingEnd ℂ (if l = 1 then solV 1 m (-u) else 0)) (x := (0 : ℝ)) (by
        intro l _
        refine HasDerivAt.fun_sum fun m _ => ?_
        exact (Complex.conjCLE.toContinuousLinearMap.hasFDerivAt.comp_hasDerivAt (0 : ℝ)
          (solV_line_deriv l m u)).const_mul _)
    refine hd.congr_deriv ?_
    rw [Finset.sum_eq_single 1]
    · rw [localTerm_eq]
      refine Finset.sum_congr rfl fun m hm => ?_
      rw [Finset.mem_Icc] at hm
      rw [if_pos rfl, l2l_at_eq dr lin L lout junk 1 ho m (by rw [abs_le]; omega)]
    · intro l _ hl
      simp [hl]
    · intro h; rw [Finset.mem_range] at h; omega
  have d2 : HasDerivAt (fun s : ℝ => localPot lin L (dr + s • u)) (localTerm L' 1 u) 0 :=
    Complex.reCLM.hasFDerivAt.comp_hasDerivAt (0 : ℝ) d
  rw [localTerm_one] at d2
  refine d2.congr_deriv ?_
  ring

example : localPot 3 (l2l ![1, 2, 0] 2 ⟨fun l => l, fun _ => I⟩ 3 Moments.zero Moments.zero) ![0, 1, 1] =
    localPot 2 ⟨fun l => l, fun _ => I⟩ (![1, 2, 0] + ![0, 1, 1]) := c79_shift _ _ 2 3 (by norm_num) _ _

/-! ### C80 -/

/-- C80: `multipole_to_local` adds the Taylor expansion of the potential of the moments: along every ray
the term of degree `l` grows by the `l`-th Taylor term. -/
theorem c80_taylor (dr : Vec) (h : dr ≠ 0) (lmax : ℕ) (M L junk : Moments) (l : ℕ) (hl : l ≤ lmax) (u : Vec) :
    localTerm (m2l dr lmax M L junk) l u = localTerm L l u +
      iteratedDeriv l (fun s : ℝ => multiPot lmax M (dr + s • u)) 0 / l.factorial :=
  m2l_taylor dr h lmax M L junk l hl u

theorem localPot_of_zero (lmax : ℕ) (t : Vec) : localPot lmax Moments.zero t = 0 := by
  unfold localPot localTerm
  simp [Moments.zero]

/-- C80: a new local expansion has the value of the multipole potential at its centre. -/
theorem c80_value (dr : Vec) (h : dr ≠ 0) (lmax : ℕ) (M junk : Moments) :
    localPot lmax (m2l dr lmax M Moments.zero junk) 0 = multiPot lmax M dr := by
  rw [localPot_zero]
  have := c80_taylor dr h lmax M Moments.zero junk 0 (by omega) 0
  have e : ∀ L : Moments, localTerm L 0 0 = L.l0 0 := by
    intro L
    have := localPot_zero 0 L
    unfold localPot at this
    simpa using this
  rw [e, e] at this
  simpa [Moments.zero] using this

example : (![0, 0, 3] : Vec) ≠ 0 := by
  intro h; have := congrFun h 2; simp at this

/-! ### C81 -/

theorem multiTerm_moments (lmax : ℕ) (M : Moments) (qr : List (ℝ × Vec)) (c x : Vec) (h : x - c ≠ 0)
    (hM : IsMoments lmax M qr c) (l : ℕ) (hl : l ≤ lmax) :
    multiTerm M l (x - c) = (qr.map fun a => a.1 * lapT (a.2 - c) (x - c) l).sum := by
  have e : ((multiTerm M l (x - c) : ℝ) : ℂ) = ((qr.map fun a => a.1 * lapT (a.2 - c) (x - c) l).sum : ℝ) := by
    rw [multiTerm_eq M l _ h]
    have : ∀ m ∈ Icc (-(l : ℤ)) l, M.at l m * irrV l m (x - c) = momV qr c l m * irrV l m (x - c) := by
      intro m hm
      rw [Finset.mem_Icc] at hm
      have hM' := (isMoments_iff _ _ _ _).1 hM
      rw [at_of_values M l (momV qr c l) (momV_neg_m qr c l) (hM'.1 l hl) (fun m a b => hM'.2 l m a b hl) m
        (by rw [abs_le]; omega)]
    rw [Finset.sum_congr rfl this]
    clear this hM
    unfold momV
    induction qr with
    | nil => simp
    | cons a qr ih =>
      simp only [List.map_cons, List.sum_cons, add_mul, Finset.sum_add_distrib, ofReal_add, ih]
      congr 1
      rw [ofReal_mul, lapT_eq, Finset.mul_sum]
      refine Finset.sum_congr rfl fun m _ => ?_
      ring
  exact_mod_cast e

theorem norm3_ne_zero_of_lt {v : Vec} {A : ℝ} (hA : 0 ≤ A) (h : A < norm3 v) : v ≠ 0 := by
  rintro rfl
  rw [norm3_eq_zero.2 rfl] at h
  linarith

/-- C81: outside a sphere of radius `A` about the centre that contains all charges, the multipole expansion
deviates from the true potential by at most `Σ|q| (A/R)^(l_max+1)/(R-A)`, `R` the distance from the centre. -/
theorem c81_error (lmax : ℕ) (M : Moments) (qr : List (ℝ × Vec)) (c x : Vec) (A : ℝ) (hA : 0 ≤ A)
    (hM : IsMoments lmax M qr c) (hin : ∀ a ∈ qr, norm3 (a.2 - c) ≤ A) (hR : A < norm3 (x - c)) :
    |chargePot qr x - multiPot lmax M (x - c)| ≤
      (qr.map fun a => |a.1|).sum * ((A / norm3 (x - c)) ^ (lmax + 1) / (norm3 (x - c) - A)) := by
  have hx := norm3_ne_zero_of_lt hA hR
  have hp : 0 < norm3 (x - c) := lt_of_le_of_lt hA hR
  have e : multiPot lmax M (x - c) =
      (qr.map fun a => a.1 * ∑ l ∈ range (lmax + 1), lapT (a.2 - c) (x - c) l).sum := by
    unfold multiPot
    rw [Finset.sum_congr rfl fun l hl =>
      multiTerm_moments lmax M qr c x hx hM l (by rw [Finset.mem_range] at hl; omega)]
    clear hM hin
    induction qr with
    | nil => simp
    | cons a qr ih => simp only [List.map_cons, List.sum_cons, Finset.sum_add_distrib, ih, Finset.mul_sum]
  rw [e]
  unfold chargePot
  clear e hM
  induction qr with
  | nil => simp
  | cons a qr ih =>
    simp only [List.map_cons, List.sum_cons]
    have i := ih fun b hb => hin b (List.mem_cons_of_mem _ hb)
    have ha := hin a List.mem_cons_self
    have hlt := lt_of_le_of_lt ha hR
    have le := lap_error (a.2 - c) (x - c) hlt lmax
    rw [sub_sub_sub_cancel_right] at le
    have hmono : (norm3 (a.2 - c) / norm3 (x - c)) ^ (lmax + 1) / (norm3 (x - c) - norm3 (a.2 - c)) ≤
        (A / norm3 (x - c)) ^ (lmax + 1) / (norm3 (x - c) - A) := by
      have h0 := norm3_nonneg (a.2 - c)
      apply div_le_div₀
      · positivity
      · exact pow_le_pow_left₀ (by positivity) (div_le_div_of_nonneg_right ha hp.le) _
      · linarith
      · linarith
    have h1 : |a.1 / norm3 (x - a.2) - a.1 * ∑ l ∈ range (lmax + 1), lapT (a.2 - c) (x - c) l| ≤
        |a.1| * ((A / norm3 (x - c)) ^ (lmax + 1) / (norm3 (x - c) - A)) := by
      rw [div_eq_mul_inv, ← mul_sub, abs_mul]
      exact mul_le_mul_of_nonneg_left (le.trans hmono) (abs_nonneg _)
    rw [add_mul]
    have h2 := abs_add_le (a.1 / norm3 (x - a.2) - a.1 * ∑ l ∈ range (lmax + 1), lapT (a.2 - c) (x - c) l)
      ((qr.map fun a => a.1 / norm3 (x - a.2)).sum -
        (qr.map fun a => a.1 * ∑ l ∈ range (lmax + 1), lapT (a.2 - c) (x - c) l).sum)
    rw [show (a.1 / norm3 (x - a.2) - a.1 * ∑ l ∈ range (lmax + 1), lapT (a.2 - c) (x - c) l) +
      ((qr.map fun a => a.1 / norm3 (x - a.2)).sum -
        (qr.map fun a => a.1 * ∑ l ∈ range (lmax + 1), lapT (a.2 - c) (x - c) l).sum) =
      a.1 / norm3 (x - a.2) + (qr.map fun a => a.1 / norm3 (x - a.2)).sum -
      (a.1 * ∑ l ∈ range (lmax + 1), lapT (a.2 - c) (x - c) l +
        (qr.map fun a => a.1 * ∑ l ∈ range (lmax + 1), lapT (a.2 - c) (x - c) l).sum) by ring] at h2
    linarith

/-- C81: the expansions computed by the code converge to the potential of the charges. -/
theorem c81_converges (qr : List (ℝ × Vec)) (c x : Vec) (h : ∀ a ∈ qr, norm3 (a.2 - c) < norm3 (x - c))
    (h0 : x ≠ c) :
    Filter.Tendsto (fun lmax => multiPot lmax (getMoments lmax qr c) (x - c)) Filter.atTop
      (nhds (chargePot qr x)) := by
  have hx : x - c ≠ 0 := sub_ne_zero.2 h0
  have e : (fun lmax => multiPot lmax (getMoments lmax qr c) (x - c)) = fun lmax =>
      (qr.map fun a => a.1 * ∑ l ∈ range (lmax + 1), lapT (a.2 - c) (x - c) l).sum := by
    funext lmax
    unfold multiPot
    rw [Finset.sum_congr rfl fun l hl =>
      multiTerm_moments lmax _ qr c x hx (c60_moments lmax qr c) l (by rw [Finset.mem_range] at hl; omega)]
    clear h
    induction qr with
    | nil => simp
    | cons a qr ih => simp only [List.map_cons, List.sum_cons, Finset.sum_add_distrib, ih, Finset.mul_sum]
  rw [e]
  unfold chargePot
  clear e
  induction qr with
  | nil => simp
  | cons a qr ih =>
    simp only [List.map_cons, List.sum_cons]
    refine Filter.Tendsto.add ?_ (ih fun b hb => h b (List.mem_cons_of_mem _ hb))
    have hs := (lap_hasSum (a.2 - c) (x - c) (h a List.mem_cons_self)).tendsto_sum_nat
    rw [sub_sub_sub_cancel_right] at hs
    rw [div_eq_mul_inv]
    exact (hs.comp (Filter.tendsto_add_atTop_nat 1)).const_mul a.1

/-- A charge inside the unit sphere, observed from outside. -/
example : norm3 (![0, 0, 1 / 2] - (0 : Vec)) ≤ 1 ∧ 1 < norm3 (![0, 3, 4] - (0 : Vec)) := by
  constructor
  · rw [← abs_of_nonneg (norm3_nonneg _), ← abs_one, ← sq_le_sq, norm3_sq]
    simp; norm_num
  · rw [← abs_of_nonneg (norm3_nonneg (![0, 3, 4] - (0 : Vec))), ← abs_one, ← sq_lt_sq, norm3_sq]
    simp; norm_num

end Hotbit
