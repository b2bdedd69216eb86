import Verif.Model.Barriers
import Verif.Spec.Barriers
import Mathlib.Analysis.SpecialFunctions.Sqrt
import Mathlib.Analysis.Calculus.Deriv.Add
import Mathlib.Analysis.Calculus.Deriv.Mul
import Mathlib.Analysis.Calculus.Deriv.Pow

/-!
# C132: paths between two structures
-/

namespace Hotbit

open Finset

theorem placesNorm_step {N : ℕ} (R : ℕ → Places N) (i : ℕ) : placesNorm (R (i + 1) - R i) = pathStep R i := rfl

theorem sum_map_range (g : ℕ → ℝ) (n : ℕ) : ((List.range n).map g).sum = ∑ i ∈ Finset.range n, g i := by
  induction n with
  | zero => simp
  | succ n ih => rw [List.range_succ, List.map_append, List.sum_append, ih, Finset.sum_range_succ]; simp

theorem sum_list_range (l : List ℝ) {n : ℕ} (h : l.length = n) : l.sum = ∑ i ∈ Finset.range n, l.getD i 0 := by
  subst h
  rw [← sum_map_range]
  congr 1
  apply List.ext_getElem
  · simp
  · intro i h1 h2
    simp [List.getD_eq_getElem?_getD, List.getElem?_eq_getElem h1]

/-- The square of the distance, as a function of one coordinate. -/
theorem sum_putCoord {N : ℕ} (x y : Places N) (a : Fin N) (c : Fin 3) (t : ℝ) :
    ∑ p : Fin N × Fin 3, (putCoord x a c t p.1 p.2 - y p.1 p.2) ^ 2 =
      (t - y a c) ^ 2 + ((∑ p : Fin N × Fin 3, (x p.1 p.2 - y p.1 p.2) ^ 2) - (x a c - y a c) ^ 2) := by
  rw [← Finset.add_sum_erase univ _ (mem_univ ((a, c) : Fin N × Fin 3)),
    ← Finset.add_sum_erase univ (fun p : Fin N × Fin 3 => (x p.1 p.2 - y p.1 p.2) ^ 2) (mem_univ ((a, c) : Fin N × Fin 3))]
  have e : ∑ p ∈ univ.erase ((a, c) : Fin N × Fin 3), (putCoord x a c t p.1 p.2 - y p.1 p.2) ^ 2 =
      ∑ p ∈ univ.erase ((a, c) : Fin N × Fin 3), (x p.1 p.2 - y p.1 p.2) ^ 2 := by
    refine Finset.sum_congr rfl fun p hp => ?_
    have hne : p ≠ (a, c) := Finset.ne_of_mem_erase hp
    have : putCoord x a c t p.1 p.2 = x p.1 p.2 := by
      unfold putCoord
      by_cases h : p.1 = a
      · rw [h, Function.update_self]
        rw [Function.update_of_ne]
        intro h2
        exact hne (Prod.ext h h2)
      · rw [Function.update_of_ne h]
    rw [this]
  rw [e]
  simp only [putCoord, Function.update_self]
  ring

/-- The derivative of a distance by one coordinate. -/
theorem deriv_distance {N : ℕ} (x y : Places N) (a : Fin N) (c : Fin 3)
    (h : √(∑ p : Fin N × Fin 3, (x p.1 p.2 - y p.1 p.2) ^ 2) ≠ 0) :
    HasDerivAt (fun t => √(∑ p : Fin N × Fin 3, (putCoord x a c t p.1 p.2 - y p.1 p.2) ^ 2))
      ((x a c - y a c) / √(∑ p : Fin N × Fin 3, (x p.1 p.2 - y p.1 p.2) ^ 2)) (x a c) := by
  simp only [sum_putCoord]
  have h1 : HasDerivAt (fun t => (t - y a c) ^ 2 +
      ((∑ p : Fin N × Fin 3, (x p.1 p.2 - y p.1 p.2) ^ 2) - (x a c - y a c) ^ 2)) (2 * (x a c - y a c)) (x a c) := by
    have := (((hasDerivAt_id (x a c)).sub_const (y a c)).pow 2).add_const
      ((∑ p : Fin N × Fin 3, (x p.1 p.2 - y p.1 p.2) ^ 2) - (x a c - y a c) ^ 2)
    simpa using this
  have h0 : (x a c - y a c) ^ 2 + ((∑ p : Fin N × Fin 3, (x p.1 p.2 - y p.1 p.2) ^ 2) - (x a c - y a c) ^ 2) ≠ 0 := by
    intro h0
    apply h
    rw [add_sub_cancel] at h0
    rw [h0, Real.sqrt_zero]
  have := h1.sqrt h0
  rw [add_sub_cancel] at this
  convert this using 1
  field_simp

/-- The derivative of a step of the path when one coordinate of one image changes. -/
theorem deriv_pathStep {N : ℕ} (R : ℕ → Places N) (k : ℕ) (a : Fin N) (c : Fin 3) (i : ℕ) (h : pathStep R i ≠ 0) :
    HasDerivAt (fun t => pathStep (Function.update R k (putCoord (R k) a c t)) i)
      (if i + 1 = k then mepDir R i a c else if i = k then -mepDir R i a c else 0) (R k a c) := by
  have hdir : mepDir R i a c = (R (i + 1) a c - R i a c) / pathStep R i := by
    simp only [mepDir, placesNorm_step, Pi.smul_apply, Pi.sub_apply, smul_eq_mul]
    ring
  by_cases h1 : i + 1 = k
  · subst h1
    rw [if_pos rfl, hdir]
    have := deriv_distance (R (i + 1)) (R i) a c h
    simp only [pathStep, Function.update_self, Function.update_of_ne (Nat.succ_ne_self i).symm]
    exact this
  · rw [if_neg h1]
    by_cases h2 : i = k
    · subst h2
      rw [if_pos rfl, hdir]
      have hs : pathStep R i = √(∑ p : Fin N × Fin 3, (R i p.1 p.2 - R (i + 1) p.1 p.2) ^ 2) := by
        unfold pathStep
        congr 1
        exact Finset.sum_congr rfl fun p _ => by ring
      rw [hs] at h
      have := deriv_distance (R i) (R (i + 1)) a c h
      rw [hs]
      simp only [pathStep, Function.update_self, Function.update_of_ne (Nat.succ_ne_self i)]
      convert this using 1
      · funext t
        congr 1
        exact Finset.sum_congr rfl fun p _ => by ring
      · ring
    · rw [if_neg h2]
      have : (fun t => pathStep (Function.update R k (putCoord (R k) a c t)) i) = fun _ => pathStep R i := by
        funext t
        simp only [pathStep, Function.update_of_ne h1, Function.update_of_ne h2]
      rw [this]
      exact hasDerivAt_const _ _

/-- The sum of the deviations with multipliers, ordered by steps. -/
theorem lagrange_steps {N : ℕ} (M : ℕ) (l : List ℝ) (hl : l.length = M - 1) (R : ℕ → Places N) :
    ∑ i ∈ range (M - 1), l.getD i 0 * stepDeviation M R i =
      ∑ i ∈ range (M - 1), (l.getD i 0 - l.sum / ((M - 1 : ℕ) : ℝ)) * pathStep R i := by
  simp only [stepDeviation, mul_sub, sub_mul, Finset.sum_sub_distrib]
  congr 1
  rw [← Finset.sum_mul, ← Finset.mul_sum, sum_list_range l hl]
  ring

/-- **C132, forces.** With multipliers set, the forces of the inner images are minus the derivatives of
the energy of the whole path, less the constraints of equal steps times their multipliers; the forces of
the two end images vanish. -/
theorem c132_forces {N : ℕ} (E : Places N → ℝ) (f : Places N → Places N) (s : Mep N) (l : List ℝ)
    (hs : s.lambdas = .list l ∨ s.lambdas = .array l) (hl : l.length = s.M - 1) (hM : 2 ≤ s.M)
    (hne : ∀ i < s.M - 1, pathStep s.images i ≠ 0)
    (hf : ∀ k < s.M, ∀ a c, HasDerivAt (fun t => E (putCoord (s.images k) a c t)) (-f (s.images k) a c)
      (s.images k a c)) :
    ∃ F, mepForces f s = .ok F ∧ (∀ k, 1 ≤ k → k < s.M - 1 → ∀ a c, HasDerivAt
        (fun t => pathLagrangian E s.M l (Function.update s.images k (putCoord (s.images k) a c t)))
        (-F k a c) (s.images k a c)) ∧ F 0 = 0 ∧ F (s.M - 1) = 0 := by
  have hfc : mepConstraintForces s l = .ok fun k =>
      if 1 ≤ k ∧ k < s.M - 1 then
        (l.getD (k - 1) 0 - l.sum / ((s.M - 1 : ℕ) : ℝ)) • mepDir s.images (k - 1) -
          (l.getD k 0 - l.sum / ((s.M - 1 : ℕ) : ℝ)) • mepDir s.images k
      else 0 := by
    unfold mepConstraintForces
    rw [if_neg (by simpa using hl), if_neg (by omega)]
  have hF : mepForces f s = .ok fun k => mepPotentialForces f s k + if 1 ≤ k ∧ k < s.M - 1 then
        (l.getD (k - 1) 0 - l.sum / ((s.M - 1 : ℕ) : ℝ)) • mepDir s.images (k - 1) -
          (l.getD k 0 - l.sum / ((s.M - 1 : ℕ) : ℝ)) • mepDir s.images k
      else 0 := by
    unfold mepForces
    rcases hs with h | h <;> simp only [h, Bind.bind, Except.bind, hfc, pure, Except.pure]
  refine ⟨_, hF, fun k hk1 hk2 a c => ?_, ?_, ?_⟩
  · have hdE : HasDerivAt (fun t => ∑ i ∈ range s.M, E (Function.update s.images k (putCoord (s.images k) a c t) i))
        (∑ i ∈ range s.M, if i = k then -f (s.images k) a c else 0) (s.images k a c) := by
      apply HasDerivAt.fun_sum
      intro i _
      by_cases h : i = k
      · subst h
        simp only [Function.update_self, if_pos]
        exact hf i (by omega) a c
      · rw [if_neg h]
        simp only [Function.update_of_ne h]
        exact hasDerivAt_const _ _
    have hdC : HasDerivAt (fun t => ∑ i ∈ range (s.M - 1), (l.getD i 0 - l.sum / ((s.M - 1 : ℕ) : ℝ)) *
          pathStep (Function.update s.images k (putCoord (s.images k) a c t)) i)
        (∑ i ∈ range (s.M - 1), (l.getD i 0 - l.sum / ((s.M - 1 : ℕ) : ℝ)) *
          (if i + 1 = k then mepDir s.images i a c else if i = k then -mepDir s.images i a c else 0))
        (s.images k a c) := by
      apply HasDerivAt.fun_sum
      intro i hi
      exact (deriv_pathStep s.images k a c i (hne i (Finset.mem_range.1 hi))).const_mul _
    have hd := hdE.sub hdC
    have hfun : (fun t => pathLagrangian E s.M l (Function.update s.images k (putCoord (s.images k) a c t))) =
        fun t => ∑ i ∈ range s.M, E (Function.update s.images k (putCoord (s.images k) a c t) i) -
          ∑ i ∈ range (s.M - 1), (l.getD i 0 - l.sum / ((s.M - 1 : ℕ) : ℝ)) *
            pathStep (Function.update s.images k (putCoord (s.images k) a c t)) i := by
      funext t
      unfold pathLagrangian
      rw [lagrange_steps s.M l hl]
    rw [hfun]
    refine HasDerivAt.congr_deriv hd ?_
    rw [Finset.sum_ite_eq' (range s.M) k, if_pos (Finset.mem_range.2 (by omega))]
    obtain ⟨k', rfl⟩ : ∃ k', k = k' + 1 := ⟨k - 1, by omega⟩
    have hsum : ∀ w g : ℕ → ℝ, ∑ i ∈ range (s.M - 1), w i *
        (if i + 1 = k' + 1 then g i else if i = k' + 1 then -g i else 0) = w k' * g k' - w (k' + 1) * g (k' + 1) := by
      intro w g
      have : ∀ i, w i * (if i + 1 = k' + 1 then g i else if i = k' + 1 then -g i else 0) =
          (if i = k' then w i * g i else 0) - if i = k' + 1 then w i * g i else 0 := by
        intro i
        by_cases h1 : i = k'
        · subst h1; simp
        · by_cases h2 : i = k' + 1
          · subst h2; simp
          · simp [h1, h2]
      simp only [this, Finset.sum_sub_distrib, Finset.sum_ite_eq', Finset.mem_range]
      rw [if_pos (by omega), if_pos hk2]
    rw [hsum]
    simp only [mepPotentialForces, if_pos (And.intro hk1 hk2), Pi.add_apply, Pi.sub_apply, Pi.smul_apply, smul_eq_mul,
      Nat.add_sub_cancel]
    ring
  · simp [mepPotentialForces]
  · simp [mepPotentialForces]

/-- **C132, multipliers.** Adding the same number to all multipliers does not change the forces. -/
theorem c132_shift {N : ℕ} (s : Mep N) (l : List ℝ) (x : ℝ) (hM : 2 ≤ s.M) :
    mepConstraintForces s (l.map (· + x)) = mepConstraintForces s l := by
  unfold mepConstraintForces
  rw [List.length_map]
  split_ifs with h1 h2
  · rfl
  · rfl
  · push Not at h1
    refine congrArg Except.ok (funext fun k => ?_)
    have hsum : (l.map (· + x)).sum = l.sum + l.length * x := by
      induction l with
      | nil => simp
      | cons y l ih =>
        clear h1 h2
        have ih' : ∀ l : List ℝ, (l.map (· + x)).sum = l.sum + l.length * x := by
          intro l
          induction l with
          | nil => simp
          | cons y l ih => simp only [List.map_cons, List.sum_cons, ih, List.length_cons]; push_cast; ring
        exact ih' _
    have hne : ((s.M - 1 : ℕ) : ℝ) ≠ 0 := by exact_mod_cast h2
    have hget : ∀ i, i < s.M - 1 → (l.map (· + x)).getD i 0 = l.getD i 0 + x := by
      intro i hi
      rw [← h1] at hi
      simp [List.getD_eq_getElem?_getD, List.getElem?_map, List.getElem?_eq_getElem hi]
    by_cases hk : 1 ≤ k ∧ k < s.M - 1
    · rw [if_pos hk, if_pos hk, hget k hk.2, hget (k - 1) (by omega), hsum, h1]
      have e : ∀ y : ℝ, y + x - (l.sum + ((s.M - 1 : ℕ) : ℝ) * x) / ((s.M - 1 : ℕ) : ℝ) =
          y - l.sum / ((s.M - 1 : ℕ) : ℝ) := by
        intro y
        field_simp
        ring
      rw [e, e]
    · rw [if_neg hk, if_neg hk]

/-- **C132, deviations.** While no locked positions were given, the reported deviations are those of the
steps of the current path, and they add up to zero. -/
theorem c132_deviations {N : ℕ} (s : Mep N) (hM : 2 ≤ s.M) (h2 : s.positions2 = none) :
    ∃ d, mepDeviations s = .ok d ∧ d = (List.range (s.M - 1)).map (stepDeviation s.M s.images) ∧ d.sum = 0 := by
  have h : mepDeviations s = .ok ((List.range (s.M - 1)).map (stepDeviation s.M s.images)) := by
    unfold mepDeviations
    simp only [h2, Option.getD_none, placesNorm_step, List.map_map]
    rw [if_neg (by omega), sum_map_range]
    rfl
  refine ⟨_, h, rfl, ?_⟩
  rw [sum_map_range]
  simp only [stepDeviation, Finset.sum_sub_distrib, Finset.sum_const, Finset.card_range, nsmul_eq_mul]
  have : ((s.M - 1 : ℕ) : ℝ) ≠ 0 := by
    have : s.M - 1 ≠ 0 := by omega
    exact_mod_cast this
  field_simp
  ring

theorem foldl_max_spec (l : List ℝ) : ∀ a : ℝ, a ≤ l.foldl max a ∧ (∀ x ∈ l, x ≤ l.foldl max a) ∧
    (l.foldl max a = a ∨ l.foldl max a ∈ l) := by
  induction l with
  | nil => intro a; simp
  | cons y t ih =>
    intro a
    obtain ⟨h1, h2, h3⟩ := ih (max a y)
    rw [List.foldl_cons]
    refine ⟨(le_max_left a y).trans h1, fun x hx => ?_, ?_⟩
    · rcases List.mem_cons.1 hx with rfl | hx
      · exact (le_max_right a x).trans h1
      · exact h2 x hx
    · rcases h3 with h3 | h3
      · rcases max_choice a y with hm | hm
        · left; rw [h3, hm]
        · right; rw [h3, hm]; exact List.mem_cons_self
      · right; exact List.mem_cons_of_mem _ h3

/-- **C132, largest deviation.** The reported number, times the average step, bounds the deviation of every
step of the path in either direction, and one step deviates that much. -/
theorem c132_max {N : ℕ} (s : Mep N) (hM : 2 ≤ s.M)
    (hL : 0 < (∑ i ∈ Finset.range (s.M - 1), pathStep s.images i) / ((s.M - 1 : ℕ) : ℝ)) :
    ∃ d, mepMaxDeviation s = .ok d ∧
      (∀ i < s.M - 1, |stepDeviation s.M s.images i| ≤
        d * ((∑ i ∈ Finset.range (s.M - 1), pathStep s.images i) / ((s.M - 1 : ℕ) : ℝ))) ∧
      ∃ i < s.M - 1, |stepDeviation s.M s.images i| =
        d * ((∑ i ∈ Finset.range (s.M - 1), pathStep s.images i) / ((s.M - 1 : ℕ) : ℝ)) := by
  have h : mepMaxDeviation s = .ok ((((List.range (s.M - 1)).map fun i => |stepDeviation s.M s.images i|).foldl max 0) /
      ((∑ i ∈ Finset.range (s.M - 1), pathStep s.images i) / ((s.M - 1 : ℕ) : ℝ))) := by
    unfold mepMaxDeviation
    simp only [placesNorm_step, List.map_map]
    rw [if_neg (by omega), sum_map_range]
    rfl
  refine ⟨_, h, ?_⟩
  rw [div_mul_cancel₀ _ hL.ne']
  obtain ⟨-, h2, h3⟩ := foldl_max_spec ((List.range (s.M - 1)).map fun i => |stepDeviation s.M s.images i|) 0
  have h2' : ∀ i < s.M - 1, |stepDeviation s.M s.images i| ≤
      ((List.range (s.M - 1)).map fun i => |stepDeviation s.M s.images i|).foldl max 0 := fun i hi =>
    h2 _ (List.mem_map.2 ⟨i, List.mem_range.2 hi, rfl⟩)
  refine ⟨h2', ?_⟩
  rcases h3 with h3 | h3
  · refine ⟨0, by omega, le_antisymm (h2' 0 (by omega)) ?_⟩
    rw [h3]
    exact abs_nonneg _
  · obtain ⟨i, hi, hv⟩ := List.mem_map.1 h3
    exact ⟨i, List.mem_range.1 hi, hv⟩

theorem interpolate_image {N : ℕ} (s : Mep N) (hM : 2 ≤ s.M) (i : ℕ) (hi : i < s.M) :
    (mepInterpolate s).images i =
      s.images 0 + ((i : ℝ) / ((s.M : ℝ) - 1)) • (s.images (s.M - 1) - s.images 0) := by
  unfold mepInterpolate
  simp only
  have hne : ((s.M : ℝ) - 1) ≠ 0 := by
    have : (2 : ℝ) ≤ s.M := by exact_mod_cast hM
    linarith
  split_ifs with h
  · rfl
  · by_cases h0 : i = 0
    · subst h0; simp
    · have : i = s.M - 1 := by omega
      subst this
      rw [Nat.cast_sub (by omega), Nat.cast_one, div_self hne, one_smul, add_sub_cancel]

/-- **C132, interpolation.** After `interpolate()` the ends are the old ones and all steps are equal, so
that all deviations vanish. -/
theorem c132_interpolate {N : ℕ} (s : Mep N) (hM : 2 ≤ s.M) (h2 : s.positions2 = none) :
    (mepInterpolate s).images 0 = s.images 0 ∧ (mepInterpolate s).images (s.M - 1) = s.images (s.M - 1) ∧
    (∀ i < s.M - 1, pathStep (mepInterpolate s).images i =
      placesNorm (s.images (s.M - 1) - s.images 0) / ((s.M : ℝ) - 1)) ∧
    mepDeviations (mepInterpolate s) = .ok (List.replicate (s.M - 1) 0) := by
  have hpos : (0 : ℝ) < (s.M : ℝ) - 1 := by
    have : (2 : ℝ) ≤ s.M := by exact_mod_cast hM
    linarith
  have hstep : ∀ i < s.M - 1, pathStep (mepInterpolate s).images i =
      placesNorm (s.images (s.M - 1) - s.images 0) / ((s.M : ℝ) - 1) := by
    intro i hi
    have e : ∀ p : Fin N × Fin 3, ((mepInterpolate s).images (i + 1) p.1 p.2 - (mepInterpolate s).images i p.1 p.2) ^ 2 =
        (s.images (s.M - 1) p.1 p.2 - s.images 0 p.1 p.2) ^ 2 / ((s.M : ℝ) - 1) ^ 2 := by
      intro p
      rw [interpolate_image s hM _ (by omega), interpolate_image s hM _ (by omega)]
      simp only [Pi.add_apply, Pi.smul_apply, Pi.sub_apply, smul_eq_mul]
      push_cast
      field_simp
      ring
    unfold pathStep placesNorm
    rw [Finset.sum_congr rfl fun p _ => e p, ← Finset.sum_div, Real.sqrt_div' _ (by positivity),
      Real.sqrt_sq hpos.le]
    rfl
  refine ⟨by simp [mepInterpolate], by simp [mepInterpolate], hstep, ?_⟩
  obtain ⟨d, hd, he, -⟩ := c132_deviations (mepInterpolate s) hM h2
  rw [hd, he]
  congr 1
  apply List.ext_getElem
  · simp [mepInterpolate]
  · intro i h1 h3
    have hi : i < s.M - 1 := by simpa [mepInterpolate] using h1
    simp only [List.getElem_map, List.getElem_range, List.getElem_replicate, stepDeviation]
    have hM' : (mepInterpolate s).M = s.M := rfl
    rw [hM', hstep i hi, Finset.sum_congr rfl fun j hj => hstep j (Finset.mem_range.1 hj)]
    rw [Finset.sum_const, Finset.card_range, nsmul_eq_mul, Nat.cast_sub (by omega), Nat.cast_one]
    field_simp
    ring

/-- **C132, positions.** The positions that were set are the positions read, and setting what was read
changes nothing. -/
theorem c132_positions {N : ℕ} [NeZero N] (s : Mep N) (h : s.lock = false) :
    (∀ p r, r < s.M * N → mepGetPositions (mepSetPositions s p) r = p r) ∧
      (mepSetPositions s (mepGetPositions s)).images = s.images := by
  have hN : 0 < N := Nat.pos_of_ne_zero (NeZero.ne N)
  constructor
  · intro p r hr
    have h1 : r / N < s.M := Nat.div_lt_of_lt_mul (by rwa [Nat.mul_comm])
    have h3 : r / N * N + r % N = r := by rw [Nat.mul_comm]; exact Nat.div_add_mod r N
    simp [mepGetPositions, mepSetPositions, h, h1, h3]
  · simp only [mepSetPositions, h]
    funext i
    simp only [Bool.false_eq_true, if_false]
    split_ifs with hi
    · funext a
      have h1 : (i * N + (a : ℕ)) / N = i := by
        rw [Nat.add_comm, Nat.add_mul_div_right _ _ hN, Nat.div_eq_of_lt a.2, Nat.zero_add]
      have h3 : Fin.ofNat N (i * N + (a : ℕ)) = a := by
        apply Fin.ext
        simp [Fin.ofNat, Nat.mul_add_mod', Nat.mod_eq_of_lt a.2]
      simp only [mepGetPositions, h1, h3]
    · rfl

/-- **C132, locked positions.** While the positions are locked, setting them moves no image. -/
theorem c132_locked {N : ℕ} (s : Mep N) (p : ℕ → Vec) :
    (mepSetPositions (mepLock s true) p).images = s.images := rfl

/-- **C132 fails after a lock**: positions given while the path was locked are remembered for ever.  Once
released and moved, the path still reports the deviations of those old positions. -/
theorem c132_stale_fails : ∃ (s : Mep 1) (p q : ℕ → Vec),
    let s' := mepSetPositions (mepLock (mepSetPositions (mepLock s true) p) false) q
    mepDeviations s' = .ok [-1 / 2, 1 / 2] ∧ stepDeviation s'.M s'.images 0 = 0 ∧ stepDeviation s'.M s'.images 1 = 0 := by
  have hn : ∀ x y : ℝ, ∀ R : ℕ → Places 1, R = (fun i _ => ![if i = 0 then 0 else if i = 1 then x else y, 0, 0]) →
      pathStep R 0 = |x| ∧ pathStep R 1 = |y - x| := by
    intro x y R hR
    subst hR
    constructor
    · simp [pathStep, Fintype.sum_prod_type, Fin.sum_univ_three, Real.sqrt_sq_eq_abs]
    · simp [pathStep, Fintype.sum_prod_type, Fin.sum_univ_three, Real.sqrt_sq_eq_abs]
  refine ⟨⟨3, fun _ => 0, false, none, .none⟩, fun i => ![if i = 0 then 0 else if i = 1 then 1 else 3, 0, 0],
    fun i => ![if i = 0 then 0 else if i = 1 then 1 else 2, 0, 0], ?_⟩
  intro s'
  have hp : s'.positions2 = some fun i (_ : Fin 1) => ![if i = 0 then 0 else if i = 1 then 1 else 3, 0, 0] := by
    simp [s', mepSetPositions, mepLock]
  have hM : s'.M = 3 := rfl
  have hstep : ∀ i < 2, pathStep s'.images i = 1 := by
    have hI : ∀ i < 3, s'.images i = fun _ => ![if i = 0 then 0 else if i = 1 then 1 else 2, 0, 0] := by
      intro i hi
      simp [s', mepSetPositions, mepLock, hi]
    intro i hi
    unfold pathStep
    rw [hI i (by omega), hI (i + 1) (by omega)]
    interval_cases i <;> norm_num [Fintype.sum_prod_type, Fin.sum_univ_three] <;> exact sub_self (0 : ℝ)
  refine ⟨?_, ?_, ?_⟩
  · unfold mepDeviations
    obtain ⟨R, hR⟩ : ∃ R : ℕ → Places 1, R = fun i (_ : Fin 1) => ![if i = 0 then 0 else if i = 1 then 1 else 3, 0, 0] :=
      ⟨_, rfl⟩
    obtain ⟨h0, h1⟩ := hn 1 3 R hR
    rw [hM, hp, ← hR]
    simp only [Option.getD_some, placesNorm_step]
    norm_num [List.range_succ, h0, h1]
  · simp only [stepDeviation, hM, Finset.sum_range_succ, Finset.sum_range_zero, hstep 0 (by norm_num), hstep 1 (by norm_num)]
    norm_num
  · simp only [stepDeviation, hM, Finset.sum_range_succ, Finset.sum_range_zero, hstep 0 (by norm_num), hstep 1 (by norm_num)]
    norm_num

/-- **C132 fails for multipliers in an array**: when `set_lambdas` was given a numpy array, as root
finders pass it, the next guess raises `ValueError` for three or more images. -/
theorem c132_array_fails {N : ℕ} (s : Mep N) (l : List ℝ) (h : 2 ≤ l.length) :
    mepLambdaGuess (mepSetLambdas s (.array l)) (.ok ()) = .error .valueError := by
  simp [mepLambdaGuess, mepSetLambdas, Bind.bind, Except.bind, h]

/-- **C132 fails before multipliers are set**: the forces of a new path cannot be asked for. -/
theorem c132_unset_fails {N : ℕ} (f : Places N → Places N) (M : ℕ) (images : ℕ → Places N) (s : Mep N)
    (h : mepNew M images = .ok s) : mepForces f s = .error .typeError := by
  unfold mepNew at h
  split_ifs at h
  cases h
  rfl

/-- **C132, energy.** For a path of equal steps, as after `interpolate()`, the energy reported is the function
the forces are derived from, whatever the multipliers. -/
theorem c132_energy {N : ℕ} (E : Places N → ℝ) (s : Mep N) (l : List ℝ)
    (h : ∀ i < s.M - 1, stepDeviation s.M s.images i = 0) :
    mepEnergy E s = pathLagrangian E s.M l s.images := by
  unfold mepEnergy pathLagrangian
  rw [Finset.sum_eq_zero (s := Finset.range (s.M - 1)), sub_zero]
  intro i hi
  rw [h i (Finset.mem_range.1 hi), mul_zero]

/-- Hypotheses of `c132_energy`: three images with steps of length one. -/
example : ∃ s : Mep 1, s.M = 3 ∧ pathStep s.images 0 = 1 ∧ ∀ i < s.M - 1, stepDeviation s.M s.images i = 0 := by
  have h : ∀ j, pathStep (fun i (_ : Fin 1) => (![(i : ℝ), 0, 0] : Vec)) j = 1 := by
    intro j
    simp [pathStep, Fintype.sum_prod_type, Fin.sum_univ_three]
  refine ⟨⟨3, fun i _ => ![(i : ℝ), 0, 0], false, none, .none⟩, rfl, h 0, fun i _ => ?_⟩
  simp only [stepDeviation, h]
  norm_num

/-- The hypotheses of `c132_forces` hold for a straight path of three images in a constant force. -/
example : ∃ (E : Places 1 → ℝ) (f : Places 1 → Places 1) (s : Mep 1) (l : List ℝ), s.lambdas = .list l ∧
    l.length = s.M - 1 ∧ 2 ≤ s.M ∧ (∀ i < s.M - 1, pathStep s.images i ≠ 0) ∧
    ∀ k < s.M, ∀ a c, HasDerivAt (fun t => E (putCoord (s.images k) a c t)) (-f (s.images k) a c) (s.images k a c) := by
  refine ⟨fun x => x 0 0, fun _ _ => ![-1, 0, 0], ⟨3, fun i _ => ![(i : ℝ), 0, 0], false, none, .list [1, 2]⟩, [1, 2], rfl,
    rfl, by norm_num, fun i _ => ?_, fun k _ a c => ?_⟩
  · simp [pathStep, Fintype.sum_prod_type, Fin.sum_univ_three]
  · have ha : a = 0 := Subsingleton.elim _ _
    subst ha
    fin_cases c
    · simp [putCoord]
      exact hasDerivAt_id _
    · simp [putCoord]
      exact hasDerivAt_const _ _
    · simp [putCoord]
      exact hasDerivAt_const _ _

/-- Hypotheses of `c132_max`: three images with steps of lengths one and three. -/
example : ∃ s : Mep 1, 2 ≤ s.M ∧
    0 < (∑ i ∈ Finset.range (s.M - 1), pathStep s.images i) / ((s.M - 1 : ℕ) : ℝ) ∧
    stepDeviation s.M s.images 0 ≠ 0 := by
  have h0 : pathStep (fun i (_ : Fin 1) => (![(i : ℝ) ^ 2, 0, 0] : Vec)) 0 = 1 := by
    simp [pathStep, Fintype.sum_prod_type, Fin.sum_univ_three]
  have h1 : pathStep (fun i (_ : Fin 1) => (![(i : ℝ) ^ 2, 0, 0] : Vec)) 1 = 3 := by
    simp [pathStep, Fintype.sum_prod_type, Fin.sum_univ_three]
    norm_num
  refine ⟨⟨3, fun i _ => ![(i : ℝ) ^ 2, 0, 0], false, none, .list [1, 2]⟩, by norm_num, ?_, ?_⟩
  · simp only [Nat.add_one_sub_one, Finset.sum_range_succ, Finset.sum_range_zero, h0, h1]
    norm_num
  · simp only [stepDeviation, Nat.add_one_sub_one, Finset.sum_range_succ, Finset.sum_range_zero, h0, h1]
    norm_num

end Hotbit
