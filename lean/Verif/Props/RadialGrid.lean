import Verif.Model.AtomSolver
import Verif.Spec.AtomSolver
import Mathlib.Analysis.SpecialFunctions.Integrals.Basic
import Mathlib.Tactic

/-!
# C95: integrals on the radial grid, density and Hartree potential of an atom
-/

namespace Hotbit

open Finset

theorem grid_pos {N : ℕ} {r : ℕ → ℝ} (h : RadialGridPts N r) {i : ℕ} (hi : i < N) : 0 < r i := by
  induction i with
  | zero => exact h.1
  | succ i ih => exact (ih (by omega)).trans (h.2 i hi)

theorem grid_lt {N : ℕ} {r : ℕ → ℝ} (h : RadialGridPts N r) {i j : ℕ} (hij : i < j) (hj : j < N) : r i < r j := by
  induction j, hij using Nat.le_induction with
  | base => exact h.2 i hj
  | succ j hj' ih => exact (ih (by omega)).trans (h.2 j hj)

theorem mid_bounds {N : ℕ} {r : ℕ → ℝ} (h : RadialGridPts N r) {i : ℕ} (hi : i + 1 < N) :
    r i < rgMid r i ∧ rgMid r i < r (i + 1) := by
  have := h.2 i hi
  unfold rgMid rgDr
  constructor <;> linarith

theorem shell_pos {N : ℕ} {r : ℕ → ℝ} (h : RadialGridPts N r) {i : ℕ} (hi : i + 1 < N) : 0 < rgShell r i := by
  have h1 := mid_bounds h hi
  have h2 := grid_pos h (show i < N by omega)
  have h3 : 0 < rgMid r i := h2.trans h1.1
  have h4 : 0 < rgDr r i := by
    unfold rgDr
    linarith [h.2 i hi]
  have := Real.pi_pos
  unfold rgShell
  positivity

theorem shell_sum_pos {N : ℕ} {r : ℕ → ℝ} (h : RadialGridPts N r) (hN : 2 ≤ N) :
    0 < ∑ j ∈ range (N - 1), rgShell r j :=
  sum_pos (fun i hi => shell_pos h (by rw [mem_range] at hi; omega)) ⟨0, by rw [mem_range]; omega⟩

theorem vol_pos {N : ℕ} {r : ℕ → ℝ} (h : RadialGridPts N r) {i : ℕ} (hi : i + 1 < N) : 0 < rgVol N r i := by
  have h1 := shell_pos h hi
  have h2 := shell_sum_pos h (show 2 ≤ N by omega)
  have h3 := grid_pos h (show N - 1 < N by omega)
  have := Real.pi_pos
  unfold rgVol
  positivity

/-- **C95.** The volume elements are positive and add up to the volume of the sphere of the outermost radius. -/
theorem c95_volume {N : ℕ} {r : ℕ → ℝ} (h : RadialGridPts N r) (hN : 2 ≤ N) :
    (∀ i, i + 1 < N → 0 < rgVol N r i) ∧
      ∑ i ∈ range (N - 1), rgVol N r i = 4 / 3 * Real.pi * r (N - 1) ^ 3 := by
  refine ⟨fun i hi => vol_pos h hi, ?_⟩
  have h2 := shell_sum_pos h hN
  unfold rgVol
  rw [← sum_mul]
  field_simp

/-- **C95.** Integrals are linear and monotone in the function. -/
theorem c95_linear {N : ℕ} {r : ℕ → ℝ} (h : RadialGridPts N r) (b : Bool) (f g : ℕ → ℝ) (c : ℝ) :
    rgIntegrate N r (fun i => c * f i + g i) b = c * rgIntegrate N r f b + rgIntegrate N r g b ∧
      ((∀ i < N, f i ≤ g i) → rgIntegrate N r f b ≤ rgIntegrate N r g b) := by
  constructor
  · unfold rgIntegrate
    cases b <;> simp only [if_true, if_false, Bool.false_eq_true]
    all_goals
      rw [show ∀ a b d : ℝ, c * (a * d) + b * d = (c * a + b) * d by intros; ring, mul_sum, ← sum_add_distrib]
      congr 1
      exact sum_congr rfl fun i _ => by ring
  · intro hfg
    unfold rgIntegrate
    cases b <;> simp only [if_true, if_false, Bool.false_eq_true]
    all_goals
      refine mul_le_mul_of_nonneg_right (sum_le_sum fun i hi => ?_) (by norm_num)
      rw [mem_range] at hi
      have h1 := hfg i (by omega)
      have h2 := hfg (i + 1) (by omega)
    · have : 0 < rgDr r i := by
        unfold rgDr
        linarith [h.2 i (by omega)]
      exact mul_le_mul_of_nonneg_right (by linarith) this.le
    · exact mul_le_mul_of_nonneg_right (by linarith) (vol_pos h (by omega)).le

theorem telescope (f : ℕ → ℝ) (n : ℕ) : ∑ i ∈ range n, (f (i + 1) - f i) = f n - f 0 := sum_range_sub f n

/-- **C95.** Functions that are linear in the radius are integrated exactly. -/
theorem c95_exact {N : ℕ} (r : ℕ → ℝ) (hN : 1 ≤ N) (a b : ℝ) :
    rgIntegrate N r (fun i => a * r i + b) false = ∫ x in (r 0)..(r (N - 1)), (a * x + b) := by
  rw [intervalIntegral.integral_add
    (Continuous.intervalIntegrable (by fun_prop) _ _) (Continuous.intervalIntegrable (by fun_prop) _ _), intervalIntegral.integral_const_mul, integral_id,
    intervalIntegral.integral_const]
  unfold rgIntegrate
  simp only [if_false, Bool.false_eq_true]
  have : ∀ i, (a * r i + b + (a * r (i + 1) + b)) * rgDr r i
      = (a * r (i + 1) ^ 2 + 2 * b * r (i + 1)) - (a * r i ^ 2 + 2 * b * r i) := by
    intro i
    unfold rgDr
    ring
  simp only [this]
  rw [telescope (fun i => a * r i ^ 2 + 2 * b * r i)]
  simp
  ring

/-- **C95.** A constant density integrates to itself times the volume of the sphere. -/
theorem c95_constant {N : ℕ} {r : ℕ → ℝ} (h : RadialGridPts N r) (hN : 2 ≤ N) (c : ℝ) :
    rgIntegrate N r (fun _ => c) true = c * (4 / 3 * Real.pi * r (N - 1) ^ 3) := by
  unfold rgIntegrate
  rw [if_pos rfl, ← mul_sum, (c95_volume h hN).2]
  ring

theorem atomGrid_eq (Z rmax : ℝ) {N : ℕ} (hN : 2 ≤ N) {i : ℕ} (hi : i < N) :
    atomGrid Z rmax N i = 1 / 10 ^ 2 / Z * Real.exp (i * (Real.log (rmax / (1 / 10 ^ 2 / Z)) / ((N : ℝ) - 1))) := by
  unfold atomGrid linspace
  simp [List.getD, hi, show N ≠ 1 by omega]

/-- **C95.** The grid of an atom starts at `0.01/Z`, ends at `rmax`, is positive and increasing, and neighbouring points
have a constant ratio. -/
theorem c95_grid {Z rmax : ℝ} (hZ : 1 ≤ Z) (hr : 1 / 100 < rmax) {N : ℕ} (hN : 2 ≤ N) :
    RadialGridPts N (atomGrid Z rmax N) ∧ atomGrid Z rmax N 0 = 1 / 100 / Z ∧ atomGrid Z rmax N (N - 1) = rmax ∧
      ∃ q > 1, ∀ i, i + 1 < N → atomGrid Z rmax N (i + 1) = q * atomGrid Z rmax N i := by
  have hZ0 : 0 < Z := by linarith
  have hmin : 0 < 1 / 10 ^ 2 / Z := by positivity
  have hmin' : 1 / 10 ^ 2 / Z ≤ 1 / 100 := by
    rw [div_le_iff₀ hZ0]
    nlinarith
  have hlog : 0 < Real.log (rmax / (1 / 10 ^ 2 / Z)) := Real.log_pos (by
    rw [lt_div_iff₀ hmin]
    linarith)
  have hN' : 0 < (N : ℝ) - 1 := by
    have : (2 : ℝ) ≤ N := by exact_mod_cast hN
    linarith
  have hstep : ∀ i, i + 1 < N → atomGrid Z rmax N (i + 1)
      = Real.exp (Real.log (rmax / (1 / 10 ^ 2 / Z)) / ((N : ℝ) - 1)) * atomGrid Z rmax N i := by
    intro i hi
    rw [atomGrid_eq Z rmax hN hi, atomGrid_eq Z rmax hN (show i < N by omega)]
    push_cast
    rw [add_mul, Real.exp_add]
    ring_nf
  have hq : 1 < Real.exp (Real.log (rmax / (1 / 10 ^ 2 / Z)) / ((N : ℝ) - 1)) := Real.one_lt_exp_iff.2 (by positivity)
  have h0 : atomGrid Z rmax N 0 = 1 / 100 / Z := by
    rw [atomGrid_eq Z rmax hN (by omega)]
    norm_num
  have hpos : ∀ i < N, 0 < atomGrid Z rmax N i := by
    intro i hi
    rw [atomGrid_eq Z rmax hN hi]
    positivity
  refine ⟨⟨hpos 0 (by omega), fun i hi => ?_⟩, h0, ?_, _, hq, hstep⟩
  · rw [hstep i hi]
    have := hpos i (by omega)
    nlinarith
  · rw [atomGrid_eq Z rmax hN (by omega)]
    have : ((N - 1 : ℕ) : ℝ) = (N : ℝ) - 1 := by
      rw [Nat.cast_sub (by omega)]
      simp
    rw [this, mul_div_cancel₀ _ hN'.ne', Real.exp_log (by positivity)]
    field_simp

/-- A grid as in the theorems. -/
example : RadialGridPts 500 (atomGrid 6 100 500) := (c95_grid (by norm_num) (by norm_num) (by norm_num)).1

/-- **C95.** The initial density holds all electrons. -/
theorem c95_guess {N : ℕ} {r : ℕ → ℝ} (h : RadialGridPts N r) (hN : 2 ≤ N) (Z nel : ℝ) :
    rgIntegrate N r (guessDensity N r Z nel) true = nel := by
  set d : ℕ → ℝ := fun i => Real.exp (-r i / (0.02 * Z / Real.log 2)) with hd
  have hpos : 0 < rgIntegrate N r d true := by
    unfold rgIntegrate
    rw [if_pos rfl]
    refine mul_pos (sum_pos (fun i hi => ?_) ⟨0, by rw [mem_range]; omega⟩) (by norm_num)
    rw [mem_range] at hi
    have := vol_pos h (show i + 1 < N by omega)
    have : 0 < d i + d (i + 1) := by simp only [hd]; positivity
    positivity
  have h1 : guessDensity N r Z nel = fun i => (nel / rgIntegrate N r d true) * d i + 0 := by
    funext i
    unfold guessDensity
    simp only [← hd]
    ring
  rw [h1, (c95_linear h true d (fun _ => 0) _).1]
  have h2 : rgIntegrate N r (fun _ => (0 : ℝ)) true = 0 := by
    rw [c95_constant h hN]
    ring
  rw [h2]
  field_simp
  ring

theorem integrate_sum {N : ℕ} {r : ℕ → ℝ} (h : RadialGridPts N r) (b : Bool) (l : List (ℝ × (ℕ → ℝ))) :
    rgIntegrate N r (fun i => (l.map fun s => s.1 * s.2 i ^ 2).sum) b
      = (l.map fun s => s.1 * rgIntegrate N r (fun i => s.2 i ^ 2) b).sum := by
  induction l with
  | nil =>
    simp only [List.map_nil, List.sum_nil]
    unfold rgIntegrate
    simp
  | cons a l ih =>
    simp only [List.map_cons, List.sum_cons]
    rw [(c95_linear h b (fun i => a.2 i ^ 2) (fun i => (l.map fun s => s.1 * s.2 i ^ 2).sum) a.1).1, ih]

/-- **C95.** If the radial functions are normalised the density is found, it is not negative for non-negative occupations,
and it holds as many electrons as there are in the states: `∫ 4π r² n(r) dr = ∑ f`. -/
theorem c95_density {N : ℕ} {r : ℕ → ℝ} (h : RadialGridPts N r) (states : List (ℝ × (ℕ → ℝ)))
    (hn : ∀ s ∈ states, rgIntegrate N r (fun i => s.2 i ^ 2) false = 1) :
    ∃ d, calcDensity N r (states.map Prod.fst).sum states = .ok d ∧
      rgIntegrate N r (fun i => 4 * Real.pi * r i ^ 2 * d i) false = (states.map Prod.fst).sum ∧
      ((∀ s ∈ states, 0 ≤ s.1) → ∀ i, 0 ≤ d i) := by
  have h1 : rgIntegrate N r (fun i => (states.map fun s => s.1 * s.2 i ^ 2).sum) false = (states.map Prod.fst).sum := by
    rw [integrate_sum h]
    congr 1
    refine List.map_congr_left fun s hs => ?_
    rw [hn s hs, mul_one]
  have h2 : calcDensity N r (states.map Prod.fst).sum states
      = .ok fun i => (states.map fun s => s.1 * s.2 i ^ 2).sum / (4 * Real.pi * r i ^ 2) := by
    unfold calcDensity
    simp only
    rw [h1, if_neg (by norm_num)]
  refine ⟨_, h2, ?_, ?_⟩
  · rw [← h1]
    unfold rgIntegrate
    simp only [if_false, Bool.false_eq_true]
    congr 1
    refine sum_congr rfl fun i hi => ?_
    rw [mem_range] at hi
    have := grid_pos h (show i < N by omega)
    have := grid_pos h (show i + 1 < N by omega)
    have := Real.pi_pos
    congr 2 <;> field_simp
  · intro hp i
    have := Real.pi_pos
    refine div_nonneg (List.sum_nonneg ?_) (by positivity)
    intro x hx
    rw [List.mem_map] at hx
    obtain ⟨s, hs, rfl⟩ := hx
    have := hp s hs
    positivity

/-- **C95.** A density that does not hold the given number of electrons is refused. -/
theorem c95_refused {N : ℕ} {r : ℕ → ℝ} (h : RadialGridPts N r) (nel : ℝ) (states : List (ℝ × (ℕ → ℝ)))
    (hn : ∀ s ∈ states, rgIntegrate N r (fun i => s.2 i ^ 2) false = 1)
    (hd : |(states.map Prod.fst).sum - nel| > 1 / 10 ^ 10) : calcDensity N r nel states = .error .runtimeError := by
  have h1 : rgIntegrate N r (fun i => (states.map fun s => s.1 * s.2 i ^ 2).sum) false = (states.map Prod.fst).sum := by
    rw [integrate_sum h]
    congr 1
    refine List.map_congr_left fun s hs => ?_
    rw [hn s hs, mul_one]
  unfold calcDensity
  simp only
  rw [h1, if_pos hd]

/-- A grid of two points with a normalised function. -/
example : RadialGridPts 2 (fun i => (i : ℝ) + 1) ∧
    rgIntegrate 2 (fun i => (i : ℝ) + 1) (fun i => ((fun _ => (1 : ℝ)) i) ^ 2) false = 1 := by
  refine ⟨⟨by norm_num, fun i _ => by push_cast; linarith⟩, ?_⟩
  simp [rgIntegrate, rgDr]
  norm_num

/-! ### The Hartree potential -/

theorem lo_eq (N : ℕ) (r : ℕ → ℝ) (nel : ℝ) (dens : ℕ → ℝ) (i : ℕ) :
    hartreeLo N r nel dens i = ∑ j ∈ range i, shellCharge N r nel dens j := by
  induction i with
  | zero => simp [hartreeLo]
  | succ i ih => rw [hartreeLo, ih, sum_range_succ]

theorem hi_eq {N : ℕ} (r : ℕ → ℝ) (nel : ℝ) (dens : ℕ → ℝ) {k : ℕ} (hk : k ≤ N - 1) :
    hartreeHiAux N r nel dens k = ∑ j ∈ Ico (N - 1 - k) (N - 1), shellCharge N r nel dens j / rgMid r j := by
  induction k with
  | zero => simp [hartreeHiAux]
  | succ k ih =>
    rw [hartreeHiAux, ih (by omega), sum_eq_sum_Ico_succ_bot (show N - 1 - (k + 1) < N - 1 by omega)]
    rw [show N - 1 - (k + 1) + 1 = N - 1 - k by omega]
    ring

/-- The charges of the shells add up to the number of electrons. -/
theorem charge_sum {N : ℕ} {r : ℕ → ℝ} (nel : ℝ) (dens : ℕ → ℝ)
    (hd : ∑ j ∈ range (N - 1), 0.5 * (dens (j + 1) + dens j) * rgVol N r j ≠ 0) :
    ∑ j ∈ range (N - 1), shellCharge N r nel dens j = nel := by
  unfold shellCharge
  simp only
  have : ∀ i, 0.5 * (dens (i + 1) + dens i) * (nel / ∑ j ∈ range (N - 1), 0.5 * (dens (j + 1) + dens j) * rgVol N r j)
      * rgVol N r i = (0.5 * (dens (i + 1) + dens i) * rgVol N r i) *
        (nel / ∑ j ∈ range (N - 1), 0.5 * (dens (j + 1) + dens j) * rgVol N r j) := by
    intro i
    ring
  simp only [this]
  rw [← sum_mul, mul_div_cancel₀ _ hd]

theorem dens_sum_pos {N : ℕ} {r : ℕ → ℝ} (h : RadialGridPts N r) {dens : ℕ → ℝ} (hd : ∀ i < N, 0 ≤ dens i)
    (hp : ∃ i < N, 0 < dens i) (hN : 2 ≤ N) :
    0 < ∑ j ∈ range (N - 1), 0.5 * (dens (j + 1) + dens j) * rgVol N r j := by
  obtain ⟨i, hi, hpi⟩ := hp
  have hnn : ∀ j ∈ range (N - 1), 0 ≤ 0.5 * (dens (j + 1) + dens j) * rgVol N r j := by
    intro j hj
    rw [mem_range] at hj
    have := hd j (by omega)
    have := hd (j + 1) (by omega)
    have := vol_pos h (show j + 1 < N by omega)
    positivity
  rcases Nat.lt_or_ge i (N - 1) with h1 | h1
  · refine sum_pos' hnn ⟨i, mem_range.2 h1, ?_⟩
    have := hd (i + 1) (by omega)
    have := vol_pos h (show i + 1 < N by omega)
    positivity
  · refine sum_pos' hnn ⟨N - 2, by rw [mem_range]; omega, ?_⟩
    have h2 : N - 2 + 1 = i := by omega
    have := hd (N - 2) (by omega)
    have := vol_pos h (show N - 2 + 1 < N by omega)
    rw [h2]
    positivity

/-- **C95.** The Hartree potential at every grid point is the potential of charged shells half-way between the grid points;
their charges are not negative and add up to the number of electrons. -/
theorem c95_hartree {N : ℕ} {r : ℕ → ℝ} (h : RadialGridPts N r) (hN : 2 ≤ N) {dens : ℕ → ℝ} (hd : ∀ i < N, 0 ≤ dens i)
    (hp : ∃ i < N, 0 < dens i) {nel : ℝ} (hnel : 0 ≤ nel) :
    ∃ q : ℕ → ℝ, (∀ j < N - 1, 0 ≤ q j) ∧ ∑ j ∈ range (N - 1), q j = nel ∧
      ∀ i < N, hartreePot N r nel dens i
        = shellPotential (N - 1) q (fun j => (r j + r (j + 1)) / 2) (r i) := by
  have hpos := dens_sum_pos h hd hp hN
  refine ⟨shellCharge N r nel dens, fun j hj => ?_, charge_sum nel dens hpos.ne', fun i hi => ?_⟩
  · have h1 := hd j (by omega)
    have h2 := hd (j + 1) (by omega)
    have h3 := vol_pos h (show j + 1 < N by omega)
    unfold shellCharge
    simp only
    positivity
  · unfold hartreePot shellPotential
    rw [lo_eq, hi_eq r nel dens (by omega), show N - 1 - (N - 1 - i) = i by omega, sum_div,
      range_eq_Ico, range_eq_Ico, ← sum_Ico_consecutive _ (Nat.zero_le i) (show i ≤ N - 1 by omega)]
    have hm : ∀ j, (r j + r (j + 1)) / 2 = rgMid r j := by
      intro j
      unfold rgMid rgDr
      ring
    simp only [hm]
    congr 1
    · refine sum_congr rfl fun j hj => ?_
      rw [mem_Ico] at hj
      have h1 := mid_bounds h (show j + 1 < N by omega)
      have h2 : r (j + 1) ≤ r i := by
        rcases Nat.lt_or_ge (j + 1) i with h3 | h3
        · exact (grid_lt h h3 hi).le
        · rw [show j + 1 = i by omega]
      rw [max_eq_left (by linarith)]
    · refine sum_congr rfl fun j hj => ?_
      rw [mem_Ico] at hj
      have h1 := mid_bounds h (show j + 1 < N by omega)
      have h2 : r i ≤ r j := by
        rcases Nat.lt_or_ge i j with h3 | h3
        · exact (grid_lt h h3 (by omega)).le
        · rw [show j = i by omega]
      rw [max_eq_right (by linarith)]

/-- **C95.** So the potential is not negative, does not increase with the distance, and at the outermost point it is that of
all electrons at the origin. -/
theorem c95_hartree_shape {N : ℕ} {r : ℕ → ℝ} (h : RadialGridPts N r) (hN : 2 ≤ N) {dens : ℕ → ℝ}
    (hd : ∀ i < N, 0 ≤ dens i) (hp : ∃ i < N, 0 < dens i) {nel : ℝ} (hnel : 0 ≤ nel) :
    (∀ i < N, 0 ≤ hartreePot N r nel dens i) ∧
      (∀ i, i + 1 < N → hartreePot N r nel dens (i + 1) ≤ hartreePot N r nel dens i) ∧
      hartreePot N r nel dens (N - 1) = nel / r (N - 1) := by
  obtain ⟨q, hq, hs, hpot⟩ := c95_hartree h hN hd hp hnel
  refine ⟨fun i hi => ?_, fun i hi => ?_, ?_⟩
  · rw [hpot i hi]
    refine sum_nonneg fun j hj => ?_
    rw [mem_range] at hj
    exact div_nonneg (hq j hj) (le_max_of_le_left (grid_pos h hi).le)
  · rw [hpot i (by omega), hpot (i + 1) hi]
    refine sum_le_sum fun j hj => ?_
    rw [mem_range] at hj
    have h1 := grid_pos h (show i < N by omega)
    exact div_le_div_of_nonneg_left (hq j hj) (lt_max_of_lt_left h1) (max_le_max_right _ (h.2 i hi).le)
  · rw [hpot _ (by omega)]
    unfold shellPotential
    rw [← hs, sum_div]
    refine sum_congr rfl fun j hj => ?_
    rw [mem_range] at hj
    have h1 : r (j + 1) ≤ r (N - 1) := by
      rcases Nat.lt_or_ge (j + 1) (N - 1) with h3 | h3
      · exact (grid_lt h h3 (by omega)).le
      · rw [show j + 1 = N - 1 by omega]
    have h2 := h.2 j (by omega)
    rw [max_eq_left (by linarith)]

/-- A density as in the hypotheses: the initial guess for carbon. -/
example : (∀ i < 500, 0 ≤ (fun j : ℕ => Real.exp (-atomGrid 6 100 500 j)) i) ∧
    ∃ i < 500, 0 < (fun j : ℕ => Real.exp (-atomGrid 6 100 500 j)) i :=
  ⟨fun _ _ => (Real.exp_pos _).le, 0, by norm_num, Real.exp_pos _⟩

end Hotbit
