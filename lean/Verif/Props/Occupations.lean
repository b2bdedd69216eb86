import Verif.Model.Occupations
import Mathlib.Analysis.SpecialFunctions.Exp
import Mathlib.Topology.Order.IntermediateValue
import Mathlib.Algebra.BigOperators.Field
import Mathlib.Analysis.Complex.ExponentialBounds

set_option linter.unusedSimpArgs false

/-!
# C13, C14: occupations
-/

namespace Hotbit

open Real

theorem maxExpArg_pos : 600 < maxExpArg := by
  have h1 : (2 : ℝ) ^ 1023 ≤ 2 ^ 1024 - 2 ^ 971 := by
    have h3 : (2 : ℝ) ^ 971 ≤ 2 ^ 1023 := pow_le_pow_right₀ (by norm_num) (by norm_num)
    have h4 : (2 : ℝ) ^ 1024 = 2 ^ 1023 * 2 := pow_succ 2 1023
    rw [h4]
    generalize (2 : ℝ) ^ 1023 = x at *
    generalize (2 : ℝ) ^ 971 = y at *
    linarith
  have h2 : Real.log (2 ^ 1023) ≤ maxExpArg := Real.log_le_log (by positivity) h1
  rw [Real.log_pow] at h2
  have := Real.log_two_gt_d9
  norm_num at h2
  linarith

/-- C13: occupations are at least 0 and below 2 (strictly positive unless the state is so far
above the chemical potential that the exponential overflows). -/
theorem c13_range (w mu e : ℝ) :
    0 ≤ fermi w mu e ∧ fermi w mu e < 2 ∧ ((e - mu) / w < maxExpArg → 0 < fermi w mu e) := by
  have hpos := exp_pos ((e - mu) / w)
  have h1 : 0 < 2 / (exp ((e - mu) / w) + 1) := by positivity
  have h2 : 2 / (exp ((e - mu) / w) + 1) < 2 := by
    rw [div_lt_iff₀ (by positivity)]; linarith
  unfold fermi
  split
  · exact ⟨h1.le, h2, fun _ => h1⟩
  · rename_i h; exact ⟨le_refl _, two_pos, fun h' => absurd h' h⟩

example : 0 < fermi 0.02 (-0.3) (-0.1) := by
  refine (c13_range _ _ _).2.2 ?_
  have := maxExpArg_pos
  norm_num
  linarith

/-- C13: higher energies never have larger occupations (hence equal energies get equal ones), and
raising the chemical potential never lowers an occupation. -/
theorem c13_monotone (w : ℝ) (hw : 0 < w) (mu mu' e e' : ℝ) (he : e' ≤ e) (hmu : mu ≤ mu') :
    fermi w mu e ≤ fermi w mu' e' := by
  have harg : (e' - mu') / w ≤ (e - mu) / w := by gcongr
  have hexp := exp_le_exp.2 harg
  have hpos := exp_pos ((e' - mu') / w)
  unfold fermi
  by_cases h : (e - mu) / w < maxExpArg
  · rw [if_pos h, if_pos (harg.trans_lt h)]
    gcongr
  · rw [if_neg h]
    have := (c13_range w mu' e').1
    unfold fermi at this
    exact this

/-- C13: half filling exactly at the chemical potential, particle-hole symmetry around it. -/
theorem c13_symmetry (w mu d : ℝ) (h1 : d / w < maxExpArg) (h2 : -d / w < maxExpArg) :
    fermi w mu mu = 1 ∧ fermi w mu (mu + d) + fermi w mu (mu - d) = 2 := by
  have h0 : (0 : ℝ) < maxExpArg := by linarith [maxExpArg_pos]
  have e1 : (mu + d - mu) / w = d / w := by ring
  have e2 : (mu - d - mu) / w = -d / w := by ring
  constructor
  · simp [fermi, h0]; norm_num
  · unfold fermi
    rw [e1, e2, if_pos h1, if_pos h2, neg_div, exp_neg]
    have := exp_pos (d / w)
    field_simp
    ring

example : (0.5 : ℝ) / 0.02 < maxExpArg ∧ -(0.5 : ℝ) / 0.02 < maxExpArg := by
  have := maxExpArg_pos
  constructor <;> norm_num <;> linarith

variable {nk norb : ℕ}

/-- C14: whatever the root finder does, returned occupations add up to the number of electrons
within 1e-10, and they are the Fermi occupations at the returned chemical potential. -/
theorem c14_conserves (o : Occ nk norb) (brentq : (ℝ → ℝ) → ℝ → ℝ → Except Exn ℝ)
    (mu : ℝ) (f : Fin nk → Fin norb → ℝ) (h : o.occupy brentq = .ok (mu, f)) :
    |(∑ k, ∑ a, o.wk k * f k a) - o.nel| ≤ 1e-10 ∧
      f = fun k a => fermi o.width mu (o.e k a) := by
  unfold Occ.occupy at h
  split at h
  · split at h
    · simp at h
    · split at h
      · simp at h
      · rename_i hle
        simp only [Except.ok.injEq, Prod.mk.injEq] at h
        obtain ⟨rfl, rfl⟩ := h
        exact ⟨not_lt.1 hle, rfl⟩
  · simp at h

/-- The ideal electron count at chemical potential `mu` (Fermi function without overflow guard). -/
noncomputable def idealCount (o : Occ nk norb) (mu : ℝ) : ℝ :=
  ∑ k, ∑ a, o.wk k * (2 / (exp ((o.e k a - mu) / o.width) + 1))

theorem idealCount_continuous (o : Occ nk norb) : Continuous (idealCount o) := by
  unfold idealCount
  refine continuous_finsetSum _ fun k _ => continuous_finsetSum _ fun a _ => ?_
  refine continuous_const.mul (continuous_const.div (by fun_prop) ?_)
  intro x
  have := exp_pos ((o.e k a - x) / o.width)
  positivity

/-- Positive weights, positive temperature and at least one state. -/
structure Occ.Proper (o : Occ nk norb) : Prop where
  width : 0 < o.width
  wk : ∀ k, 0 < o.wk k
  nk : 0 < nk
  norb : 0 < norb

theorem idealCount_strictMono (o : Occ nk norb) (h : o.Proper) : StrictMono (idealCount o) := by
  intro x y hxy
  have : Nonempty (Fin nk) := ⟨⟨0, h.nk⟩⟩
  have : Nonempty (Fin norb) := ⟨⟨0, h.norb⟩⟩
  unfold idealCount
  refine Finset.sum_lt_sum_of_nonempty Finset.univ_nonempty fun k _ =>
    Finset.sum_lt_sum_of_nonempty Finset.univ_nonempty fun a _ => ?_
  have hlt : exp ((o.e k a - y) / o.width) < exp ((o.e k a - x) / o.width) := by
    rw [exp_lt_exp]
    exact div_lt_div_of_pos_right (by linarith) h.width
  have hp := exp_pos ((o.e k a - y) / o.width)
  have := h.wk k
  gcongr

/-- Total capacity: two electrons per state. -/
noncomputable def capacity (o : Occ nk norb) : ℝ := 2 * norb * ∑ k, o.wk k

theorem capacity_eq (o : Occ nk norb) : capacity o = ∑ k : Fin nk, ∑ _a : Fin norb, o.wk k * 2 := by
  simp [capacity, Finset.mul_sum]
  exact Finset.sum_congr rfl fun k _ => by ring

/-- C14: for any electron number strictly between 0 and the capacity there is exactly one chemical
potential with that count. -/
theorem c14_exists_unique (o : Occ nk norb) (h : o.Proper) (h0 : 0 < o.nel)
    (h1 : o.nel < capacity o) : ∃! mu, idealCount o mu = o.nel := by
  have lo : Filter.Tendsto (idealCount o) Filter.atBot (nhds 0) := by
    have : Filter.Tendsto (idealCount o) Filter.atBot
        (nhds (∑ k : Fin nk, ∑ _a : Fin norb, o.wk k * 0)) := by
      unfold idealCount
      refine tendsto_finsetSum _ fun k _ => tendsto_finsetSum _ fun a _ => ?_
      refine tendsto_const_nhds.mul ?_
      refine Filter.Tendsto.div_atTop tendsto_const_nhds ?_
      refine Filter.tendsto_atTop_add_const_right _ _ (tendsto_exp_atTop.comp ?_)
      refine Filter.Tendsto.atTop_div_const h.width ?_
      have : (fun x : ℝ => o.e k a - x) = fun x => -x + o.e k a := by ext; ring
      refine Filter.Tendsto.congr (fun x => (congrFun this x).symm) ?_
      exact Filter.tendsto_atTop_add_const_right _ _ Filter.tendsto_neg_atBot_atTop
    simpa using this
  have hi : Filter.Tendsto (idealCount o) Filter.atTop (nhds (capacity o)) := by
    rw [capacity_eq]
    unfold idealCount
    refine tendsto_finsetSum _ fun k _ => tendsto_finsetSum _ fun a _ => ?_
    refine tendsto_const_nhds.mul ?_
    have ht : Filter.Tendsto (fun x => exp ((o.e k a - x) / o.width) + 1) Filter.atTop
        (nhds (0 + 1)) := by
      refine Filter.Tendsto.add_const 1 (tendsto_exp_atBot.comp ?_)
      refine Filter.Tendsto.atBot_div_const h.width ?_
      have : (fun x : ℝ => o.e k a - x) = fun x => -x + o.e k a := by ext; ring
      refine Filter.Tendsto.congr (fun x => (congrFun this x).symm) ?_
      exact Filter.tendsto_atBot_add_const_right _ _ Filter.tendsto_neg_atTop_atBot
    have := (tendsto_const_nhds (x := (2 : ℝ))).div ht (by norm_num)
    simp only [zero_add, div_one] at this
    exact this
  obtain ⟨a, ha⟩ := (lo.eventually (gt_mem_nhds h0)).exists
  obtain ⟨b, hb⟩ := (hi.eventually (lt_mem_nhds h1)).exists
  obtain ⟨mu, hmu⟩ := mem_range_of_exists_le_of_exists_ge (idealCount_continuous o)
    ⟨a, ha.le⟩ ⟨b, hb.le⟩
  exact ⟨mu, hmu, fun y hy => (idealCount_strictMono o h).injective (hy.trans hmu.symm)⟩

theorem mem_flat (o : Occ nk norb) (x : ℝ) : x ∈ o.flat ↔ ∃ k a, o.e k a = x := by
  simp [Occ.flat]

theorem sorted_ends (o : Occ nk norb) (h : o.Proper) :
    ∃ lo hi, o.sorted.head? = some lo ∧ o.sorted.getLast? = some hi ∧
      ∀ k a, lo ≤ o.e k a ∧ o.e k a ≤ hi := by
  classical
  have hmem : ∀ x, x ∈ o.sorted ↔ ∃ k a, o.e k a = x := by
    intro x; rw [← mem_flat]; exact List.mem_mergeSort
  have hne : o.sorted ≠ [] := by
    have : o.e ⟨0, h.nk⟩ ⟨0, h.norb⟩ ∈ o.sorted := (hmem _).2 ⟨_, _, rfl⟩
    exact List.ne_nil_of_mem this
  have hs : o.sorted.Pairwise (fun x y => x ≤ y) := by
    have := List.pairwise_mergeSort (le := fun x y : ℝ => decide (x ≤ y))
      (fun a b c h1 h2 => by simp at *; linarith) (fun a b => by simp [le_total]) o.flat
    exact this.imp fun h => by simpa using h
  refine ⟨o.sorted.head hne, o.sorted.getLast hne, List.head?_eq_some_head hne,
    List.getLast?_eq_some_getLast hne, fun k a => ?_⟩
  have hx : o.e k a ∈ o.sorted := (hmem _).2 ⟨k, a, rfl⟩
  constructor
  · obtain ⟨y, l, hl⟩ := List.exists_cons_of_ne_nil hne
    simp only [hl, List.head_cons] at hx hs ⊢
    rcases List.mem_cons.1 hx with hx | hx
    · exact hx.ge
    · exact (List.pairwise_cons.1 hs).1 _ hx
  · have e := List.dropLast_append_getLast hne
    rw [← e] at hx hs
    rcases List.mem_append.1 hx with hx | hx
    · exact (List.pairwise_append.1 hs).2.2 _ hx _ (by simp)
    · simp at hx; exact hx.le

/-- C14: the interval in which `occupy` searches, from one width below the lowest to one width above
the highest level, contains the solution if the filling is moderate: between `2/(1+e)` and
`2/(1+1/e)` electrons per state on average. Missing: other fillings, see `c14_bracket_fails`. -/
theorem c14_bracket_partial (o : Occ nk norb) (h : o.Proper)
    (h0 : capacity o / (exp 1 + 1) ≤ o.nel) (h1 : o.nel ≤ capacity o / (exp (-1) + 1)) :
    ∃ lo hi, o.sorted.head? = some lo ∧ o.sorted.getLast? = some hi ∧
      ∃ mu, lo - o.width ≤ mu ∧ mu ≤ hi + o.width ∧ idealCount o mu = o.nel := by
  obtain ⟨lo, hi, hlo, hhi, hb⟩ := sorted_ends o h
  refine ⟨lo, hi, hlo, hhi, ?_⟩
  have hw := h.width
  have c1 : idealCount o (lo - o.width) ≤ o.nel := by
    refine le_trans ?_ h0
    rw [capacity_eq, idealCount, Finset.sum_div]
    refine Finset.sum_le_sum fun k _ => ?_
    rw [Finset.sum_div]
    refine Finset.sum_le_sum fun a _ => ?_
    have : exp 1 ≤ exp ((o.e k a - (lo - o.width)) / o.width) := by
      rw [exp_le_exp, le_div_iff₀ hw]; linarith [(hb k a).1]
    have := exp_pos (1 : ℝ)
    have := h.wk k
    rw [mul_div_assoc]
    gcongr
  have c2 : o.nel ≤ idealCount o (hi + o.width) := by
    refine le_trans h1 ?_
    rw [capacity_eq, idealCount, Finset.sum_div]
    refine Finset.sum_le_sum fun k _ => ?_
    rw [Finset.sum_div]
    refine Finset.sum_le_sum fun a _ => ?_
    have : exp ((o.e k a - (hi + o.width)) / o.width) ≤ exp (-1) := by
      rw [exp_le_exp, div_le_iff₀ hw]; linarith [(hb k a).2]
    have := exp_pos ((o.e k a - (hi + o.width)) / o.width)
    have := h.wk k
    rw [mul_div_assoc]
    gcongr
  have hle : lo - o.width ≤ hi + o.width := by
    have := hb ⟨0, h.nk⟩ ⟨0, h.norb⟩; linarith [this.1, this.2]
  obtain ⟨mu, hmu, he⟩ := intermediate_value_Icc hle (idealCount_continuous o).continuousOn ⟨c1, c2⟩
  exact ⟨mu, hmu.1, hmu.2, he⟩

/-- C14: the overflow guard changes the electron count by less than 1e-250 times the capacity, so a
root of the ideal count passes the final check. -/
theorem c14_guard_harmless (o : Occ nk norb) (h : o.Proper) (mu : ℝ) :
    |o.root mu - (idealCount o mu - o.nel)| ≤ capacity o * exp (-600) := by
  have key : ∀ k a, |fermi o.width mu (o.e k a) - 2 / (exp ((o.e k a - mu) / o.width) + 1)|
      ≤ 2 * exp (-600) := by
    intro k a
    unfold fermi
    split
    · simp; positivity
    · rename_i hh
      push Not at hh
      have h6 : (600 : ℝ) ≤ (o.e k a - mu) / o.width := by linarith [maxExpArg_pos]
      have h7 := exp_le_exp.2 h6
      have hp := exp_pos ((o.e k a - mu) / o.width)
      rw [zero_sub, abs_neg, abs_of_pos (by positivity), exp_neg, div_le_iff₀ (by positivity)]
      have h600 := exp_pos (600 : ℝ)
      have : 1 ≤ (exp 600)⁻¹ * exp ((o.e k a - mu) / o.width) := by
        rw [inv_mul_eq_div, le_div_iff₀ h600]; linarith
      have : 0 < (exp 600)⁻¹ := by positivity
      nlinarith
  have e : o.root mu - (idealCount o mu - o.nel) = ∑ k, ∑ a, o.wk k *
      (fermi o.width mu (o.e k a) - 2 / (exp ((o.e k a - mu) / o.width) + 1)) := by
    simp only [Occ.root, idealCount, mul_sub, Finset.sum_sub_distrib]; ring
  rw [e, capacity_eq, Finset.sum_mul]
  refine (Finset.abs_sum_le_sum_abs _ _).trans (Finset.sum_le_sum fun k _ => ?_)
  rw [Finset.sum_mul]
  refine (Finset.abs_sum_le_sum_abs _ _).trans (Finset.sum_le_sum fun a _ => ?_)
  rw [abs_mul, abs_of_pos (h.wk k), mul_assoc]
  exact mul_le_mul_of_nonneg_left (key k a) (h.wk k).le

/-- Two levels at −0.5 and −0.3 with two electrons. -/
def exOcc : Occ 1 2 := ⟨2, 0.02, ![1], ![![-0.5, -0.3]]⟩

theorem exOcc_proper : exOcc.Proper :=
  ⟨by norm_num [exOcc], by intro k; fin_cases k; simp [exOcc], by norm_num, by norm_num⟩

example : exOcc.Proper ∧ 0 < exOcc.nel ∧ exOcc.nel < capacity exOcc ∧
    capacity exOcc / (exp 1 + 1) ≤ exOcc.nel ∧ exOcc.nel ≤ capacity exOcc / (exp (-1) + 1) := by
  have hc : capacity exOcc = 4 := by simp [capacity, exOcc]; norm_num
  have h1 := Real.exp_one_gt_d9
  have h2 : exp (-1) ≤ 1 := exp_le_one_iff.2 (by norm_num)
  have h3 := exp_pos (-1 : ℝ)
  refine ⟨exOcc_proper, by norm_num [exOcc], by rw [hc]; norm_num [exOcc], ?_, ?_⟩
  · rw [hc, div_le_iff₀ (by positivity)]; simp [exOcc]; linarith
  · rw [hc, le_div_iff₀ (by positivity)]; simp [exOcc]; linarith

/-- One level filled with half an electron. -/
noncomputable def exHalf (w : ℝ) : Occ 1 1 := ⟨1 / 2, w, ![1], ![![0]]⟩

/-- C14 is false: one level, half an electron, any temperature. A solution exists, but both ends of
the search interval have too many electrons, so `occupy` fails with `ValueError` with any root
finder that insists on a sign change (as `brentq` does). -/
theorem c14_bracket_fails (w : ℝ) (hw : 0 < w) (brentq : (ℝ → ℝ) → ℝ → ℝ → Except Exn ℝ)
    (hb : ∀ f a b, 0 < f a * f b → brentq f a b = .error .valueError) :
    (∃! mu, idealCount (exHalf w) mu = (exHalf w).nel) ∧
      (exHalf w).occupy brentq = .error .valueError := by
  have hp : (exHalf w).Proper :=
    ⟨hw, by intro k; fin_cases k; simp [exHalf], by norm_num, by norm_num⟩
  have hc : capacity (exHalf w) = 2 := by simp [capacity, exHalf]
  refine ⟨c14_exists_unique _ hp (by norm_num [exHalf]) (by rw [hc]; norm_num [exHalf]), ?_⟩
  have hs : (exHalf w).sorted = [0] := by
    have : (exHalf w).flat = [0] := by simp [Occ.flat, exHalf, List.finRange]
    rw [Occ.sorted, this]
    simp
  have hm := maxExpArg_pos
  have hroot : ∀ mu, (exHalf w).root mu = fermi w mu 0 - 1 / 2 := by
    intro mu; simp [Occ.root, exHalf]
  have r1 : 0 < (exHalf w).root (0 - w) := by
    rw [hroot]
    have : fermi w (0 - w) 0 = 2 / (exp 1 + 1) := by
      have e : (0 - (0 - w)) / w = 1 := by field_simp; ring
      unfold fermi
      rw [e, if_pos (by linarith)]
    rw [this]
    have h1 := Real.exp_one_lt_d9
    have h2 := exp_pos (1 : ℝ)
    rw [sub_pos, div_lt_div_iff₀ (by norm_num) (by positivity)]
    linarith
  have r2 : 0 < (exHalf w).root (0 + w) := by
    rw [hroot] at *
    have := c13_monotone w hw (0 - w) (0 + w) 0 0 le_rfl (by linarith)
    linarith
  unfold Occ.occupy
  rw [hs]
  simp only [List.head?_cons, List.getLast?_singleton]
  have hwid : (exHalf w).width = w := rfl
  rw [hwid, hb _ _ _ (mul_pos r1 r2)]

end Hotbit
