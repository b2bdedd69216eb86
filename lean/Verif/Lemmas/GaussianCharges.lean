import Verif.Props.Electrostatics
import Verif.Lemmas.Sector
import Verif.Lemmas.UnfoldRun
import Mathlib.Analysis.SpecialFunctions.Gaussian.GaussianIntegral

/-!
# Gaussian charges repel each other: their interaction is positive semidefinite
-/

set_option linter.unusedSimpArgs false

namespace Hotbit

open Real MeasureTheory Filter Topology

/-- A kernel with only nonnegative energies. -/
def PosKernel {ι : Type} (k : ι → ι → ℝ) : Prop :=
  ∀ (s : Finset ι) (q : ι → ℝ), 0 ≤ ∑ i ∈ s, ∑ j ∈ s, q i * q j * k i j

section Kernel

variable {ι : Type}

theorem posKernel_one : PosKernel (fun _ _ : ι => 1) := by
  intro s q
  have : ∑ i ∈ s, ∑ j ∈ s, q i * q j * 1 = (∑ i ∈ s, q i) ^ 2 := by
    rw [sq, Finset.sum_mul_sum]
    simp
  rw [this]
  positivity

/-- The product with the overlaps of functions. -/
theorem PosKernel.mul_integral {k : ι → ι → ℝ} (hk : PosKernel k) (φ : ι → ℝ → ℝ)
    (hi : ∀ i j, Integrable fun y => φ i y * φ j y) :
    PosKernel fun i j => k i j * ∫ y, φ i y * φ j y := by
  intro s q
  have : ∑ i ∈ s, ∑ j ∈ s, q i * q j * (k i j * ∫ y, φ i y * φ j y)
      = ∫ y, ∑ i ∈ s, ∑ j ∈ s, (q i * φ i y) * (q j * φ j y) * k i j := by
    rw [integral_finset_sum]
    · refine Finset.sum_congr rfl fun i _ => ?_
      rw [integral_finset_sum]
      · refine Finset.sum_congr rfl fun j _ => ?_
        rw [← mul_assoc, ← integral_const_mul]
        congr 1
        funext y
        ring
      · intro j _
        refine ((hi i j).const_mul (q i * q j * k i j)).congr (Eventually.of_forall fun y => ?_)
        dsimp only; ring
    · intro i _
      refine integrable_finset_sum _ fun j _ => ?_
      refine ((hi i j).const_mul (q i * q j * k i j)).congr (Eventually.of_forall fun y => ?_)
      dsimp only; ring
  rw [this]
  exact integral_nonneg fun y => hk s fun i => q i * φ i y

end Kernel

theorem gauss_square {p q : ℝ} (hp : 0 < p) (hq : 0 < q) (x z y : ℝ) :
    exp (-(y - x) ^ 2 / p) * exp (-(y - z) ^ 2 / q)
      = exp (-(x - z) ^ 2 / (p + q)) * exp (-((p + q) / (p * q)) * (y - (q * x + p * z) / (p + q)) ^ 2) := by
  rw [← exp_add, ← exp_add]
  congr 1
  have : p + q ≠ 0 := by positivity
  field_simp
  ring

theorem gauss_integrable {p q : ℝ} (hp : 0 < p) (hq : 0 < q) (x z : ℝ) :
    Integrable fun y => exp (-(y - x) ^ 2 / p) * exp (-(y - z) ^ 2 / q) := by
  simp only [gauss_square hp hq]
  refine Integrable.const_mul ?_ _
  exact (integrable_exp_neg_mul_sq (b := (p + q) / (p * q)) (by positivity)).comp_sub_right
    ((q * x + p * z) / (p + q))

theorem gauss_overlap {p q : ℝ} (hp : 0 < p) (hq : 0 < q) (x z : ℝ) :
    ∫ y, exp (-(y - x) ^ 2 / p) / √p * (exp (-(y - z) ^ 2 / q) / √q)
      = √π * (exp (-(x - z) ^ 2 / (p + q)) / √(p + q)) := by
  have e1 : ∀ y : ℝ, exp (-(y - x) ^ 2 / p) / √p * (exp (-(y - z) ^ 2 / q) / √q)
      = exp (-(x - z) ^ 2 / (p + q)) / (√p * √q)
        * exp (-((p + q) / (p * q)) * (y - (q * x + p * z) / (p + q)) ^ 2) := by
    intro y
    rw [div_mul_div_comm, gauss_square hp hq]
    ring
  simp only [e1]
  rw [integral_const_mul, integral_sub_right_eq_self (fun y => exp (-((p + q) / (p * q)) * y ^ 2)),
    integral_gaussian, show π / ((p + q) / (p * q)) = π * (p * q) / (p + q) by field_simp,
    sqrt_div (by positivity), sqrt_mul pi_pos.le, sqrt_mul hp.le]
  have := (sqrt_pos.2 hp).ne'
  have := (sqrt_pos.2 hq).ne'
  have := (sqrt_pos.2 (add_pos hp hq)).ne'
  field_simp

/-- The overlaps of Gaussian functions in space. -/
theorem gauss_posKernel {ι : Type} (p : ι → ℝ) (hp : ∀ i, 0 < p i) (x : ι → Vec) :
    PosKernel fun i j => exp (-(norm3 (x i - x j)) ^ 2 / (p i + p j)) / √(p i + p j) ^ 3 := by
  have step : ∀ (k : ι → ι → ℝ) (c : Fin 3), PosKernel k → PosKernel fun i j =>
      k i j * (√π * (exp (-(x i c - x j c) ^ 2 / (p i + p j)) / √(p i + p j))) := by
    intro k c hk
    have := hk.mul_integral (fun i y => exp (-(y - x i c) ^ 2 / p i) / √(p i)) (by
      intro i j
      refine ((gauss_integrable (hp i) (hp j) (x i c) (x j c)).div_const (√(p i) * √(p j))).congr
        (Eventually.of_forall fun y => ?_)
      dsimp only
      rw [div_mul_div_comm])
    simpa only [gauss_overlap (hp _) (hp _)] using this
  have h3 := step _ 2 (step _ 1 (step _ 0 (posKernel_one (ι := ι))))
  intro s q
  have hpi : 0 < √π := sqrt_pos.2 pi_pos
  have := h3 s q
  have e : ∑ i ∈ s, ∑ j ∈ s, q i * q j * (1 * (√π * (exp (-(x i 0 - x j 0) ^ 2 / (p i + p j)) / √(p i + p j)))
      * (√π * (exp (-(x i 1 - x j 1) ^ 2 / (p i + p j)) / √(p i + p j)))
      * (√π * (exp (-(x i 2 - x j 2) ^ 2 / (p i + p j)) / √(p i + p j))))
      = √π ^ 3 * ∑ i ∈ s, ∑ j ∈ s, q i * q j * (exp (-(norm3 (x i - x j)) ^ 2 / (p i + p j)) / √(p i + p j) ^ 3) := by
    rw [Finset.mul_sum]
    refine Finset.sum_congr rfl fun i _ => ?_
    rw [Finset.mul_sum]
    refine Finset.sum_congr rfl fun j _ => ?_
    have hn : (norm3 (x i - x j)) ^ 2 = (x i 0 - x j 0) ^ 2 + (x i 1 - x j 1) ^ 2 + (x i 2 - x j 2) ^ 2 := by
      unfold norm3
      rw [sq_sqrt (by positivity)]
      rfl
    have he : exp (-(norm3 (x i - x j)) ^ 2 / (p i + p j)) = exp (-(x i 0 - x j 0) ^ 2 / (p i + p j))
        * exp (-(x i 1 - x j 1) ^ 2 / (p i + p j)) * exp (-(x i 2 - x j 2) ^ 2 / (p i + p j)) := by
      rw [hn, ← exp_add, ← exp_add]
      congr 1
      ring
    rw [he]
    ring
  rw [e] at this
  exact nonneg_of_mul_nonneg_right this (by positivity)

/-- The interaction of two Gaussian charges at distance `d`, `c` being the inverse of their joint width. -/
noncomputable def gaussPair (d c : ℝ) : ℝ := if d = 0 then 2 / √π * c else (1 - erfc (c * d)) / d

theorem gaussPair_hasDerivAt (d c : ℝ) : HasDerivAt (gaussPair d) (2 / √π * exp (-(c * d) ^ 2)) c := by
  unfold gaussPair
  by_cases hd : d = 0
  · simp only [if_pos hd, hd]
    simpa using (hasDerivAt_id c).const_mul (2 / √π)
  · simp only [if_neg hd]
    have h1 : HasDerivAt (fun c : ℝ => c * d) d c := by simpa using (hasDerivAt_id c).mul_const d
    have h2 := (((erfc_hasDerivAt (c * d)).comp c h1).const_sub 1).div_const d
    refine h2.congr_deriv ?_
    field_simp

theorem gaussPair_zero (d : ℝ) : gaussPair d 0 = 0 := by
  unfold gaussPair
  by_cases hd : d = 0
  · rw [if_pos hd]; simp
  · rw [if_neg hd]; simp [erfc_zero]

theorem invSqrt_hasDerivAt {a s : ℝ} (h : 0 < a + s) :
    HasDerivAt (fun s => 1 / √(a + s)) (-(1 / (2 * √(a + s) ^ 3))) s := by
  have h1 : HasDerivAt (fun s => a + s) 1 s := by simpa using (hasDerivAt_id s).const_add a
  have h2 := (h1.sqrt h.ne').inv (sqrt_pos.2 h).ne'
  simp only [one_div]
  refine h2.congr_deriv ?_
  have := (sqrt_pos.2 h).ne'
  field_simp

/-- No Gaussian charges have a negative interaction energy. -/
theorem gaussPair_pos {ι : Type} (a : ι → ℝ) (ha : ∀ i, 0 < a i) (x : ι → Vec) :
    PosKernel fun i j => gaussPair (norm3 (x i - x j)) (1 / √(a i + a j)) := by
  intro t q
  set Φ : ℝ → ℝ := fun s => ∑ i ∈ t, ∑ j ∈ t,
    q i * q j * gaussPair (norm3 (x i - x j)) (1 / √(a i + a j + s)) with hΦ
  have hd : ∀ s, 0 ≤ s → HasDerivAt Φ (∑ i ∈ t, ∑ j ∈ t, q i * q j *
      (2 / √π * exp (-(1 / √(a i + a j + s) * norm3 (x i - x j)) ^ 2) * -(1 / (2 * √(a i + a j + s) ^ 3)))) s := by
    intro s hs
    refine HasDerivAt.fun_sum fun i _ => HasDerivAt.fun_sum fun j _ => ?_
    refine HasDerivAt.const_mul (q i * q j) ?_
    have hp : 0 < a i + a j + s := by have := ha i; have := ha j; positivity
    exact (gaussPair_hasDerivAt (norm3 (x i - x j)) (1 / √(a i + a j + s))).comp s (invSqrt_hasDerivAt hp)
  have hneg : ∀ s, 0 ≤ s → ∑ i ∈ t, ∑ j ∈ t, q i * q j *
      (2 / √π * exp (-(1 / √(a i + a j + s) * norm3 (x i - x j)) ^ 2) * -(1 / (2 * √(a i + a j + s) ^ 3))) ≤ 0 := by
    intro s hs
    have h1 := gauss_posKernel (fun i => a i + s / 2) (fun i => by have := ha i; positivity) x t q
    have e : ∑ i ∈ t, ∑ j ∈ t, q i * q j *
        (2 / √π * exp (-(1 / √(a i + a j + s) * norm3 (x i - x j)) ^ 2) * -(1 / (2 * √(a i + a j + s) ^ 3)))
        = -(1 / √π) * ∑ i ∈ t, ∑ j ∈ t, q i * q j * (exp (-(norm3 (x i - x j)) ^ 2 / (a i + s / 2 + (a j + s / 2)))
          / √(a i + s / 2 + (a j + s / 2)) ^ 3) := by
      rw [Finset.mul_sum]
      refine Finset.sum_congr rfl fun i _ => ?_
      rw [Finset.mul_sum]
      refine Finset.sum_congr rfl fun j _ => ?_
      have hp : 0 < a i + a j + s := by have := ha i; have := ha j; positivity
      rw [show a i + s / 2 + (a j + s / 2) = a i + a j + s by ring,
        show -(1 / √(a i + a j + s) * norm3 (x i - x j)) ^ 2 = -(norm3 (x i - x j)) ^ 2 / (a i + a j + s) by
          rw [mul_pow, div_pow, sq_sqrt hp.le]; ring]
      have := (sqrt_pos.2 hp).ne'
      have := (sqrt_pos.2 pi_pos).ne'
      field_simp
    rw [e]
    have : 0 ≤ 1 / √π := by positivity
    nlinarith
  have hanti : AntitoneOn Φ (Set.Ici 0) := by
    refine antitoneOn_of_deriv_nonpos (convex_Ici 0) (fun s hs => (hd s hs).continuousAt.continuousWithinAt)
      (fun s hs => ?_) (fun s hs => ?_)
    · rw [interior_Ici] at hs
      exact (hd s (le_of_lt hs)).differentiableAt.differentiableWithinAt
    · rw [interior_Ici] at hs
      rw [(hd s (le_of_lt hs)).deriv]
      exact hneg s (le_of_lt hs)
  have hlim : Tendsto Φ atTop (𝓝 0) := by
    have : (0 : ℝ) = ∑ i ∈ t, ∑ j ∈ t, q i * q j * gaussPair (norm3 (x i - x j)) 0 := by
      simp [gaussPair_zero]
    rw [this]
    refine tendsto_finset_sum _ fun i _ => tendsto_finset_sum _ fun j _ => Tendsto.const_mul _ ?_
    have hc : ContinuousAt (gaussPair (norm3 (x i - x j))) 0 := (gaussPair_hasDerivAt _ 0).continuousAt
    refine hc.tendsto.comp ?_
    have h1 : Tendsto (fun s : ℝ => √(a i + a j + s)) atTop atTop :=
      tendsto_sqrt_atTop.comp (tendsto_atTop_add_const_left _ _ tendsto_id)
    simp only [one_div]
    exact h1.inv_tendsto_atTop
  have h0 : Φ 0 = ∑ i ∈ t, ∑ j ∈ t, q i * q j * gaussPair (norm3 (x i - x j)) (1 / √(a i + a j)) := by
    simp [hΦ]
  rw [← h0]
  refine le_of_tendsto hlim ?_
  filter_upwards [eventually_ge_atTop 0] with s hs
  exact hanti (Set.mem_Ici.2 (le_refl 0)) (Set.mem_Ici.2 hs) hs


theorem gaussConst_eq {fi fj : ℝ} (hi : 0 < fi) (hj : 0 < fj) :
    gaussConst fi fj = 1 / √(fi ^ 2 / (4 * log 2) + fj ^ 2 / (4 * log 2)) := by
  have hl : 0 < log 2 := log_pos (by norm_num)
  unfold gaussConst
  rw [← add_div, sqrt_div hl.le, sqrt_div (by positivity), sqrt_mul (by norm_num),
    show (4 : ℝ) = 2 ^ 2 by norm_num, sqrt_sq (by norm_num)]
  have := (sqrt_pos.2 hl).ne'
  have : √(fi ^ 2 + fj ^ 2) ≠ 0 := (sqrt_pos.2 (by positivity)).ne'
  field_simp

/-- The self-interaction of a Gaussian charge is at most `U`. -/
theorem gaussPair_self {U f : ℝ} (hU : 0 < U) (hf : √(8 * log 2 / π) / U ≤ f) :
    gaussPair 0 (1 / √(f ^ 2 / (4 * log 2) + f ^ 2 / (4 * log 2))) ≤ U := by
  have hl : 0 < log 2 := log_pos (by norm_num)
  have h8 : 0 < √(8 * log 2 / π) := sqrt_pos.2 (by positivity)
  have hf0 : 0 < f := lt_of_lt_of_le (by positivity) hf
  unfold gaussPair
  rw [if_pos rfl]
  have e1 : √(f ^ 2 / (4 * log 2) + f ^ 2 / (4 * log 2)) = f / √(2 * log 2) := by
    rw [show f ^ 2 / (4 * log 2) + f ^ 2 / (4 * log 2) = f ^ 2 / (2 * log 2) by field_simp; ring,
      sqrt_div (by positivity), sqrt_sq hf0.le]
  have e2 : √(8 * log 2 / π) = 2 / √π * √(2 * log 2) := by
    rw [sqrt_div (by positivity), show (8 : ℝ) * log 2 = 2 ^ 2 * (2 * log 2) by ring,
      sqrt_mul (by positivity), sqrt_sq (by norm_num)]
    ring
  rw [e1, one_div_div, ← mul_div_assoc, ← e2, div_le_iff₀ hf0]
  rw [div_le_iff₀ hU] at hf
  linarith

theorem norm3_over (v : Vec) {b : ℝ} (hb : 0 < b) : norm3 ((1 / b) • v) = norm3 v / b := by
  unfold norm3
  have : ((1 / b) • v) 0 ^ 2 + ((1 / b) • v) 1 ^ 2 + ((1 / b) • v) 2 ^ 2
      = (v 0 ^ 2 + v 1 ^ 2 + v 2 ^ 2) / b ^ 2 := by
    simp only [Pi.smul_apply, smul_eq_mul]
    field_simp
  rw [this, sqrt_div (by positivity), sqrt_sq hb.le]

/-- The kernel of the code for Gaussian charges. -/
theorem esKernel_gauss {bohr : ℝ} (hb : 0 < bohr) {w : ℕ → ℝ} {i j : ℕ} (hi : 0 < w i) (hj : 0 < w j)
    (q : List ℝ) (v : Vec) (hv : v ≠ 0) :
    esKernel .gaussian bohr w none q i j (norm3 v) = chg q i * chg q j
      * gaussPair (norm3 ((1 / bohr) • v)) (1 / √(w i ^ 2 / (4 * log 2) + w j ^ 2 / (4 * log 2))) := by
  have hn : norm3 v ≠ 0 := fun h => hv (norm3_eq_zero.1 h)
  unfold esKernel gaussPair
  rw [norm3_over v hb, if_neg (by positivity), ← gaussConst_eq hi hj]
  simp only [corrG, gaussG, coulPot]
  field_simp
  ring

/-- In a finite structure without symmetries the only image is the structure. -/
theorem scanOps_finite {A : Atoms} (hc : A.isCluster = true) (hl : ∀ n, Legal A n ↔ n = 0) : scanOps A = [0] := by
  have h0 := cluster_scan hc ((hl 0).2 rfl)
  have hm : ∀ n ∈ scanOps A, n = 0 := fun n hn => (hl n).1 ((mem_scanOps A n).1 hn).1
  have hd := scanOps_nodup A
  match hs : scanOps A with
  | [] => rw [hs] at h0; cases h0
  | a :: l =>
    rw [hs] at hm hd
    have ha := hm a (by simp)
    subst ha
    rw [List.nodup_cons] at hd
    match l with
    | [] => rfl
    | b :: l => exact absurd (by rw [hm b (by simp)]; simp) hd.1

/-- The interaction energy of Gaussian charges in a finite structure. -/
theorem esEnergy_finite {A : Atoms} (hA : Commuting A.ctype) (hl : ∀ n, Legal A n ↔ n = 0) {bohr : ℝ} (hb : 0 < bohr)
    {U w : ℕ → ℝ} (hw : ∀ i < A.positions.length, 0 < w i)
    (hd : ∀ i < A.positions.length, ∀ j < A.positions.length, i ≠ j → A.pos i ≠ A.pos j) {q : List ℝ} {E : ℝ}
    (h : EsEnergy .gaussian bohr U w none A q E) :
    2 * E = ∑ i ∈ Finset.range A.positions.length, ∑ j ∈ Finset.range A.positions.length,
      chg q i * chg q j * (if i = j then U i else gaussPair (norm3 ((1 / bohr) • A.pos i - (1 / bohr) • A.pos j))
        (1 / √(w i ^ 2 / (4 * log 2) + w j ^ 2 / (4 * log 2)))) := by
  have hc : A.isCluster = true := by
    obtain ⟨G, dG, st, _, h1, -⟩ := h
    rcases (esState_eq _ _ _ _ _ _ _ _ _ _ h1).2.2.2 with h | h
    · cases h
    · exact h
  rw [esEnergy_eq _ _ _ _ _ _ _ _ h, pairEnergy, nbList_sum, scanOps_finite hc hl]
  simp only [List.map_cons, List.map_nil, List.sum_cons, List.sum_nil, add_zero, list_range_sum]
  rw [mul_add, mul_div_cancel₀ _ two_ne_zero, mul_div_cancel₀ _ two_ne_zero, ← Finset.sum_add_distrib]
  refine Finset.sum_congr rfl fun i hi => ?_
  rw [Finset.mem_range] at hi
  rw [show U i * chg q i ^ 2 = ∑ j ∈ Finset.range A.positions.length, if i = j then U i * chg q i ^ 2 else 0 by
    rw [Finset.sum_ite_eq, if_pos (Finset.mem_range.2 hi)], ← Finset.sum_add_distrib]
  refine Finset.sum_congr rfl fun j hj => ?_
  rw [Finset.mem_range] at hj
  by_cases hij : i = j
  · subst hij
    rw [if_pos rfl, if_pos rfl, if_neg]
    · ring
    · rintro ⟨-, hc⟩
      exact hc ⟨rfl, rfl⟩
  · rw [if_neg hij, if_neg hij, if_pos ⟨trivial, fun hc => hij hc.2⟩, zero_add]
    have hdr : drOf A (A.rawTransform 0 0) (A.rawRotation 0) i j = A.pos i - A.pos j := by
      rw [drOf_eq A (fun h => by rw [h] at hA; exact hA) 0 ((hl 0).2 rfl), rawTransform_zero A hA]
    rw [hdr, esKernel_gauss hb (hw i hi) (hw j hj) q _ (sub_ne_zero.2 (hd i hi j hj hij)), smul_sub]

/-- The charges of a finite structure. -/
theorem esEnergy_nonneg {A : Atoms} (hA : Commuting A.ctype) (hl : ∀ n, Legal A n ↔ n = 0) {bohr : ℝ} (hb : 0 < bohr)
    {U w : ℕ → ℝ} (hU : ∀ i < A.positions.length, 0 < U i ∧ √(8 * log 2 / π) / U i ≤ w i)
    (hd : ∀ i < A.positions.length, ∀ j < A.positions.length, i ≠ j → A.pos i ≠ A.pos j) {q : List ℝ} {E : ℝ}
    (h : EsEnergy .gaussian bohr U w none A q E) : 0 ≤ E := by
  have h2 : 0 < log 2 := log_pos (by norm_num)
  have hw : ∀ i < A.positions.length, 0 < w i := fun i hi =>
    lt_of_lt_of_le (div_pos (sqrt_pos.2 (by positivity)) (hU i hi).1) (hU i hi).2
  have e := esEnergy_finite hA hl hb hw hd h
  set N := A.positions.length with hN
  set a : ℕ → ℝ := fun i => if i < N then w i ^ 2 / (4 * log 2) else 1 with ha
  have hpos := gaussPair_pos a (fun i => by
    by_cases hi : i < N
    · have := hw i hi
      simp only [ha, if_pos hi]; positivity
    · simp only [ha, if_neg hi]; norm_num) (fun i => (1 / bohr) • A.pos i) (Finset.range N) (chg q)
  have key : ∑ i ∈ Finset.range N, ∑ j ∈ Finset.range N, chg q i * chg q j *
        gaussPair (norm3 ((1 / bohr) • A.pos i - (1 / bohr) • A.pos j)) (1 / √(a i + a j)) ≤ 2 * E := by
    rw [e]
    refine Finset.sum_le_sum fun i hi => Finset.sum_le_sum fun j hj => ?_
    rw [Finset.mem_range] at hi hj
    by_cases hij : i = j
    · subst hij
      rw [if_pos rfl, sub_self]
      simp only [ha, if_pos hi]
      rw [show norm3 (0 : Vec) = 0 from norm3_eq_zero.2 rfl]
      exact mul_le_mul_of_nonneg_left (gaussPair_self (hU i hi).1 (hU i hi).2) (mul_self_nonneg _)
    · rw [if_neg hij]
      simp only [ha, if_pos hi, if_pos hj]
      exact le_rfl
  linarith [hpos.trans key]

/-- The interaction energy of the charges of all sectors is that of one sector times their number. -/
theorem esEnergy_sectors {A B : Atoms} {M : ℕ} (S : AllSectors A B M) (hB : B.isCluster = true) {cd : ChargeDensity}
    {bohr : ℝ} {U w : ℕ → ℝ} {q : List ℝ} {E : ℝ} (h : EsEnergy cd bohr U w none A q E) :
    EsEnergy cd bohr (fun x => U (x % A.positions.length)) (fun x => w (x % A.positions.length)) none B
      (copyList M A.positions.length (fun u i => u * A.positions.length + i) q) (M * E) := by
  have hA := S.cluster hB
  obtain ⟨c, hc⟩ := cluster_bound hA
  have C := copies_block M A.positions.length
  have hmod : ∀ (f : ℕ → ℝ), ∀ u < M, ∀ i < A.positions.length,
      f ((u * A.positions.length + i) % A.positions.length) = f i := by
    intro f u _ i hi
    rw [Nat.mul_comm, Nat.mul_add_mod, Nat.mod_eq_of_lt hi]
  have H : Repeats (nbGeom A) (nbGeom B) M (fun u i => u * A.positions.length + i)
      (fun u _ => A.rawRotation (along 0 (firstSector M + u))) (fun u _ v _ => combSector M u v) fun _ _ => c :=
    S.repeats (s := 1) rfl rfl (fun _ => rfl) (fun _ => rfl) rfl rfl
      (fun n i => (one_smul _ _).symm) (fun n i => (one_smul _ _).symm) (scanOps_nodup A) (scanOps_nodup B)
      (fun n hn => ((mem_scanOps A n).1 hn).1) (fun n hn => ((mem_scanOps B n).1 hn).1)
      (fun n hn i hi j hj _ => cluster_scan hA hn) (fun n hn u hu v hv i hi j hj _ => cluster_scan hB hn)
  obtain ⟨G, dG, s, phi, h1, h2, h3⟩ := h
  obtain ⟨s', h1'⟩ := esState_exists cd bohr (fun x => U (x % A.positions.length))
    (fun x => w (x % A.positions.length)) none B
    (copyList M A.positions.length (fun u i => u * A.positions.length + i) q) (Or.inr hB)
  have hf := (esState_eq _ _ _ _ _ _ _ _ _ _ h1').2.2.1
  obtain ⟨-, hs'⟩ := fresh_eq _ _ _ _ hf
  obtain ⟨phi', hphi⟩ : ∃ p, dcPotential s' = .ok p := ⟨_, by rw [hs']; rfl⟩
  refine ⟨_, _, s', phi', h1', hphi, ?_⟩
  rw [h3]
  unfold coulombEnergy
  rw [if_pos rfl, if_pos rfl, S.length, C.sum, mul_left_comm]
  congr 1
  rw [show (M : ℝ) * ∑ i ∈ Finset.range A.positions.length, chg q i
      * epsilonOf A.positions.length G bohr (fun i => phi.getD i 0) (chg q) i
      = ∑ u ∈ Finset.range M, ∑ i ∈ Finset.range A.positions.length, chg q i
      * epsilonOf A.positions.length G bohr (fun i => phi.getD i 0) (chg q) i by
    rw [Finset.sum_const, Finset.card_range, nsmul_eq_mul]]
  refine Finset.sum_congr rfl fun u hu => Finset.sum_congr rfl fun i hi => ?_
  rw [Finset.mem_range] at hu hi
  rw [copyList_get C hu hi, ← S.length, epsilon_gam h1 h2 hi,
    epsilon_gam h1' hphi (by rw [S.length]; exact C.lt u hu i hi), S.length, C.sum, Finset.sum_comm]
  congr 1
  refine Finset.sum_congr rfl fun j hj => ?_
  rw [Finset.mem_range] at hj
  rw [← gam_unfold H S.commA S.commB
    (fun u _ v _ n hn _ _ _ _ => S.legal_comb ((mem_scanOps B n).1 hn).1 u v)
    (fun n hn i hi j hj _ => hc n hn i hi j hj) cd bohr (U' := fun x => U (x % A.positions.length))
    (w' := fun x => w (x % A.positions.length)) (hmod U) (hmod w) hu hi hj, Finset.sum_mul]
  refine Finset.sum_congr rfl fun v hv => ?_
  rw [copyList_get C (Finset.mem_range.1 hv) hj]

/-- The charges of a sector of a finite structure. -/
theorem esEnergy_sector_nonneg {A B : Atoms} {M : ℕ} (S : AllSectors A B M) (hl : ∀ n, Legal B n ↔ n = 0)
    {bohr : ℝ} (hb : 0 < bohr) {U w : ℕ → ℝ}
    (hU : ∀ i < A.positions.length, 0 < U i ∧ √(8 * log 2 / π) / U i ≤ w i)
    (hd : ∀ i < B.positions.length, ∀ j < B.positions.length, i ≠ j → B.pos i ≠ B.pos j) {q : List ℝ} {E : ℝ}
    (h : EsEnergy .gaussian bohr U w none A q E) : 0 ≤ E := by
  have hB : B.isCluster = true := by
    obtain ⟨G, dG, st, _, h1, -⟩ := h
    rcases (esState_eq _ _ _ _ _ _ _ _ _ _ h1).2.2.2 with h | h
    · cases h
    · unfold Atoms.isCluster at h ⊢
      simp only [List.all_cons, List.all_nil, Bool.and_true, Bool.and_eq_true] at h ⊢
      rw [S.ranges.1, S.ranges.2, S.none]
      exact ⟨rfl, h.2⟩
  have hM : (0 : ℝ) < M := by exact_mod_cast S.pos
  have := esEnergy_nonneg S.commB hl hb (fun i hi => by
    have : 0 < A.positions.length := by
      rw [S.length] at hi
      rcases Nat.eq_zero_or_pos A.positions.length with h | h
      · rw [h] at hi; simp at hi
      · exact h
    exact hU _ (Nat.mod_lt i this)) hd (esEnergy_sectors S hB h)
  exact nonneg_of_mul_nonneg_right this hM

end Hotbit
