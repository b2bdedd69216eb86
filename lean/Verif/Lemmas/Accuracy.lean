import Verif.Lemmas.DampedRun
import Verif.Spec.Accuracy
import Verif.Props.Mixers
import Verif.Props.Repulsion
import Mathlib.Topology.MetricSpace.Cauchy

/-!
# How near a converged calculation is to the exact solution
-/

set_option linter.unusedSimpArgs false

namespace Hotbit

open Matrix

section Forms

variable {V : Type} [AddCommGroup V] [Module ℝ V]

/-- If the outputs change against the inputs, the residual bounds the change of the output. -/
theorem coco_error {B I : V →ₗ[ℝ] V →ₗ[ℝ] ℝ} (hB : PosForm B) (hI : PosForm I) {g c : ℝ} (hg : 0 ≤ g)
    (hBI : ∀ u, B u u ≤ g * I u u) (hc : 0 < c) {D d : V} (h : c * I D D ≤ -B D d) :
    formLen I D ≤ g / c * formLen I (d - D) ∧ formLen I D ≤ g / c * formLen I d := by
  have hBI' : ∀ u, formLen B u ≤ √g * formLen I u := by
    intro u
    unfold formLen
    rw [← Real.sqrt_mul hg]
    exact Real.sqrt_le_sqrt (hBI u)
  have main : ∀ r, c * I D D ≤ -B D r → formLen I D ≤ g / c * formLen I r := by
    intro r hr
    have h1 : -B D r ≤ g * (formLen I D * formLen I r) := by
      calc -B D r ≤ |B D r| := neg_le_abs _
        _ ≤ formLen B D * formLen B r := hB.le_mul _ _
        _ ≤ (√g * formLen I D) * (√g * formLen I r) :=
          mul_le_mul (hBI' D) (hBI' r) (Real.sqrt_nonneg _) (mul_nonneg (Real.sqrt_nonneg _) (Real.sqrt_nonneg _))
        _ = _ := by
          have := Real.mul_self_sqrt hg
          linear_combination (formLen I D * formLen I r) * this
    rw [← hI.sq D] at hr
    rw [div_mul_eq_mul_div, le_div_iff₀ hc]
    have hD : 0 ≤ formLen I D := Real.sqrt_nonneg _
    have hr0 : 0 ≤ formLen I r := Real.sqrt_nonneg _
    rcases hD.eq_or_lt with h0 | h0
    · rw [← h0, zero_mul]
      positivity
    · have : formLen I D * (formLen I D * c) ≤ formLen I D * (g * formLen I r) := by nlinarith
      exact le_of_mul_le_mul_left this h0
  refine ⟨main _ ?_, main _ h⟩
  rw [map_sub]
  have := hB.pos D
  linarith

end Forms

section Limit

variable {N : ℕ}

theorem norm_le_len (u : QVec N) : ‖u‖ ≤ formLen (dotForm N) u := by
  refine (pi_norm_le_iff_of_nonneg (Real.sqrt_nonneg _)).2 fun i => ?_
  rw [dotForm_self, Real.norm_eq_abs]
  refine Real.abs_le_sqrt ?_
  exact Finset.single_le_sum (f := fun i => u i ^ 2) (fun i _ => sq_nonneg _) (Finset.mem_univ i)

theorem len_le_norm (u : QVec N) {d : ℝ} (h : ∀ i, |u i| ≤ d) : formLen (dotForm N) u ≤ √N * d := by
  unfold formLen
  rw [dotForm_self]
  rcases Nat.eq_zero_or_pos N with h0 | h0
  · subst h0; simp
  have hd : 0 ≤ d := (abs_nonneg _).trans (h ⟨0, h0⟩)
  rw [← Real.sqrt_sq hd, ← Real.sqrt_mul (Nat.cast_nonneg _)]
  refine Real.sqrt_le_sqrt ?_
  calc ∑ i, u i ^ 2 ≤ ∑ _i : Fin N, d ^ 2 := Finset.sum_le_sum fun i _ => by
        rw [← sq_abs]; exact pow_le_pow_left₀ (abs_nonneg _) (h i) 2
    _ = N * d ^ 2 := by simp

/-- There is a fixed point. -/
theorem coco_fixed {B : QVec N →ₗ[ℝ] QVec N →ₗ[ℝ] ℝ} (hB : PosForm B) {g c : ℝ} (hg : 0 ≤ g)
    (hBI : ∀ u, B u u ≤ g * dotForm N u u) (hc : 0 < c) {D : QVec N → QVec N}
    (hD : ∀ q q', c * dotForm N (D q' - D q) (D q' - D q) ≤ -B (D q' - D q) (q' - q)) : ∃ q, D q = q := by
  set β : ℝ := c / (g + 2 * c) with hβ
  have hb0 : 0 < β := by positivity
  have hb1 : β < 1 := by rw [hβ, div_lt_one (by positivity)]; linarith
  have hb : g * β ≤ 2 * (1 - β) * c := by
    have : β * (g + 2 * c) = c := by rw [hβ]; field_simp
    nlinarith
  set q : ℕ → QVec N := fun n => Nat.rec 0 (fun _ q => q + β • (D q - q)) n with hq
  have qs : ∀ n, q (n + 1) = q n + β • (D (q n) - q n) := fun n => rfl
  have small : ∀ t > 0, ∃ n0, ∀ n, n0 ≤ n → formLen (dotForm N) (D (q n) - q n) < t := by
    intro t ht
    refine damped_converges hB dotForm_pos hg hBI hc hD (ε := 0) le_rfl hb0 hb1 hb (q := q) (y := fun n => D (q n))
      (fun n => ?_) qs (by simpa using ht)
    rw [sub_self]
    unfold formLen
    simp
  have near : ∀ a b, ‖q a - q b‖ ≤ (1 + g / c) * (formLen (dotForm N) (D (q a) - q a) + formLen (dotForm N) (D (q b) - q b)) := by
    intro a b
    have h1 := (coco_error hB dotForm_pos hg hBI hc (hD (q b) (q a))).1
    have e1 : q a - q b - (D (q a) - D (q b)) = (D (q b) - q b) - (D (q a) - q a) := by abel
    have e2 : q a - q b = (D (q a) - D (q b)) + ((D (q b) - q b) - (D (q a) - q a)) := by abel
    rw [e1] at h1
    have h2 := dotForm_pos.len_sub (D (q b) - q b) (D (q a) - q a)
    have h3 := dotForm_pos.len_add (D (q a) - D (q b)) ((D (q b) - q b) - (D (q a) - q a))
    rw [← e2] at h3
    refine (norm_le_len _).trans (h3.trans ?_)
    have h4 : 0 ≤ g / c := by positivity
    nlinarith
  have cau : CauchySeq q := by
    rw [Metric.cauchySeq_iff]
    intro ε hε
    have hK : 0 < 1 + g / c := by positivity
    obtain ⟨n0, hn⟩ := small (ε / 2 / (1 + g / c)) (by positivity)
    refine ⟨n0, fun a ha b hb => ?_⟩
    rw [dist_eq_norm]
    refine lt_of_le_of_lt (near a b) ?_
    have := hn a ha
    have := hn b hb
    calc _ < (1 + g / c) * (ε / 2 / (1 + g / c) + ε / 2 / (1 + g / c)) :=
          mul_lt_mul_of_pos_left (by linarith) hK
      _ = ε := by field_simp; ring
  obtain ⟨z, hz⟩ := cauchySeq_tendsto_of_complete cau
  refine ⟨z, ?_⟩
  by_contra hne
  have hpos : 0 < ‖D z - z‖ := norm_pos_iff.2 (sub_ne_zero.2 hne)
  set L : ℝ := (1 + g / c) * √N + 1 with hL
  have hLp : 0 < L := by positivity
  obtain ⟨n1, h1⟩ := (Metric.tendsto_atTop.1 hz) (‖D z - z‖ / 2 / L) (by positivity)
  obtain ⟨n2, h2⟩ := small (‖D z - z‖ / 2) (by positivity)
  have a1 := h1 (max n1 n2) (le_max_left _ _)
  have a2 := h2 (max n1 n2) (le_max_right _ _)
  set n := max n1 n2
  rw [dist_eq_norm] at a1
  have b1 : formLen (dotForm N) (z - q n) ≤ √N * ‖q n - z‖ := by
    refine len_le_norm _ fun i => ?_
    rw [← norm_sub_rev]
    exact norm_le_pi_norm (z - q n) i
  have b2 := (coco_error hB dotForm_pos hg hBI hc (hD (q n) z)).2
  have e : D z - z = (D z - D (q n)) + ((D (q n) - q n) - (z - q n)) := by abel
  have b3 := dotForm_pos.len_add (D z - D (q n)) ((D (q n) - q n) - (z - q n))
  have b4 := dotForm_pos.len_sub (D (q n) - q n) (z - q n)
  rw [← e] at b3
  have b5 := norm_le_len (D z - z)
  have b6 : (1 + g / c) * formLen (dotForm N) (z - q n) ≤ (1 + g / c) * (√N * ‖q n - z‖) :=
    mul_le_mul_of_nonneg_left b1 (by positivity)
  have b7 : L * ‖q n - z‖ < ‖D z - z‖ / 2 := by
    rw [lt_div_iff₀ hLp] at a1
    linarith
  have b8 : (1 + g / c) * (√N * ‖q n - z‖) ≤ L * ‖q n - z‖ := by
    rw [hL, add_mul, one_mul, ← mul_assoc]
    linarith [norm_nonneg (q n - z)]
  nlinarith

end Limit

section Energy

variable {n nk : ℕ}

/-- The change of an element of the density matrix. -/
theorem rho_elem_gap {H H' S c d : CMat n} {e e' : Fin n → ℝ} (f f' : Fin n → ℝ)
    (h : Solutions H S e c) (h' : Solutions H' S e' d) (i j : Fin n) :
    ‖computeRho c f i j - computeRho d f' i j‖ ^ 2
      ≤ ‖S⁻¹ i i‖ * ‖S⁻¹ j j‖ * ∑ a, ∑ b, Complex.normSq (overlapsOf S c d a b) * (f a - f' b) ^ 2 := by
  set M : CMat n := Matrix.of (fun a b => overlapsOf S c d a b * ((f a - f' b : ℝ) : ℂ)) with hM
  have e1 : computeRho c f i j - computeRho d f' i j = ∑ a, ∑ b, cᵀ i a * M a b * (dᵀ)ᴴ b j := by
    have : computeRho c f i j - computeRho d f' i j = (computeRho c f - computeRho d f') i j := rfl
    rw [this, rho_gap f f' h h', ← hM, Matrix.mul_assoc, Matrix.mul_apply]
    refine Finset.sum_congr rfl fun a _ => ?_
    rw [Matrix.mul_apply, Finset.mul_sum]
    exact Finset.sum_congr rfl fun b _ => by ring
  have sq : ∀ z : ℂ, ((‖z‖ ^ 2 : ℝ) : ℂ) = z * star z := by
    intro z
    rw [← Complex.normSq_eq_norm_sq, Complex.normSq_eq_conj_mul_self, mul_comm]
    rfl
  have e2 : ∀ {H c : CMat n} {e : Fin n → ℝ}, Solutions H S e c → ∀ x, ∑ a, ‖cᵀ x a‖ ^ 2 = ‖S⁻¹ x x‖ := by
    intro H c e h x
    have u1 : cᵀ * ((cᵀ)ᴴ * S) = 1 := mul_eq_one_comm.1 h.matrix.1
    have inv : S⁻¹ = cᵀ * (cᵀ)ᴴ := Matrix.inv_eq_left_inv (by rw [Matrix.mul_assoc, u1])
    have : S⁻¹ x x = ((∑ a, ‖cᵀ x a‖ ^ 2 : ℝ) : ℂ) := by
      rw [inv, Matrix.mul_apply, Complex.ofReal_sum]
      exact Finset.sum_congr rfl fun a _ => by rw [sq, Matrix.conjTranspose_apply]
    rw [this, Complex.norm_of_nonneg (Finset.sum_nonneg fun _ _ => by positivity)]
  have e3 : ∑ b, ‖(dᵀ)ᴴ b j‖ ^ 2 = ‖S⁻¹ j j‖ := by
    rw [← e2 h' j]
    exact Finset.sum_congr rfl fun b _ => by rw [Matrix.conjTranspose_apply, norm_star]
  have e4 : ∑ a, ∑ b, ‖M a b‖ ^ 2
      = ∑ a, ∑ b, Complex.normSq (overlapsOf S c d a b) * (f a - f' b) ^ 2 := by
    refine Finset.sum_congr rfl fun a _ => Finset.sum_congr rfl fun b _ => ?_
    rw [hM, Matrix.of_apply, norm_mul, mul_pow, Complex.normSq_eq_norm_sq, Complex.norm_real, Real.norm_eq_abs, sq_abs]
  rw [e1, ← e2 h i, ← e3, ← e4]
  exact norm_bilinear_sq _ _ _

/-- A bound for the elements of the Hamiltonian. -/
noncomputable def bandScale (wk : Fin nk → ℝ) (H0 S : Fin nk → CMat n) : ℝ :=
  ∑ k, √(wk k) * ∑ i, ∑ j, √(‖(S k)⁻¹ i i‖ * ‖(S k)⁻¹ j j‖) * ‖H0 k j i‖

/-- The energy of the bands. -/
noncomputable def bandSum (wk : Fin nk → ℝ) (H0 : Fin nk → CMat n) (c : Fin nk → CMat n) (f : Fin nk → Fin n → ℝ) : ℝ :=
  ∑ k, wk k * (∑ i, ∑ j, computeRho (c k) (f k) i j * H0 k j i).re

theorem band_gap {wk : Fin nk → ℝ} (hwk : ∀ k, 0 < wk k) (H0 : Fin nk → CMat n) {S H H' : Fin nk → CMat n}
    {e e' : Fin nk → Fin n → ℝ} {c d : Fin nk → CMat n} (h : ∀ k, Solutions (H k) (S k) (e k) (c k))
    (h' : ∀ k, Solutions (H' k) (S k) (e' k) (d k)) (f f' : Fin nk → Fin n → ℝ) :
    |bandSum wk H0 c f - bandSum wk H0 d f'| ≤ bandScale wk H0 S * √(fillGap wk S c d f f') := by
  unfold bandSum bandScale
  rw [← Finset.sum_sub_distrib, Finset.sum_mul]
  refine (Finset.abs_sum_le_sum_abs _ _).trans (Finset.sum_le_sum fun k _ => ?_)
  rw [← mul_sub, ← Complex.sub_re, ← Finset.sum_sub_distrib, abs_mul, abs_of_pos (hwk k)]
  set Γ : ℝ := ∑ a, ∑ b, Complex.normSq (overlapsOf (S k) (c k) (d k) a b) * (f k a - f' k b) ^ 2 with hΓ
  have hΓ0 : 0 ≤ Γ := Finset.sum_nonneg fun _ _ => Finset.sum_nonneg fun _ _ =>
    mul_nonneg (Complex.normSq_nonneg _) (sq_nonneg _)
  have h1 : wk k * Γ ≤ fillGap wk S c d f f' :=
    Finset.single_le_sum (f := fun k => wk k * ∑ a, ∑ b, Complex.normSq (overlapsOf (S k) (c k) (d k) a b)
      * (f k a - f' k b) ^ 2) (fun k _ => mul_nonneg (hwk k).le (Finset.sum_nonneg fun _ _ => Finset.sum_nonneg fun _ _ =>
    mul_nonneg (Complex.normSq_nonneg _) (sq_nonneg _))) (Finset.mem_univ k)
  have h2 : √(wk k) * √Γ ≤ √(fillGap wk S c d f f') := by
    rw [← Real.sqrt_mul (hwk k).le]
    exact Real.sqrt_le_sqrt h1
  have h3 : |(∑ i, (∑ j, computeRho (c k) (f k) i j * H0 k j i - ∑ j, computeRho (d k) (f' k) i j * H0 k j i)).re|
      ≤ (∑ i, ∑ j, √(‖(S k)⁻¹ i i‖ * ‖(S k)⁻¹ j j‖) * ‖H0 k j i‖) * √Γ := by
    refine (Complex.abs_re_le_norm _).trans ?_
    rw [Finset.sum_mul]
    refine (norm_sum_le _ _).trans (Finset.sum_le_sum fun i _ => ?_)
    rw [← Finset.sum_sub_distrib, Finset.sum_mul]
    refine (norm_sum_le _ _).trans (Finset.sum_le_sum fun j _ => ?_)
    rw [← sub_mul, norm_mul, mul_right_comm]
    refine mul_le_mul_of_nonneg_right ?_ (norm_nonneg _)
    rw [← Real.sqrt_mul (by positivity)]
    exact Real.le_sqrt_of_sq_le (rho_elem_gap (f k) (f' k) (h k) (h' k) i j)
  set X : ℝ := ∑ i, ∑ j, √(‖(S k)⁻¹ i i‖ * ‖(S k)⁻¹ j j‖) * ‖H0 k j i‖ with hX
  have hX0 : 0 ≤ X := Finset.sum_nonneg fun i _ => Finset.sum_nonneg fun j _ => by positivity
  have hs : √(wk k) * √(wk k) = wk k := Real.mul_self_sqrt (hwk k).le
  calc _ ≤ wk k * (X * √Γ) := mul_le_mul_of_nonneg_left h3 (hwk k).le
    _ = √(wk k) * X * (√(wk k) * √Γ) := by linear_combination (-(X * √Γ)) * hs
    _ ≤ _ := mul_le_mul_of_nonneg_left h2 (by positivity)

theorem fillGap_near {wk : Fin nk → ℝ} (hwk : ∀ k, 0 < wk k) {S H : Fin nk → CMat n} {e : Fin nk → Fin n → ℝ}
    {c : Fin nk → CMat n} (h : ∀ k, Solutions (H k) (S k) (e k) (c k)) {f f' : Fin nk → Fin n → ℝ} {δ : ℝ}
    (hf : ∀ k a, |f k a - f' k a| ≤ δ) : fillGap wk S c c f f' ≤ n * (∑ k, wk k) * δ ^ 2 := by
  unfold fillGap
  rw [Finset.mul_sum, Finset.sum_mul]
  refine Finset.sum_le_sum fun k _ => ?_
  have : ∑ a, ∑ b, Complex.normSq (overlapsOf (S k) (c k) (c k) a b) * (f k a - f' k b) ^ 2 ≤ n * δ ^ 2 := by
    have o : overlapsOf (S k) (c k) (c k) = 1 := (h k).matrix.1
    rw [o]
    have : ∀ a, ∑ b, Complex.normSq ((1 : CMat n) a b) * (f k a - f' k b) ^ 2 ≤ δ ^ 2 := by
      intro a
      rw [Finset.sum_eq_single a]
      · rw [Matrix.one_apply_eq, map_one, one_mul, ← sq_abs]
        exact pow_le_pow_left₀ (abs_nonneg _) (hf k a) 2
      · intro b _ hb
        rw [Matrix.one_apply_ne hb.symm]; simp
      · simp
    refine (Finset.sum_le_sum fun a _ => this a).trans ?_
    simp
  calc _ ≤ wk k * (n * δ ^ 2) := mul_le_mul_of_nonneg_left this (hwk k).le
    _ = _ := by ring

end Energy

section Run

variable {P : ScfIn} {A : Atoms} {elements : String → Option ElementData} {x : Setup P}

/-- The charges of the filled states. -/
noncomputable def filledQ (A : Atoms) (x : Setup P) (e : Fin P.nk → Fin P.t.norb → ℝ) (c : Fin P.nk → CMat P.t.norb)
    (mu : ℝ) : QVec A.positions.length := fun i =>
  atomSum P A (mullikenDiag P.wk (fun k => computeRho (c k) fun a => smoothFermi P.width mu (e k a)) x.S) i - P.val.getD i 0

/-- The states filled in the potential of charges. -/
abbrev FilledAt (A : Atoms) (x : Setup P) (q : QVec A.positions.length) (e : Fin P.nk → Fin P.t.norb → ℝ)
    (c : Fin P.nk → CMat P.t.norb) (mu : ℝ) : Prop :=
  Filled P.wk x.H0 x.S P.width P.nel (orbPot P A q) e c mu

theorem exact_iff {q : QVec A.positions.length} {e : Fin P.nk → Fin P.t.norb → ℝ} {c : Fin P.nk → CMat P.t.norb} {mu : ℝ} :
    ExactSolution A x q e c mu ↔ FilledAt A x q e c mu ∧ filledQ A x e c mu = q :=
  ⟨fun h => ⟨⟨h.states, h.electrons⟩, funext fun i => (h.charges i).symm⟩,
    fun h => ⟨h.1.states, h.1.count, fun i => (congrFun h.2 i).symm⟩⟩

/-- Charges change against charges. -/
theorem filledQ_gap (hfit : Fits P A elements) (hw : 0 < P.width) (hk : ∀ k, 0 < P.wk k)
    (hS : ∀ k, (x.S k).IsHermitian) {q q' : QVec A.positions.length} {e e' : Fin P.nk → Fin P.t.norb → ℝ}
    {c c' : Fin P.nk → CMat P.t.norb} {mu mu' : ℝ} (F : FilledAt A x q e c mu) (F' : FilledAt A x q' e' c' mu') :
    P.width / 2 * fillGap P.wk x.S c' c (fun k a => smoothFermi P.width mu' (e' k a))
        (fun k a => smoothFermi P.width mu (e k a))
      ≤ -matForm (gamMat P A) (filledQ A x e' c' mu' - filledQ A x e c mu) (q' - q) ∧
    P.width / 2 / softness x * dotForm _ (filledQ A x e' c' mu' - filledQ A x e c mu)
        (filledQ A x e' c' mu' - filledQ A x e c mu)
      ≤ -matForm (gamMat P A) (filledQ A x e' c' mu' - filledQ A x e c mu) (q' - q) := by
  set f : Fin P.nk → Fin P.t.norb → ℝ := fun k a => smoothFermi P.width mu (e k a) with hf
  set f' : Fin P.nk → Fin P.t.norb → ℝ := fun k a => smoothFermi P.width mu' (e' k a) with hf'
  set pop := mullikenDiag P.wk (fun k => computeRho (c k) (f k)) x.S with hpop
  set pop' := mullikenDiag P.wk (fun k => computeRho (c' k) (f' k)) x.S with hpop'
  have hd : filledQ A x e' c' mu' - filledQ A x e c mu = atomSum P A fun y => pop' y - pop y := by
    funext i
    rw [← atomSum_sub]
    simp only [Pi.sub_apply, filledQ]
    rw [sub_sub_sub_cancel_right]
  have g := response_gap hw hk hS F' F
  have b := fun y => response_bound hk hS F'.states F.states f' f y
  have e1 : ∑ y, (orbPot P A q' y - orbPot P A q y) * (pop' y - pop y)
      = matForm (gamMat P A) (atomSum P A fun y => pop' y - pop y) (q' - q) := by
    rw [map_sub, ← atomSum_pot hfit, ← atomSum_pot hfit, ← Finset.sum_sub_distrib]
    exact Finset.sum_congr rfl fun y _ => by ring
  rw [hd, ← e1]
  refine ⟨g, le_trans ?_ g⟩
  have g0 := fillGap_nonneg (S := x.S) hk c' c f' f
  have b1 := atomSum_sq (A := A) hfit b
  have hCp : 0 < softness x := softness_pos hk
  rw [dotForm_self, div_mul_eq_mul_div, div_le_iff₀ hCp]
  have : ∑ i, atomSum P A (fun y => pop' y - pop y) i ^ 2 ≤ softness x * fillGap P.wk x.S c' c f' f := by
    refine b1.trans ?_
    rw [softness, add_mul, one_mul, mul_assoc]
    linarith
  calc _ ≤ P.width / 2 * (softness x * fillGap P.wk x.S c' c f' f) :=
        mul_le_mul_of_nonneg_left this (by positivity)
    _ = _ := by ring

open scoped ComplexOrder in
/-- There is an exact solution. -/
theorem exact_exists (hfit : Fits P A elements) (hA : InversionClosed A) (hx : setupOf P A = .ok x) (hs : P.scc = true)
    (hpos : ∀ q E, EsEnergy P.cd P.bohr P.U P.w P.gcut A q E → 0 ≤ E) (hw : 0 < P.width) (hk : ∀ k, 0 < P.wk k)
    (h0 : 0 < P.nel) (h1 : P.nel < 2 * P.t.norb * ∑ k, P.wk k) (hH : ∀ k, (x.H0 k).IsHermitian)
    (hS : ∀ k, (x.S k).PosDef) : ∃ q e c mu, ExactSolution A x q e c mu := by
  have ex := fun q : QVec A.positions.length =>
    filled_exists (wk := P.wk) (H0 := x.H0) (S := x.S) hw hk hH hS h0 h1 (orbPot P A q)
  choose e c mu F using ex
  have hG : 0 ≤ stiffness P A := Finset.sum_nonneg fun i _ => Finset.sum_nonneg fun j _ => abs_nonneg _
  have hC : 0 < softness x := softness_pos hk
  obtain ⟨q, hq⟩ := coco_fixed (gamMat_form hA hx hs hpos) hG (matForm_le (gamMat P A))
    (c := P.width / 2 / softness x) (by positivity) (D := fun q => filledQ A x (e q) (c q) (mu q))
    fun q q' => (filledQ_gap hfit hw hk (fun k => (hS k).isHermitian) (F q) (F q')).2
  exact ⟨q, _, _, _, exact_iff.2 ⟨F q, hq⟩⟩

open scoped ComplexOrder in
/-- A pass fills the states up to a small error. -/
theorem pass_near (hfit : Fits P A elements) (hx : setupOf P A = .ok x) (hs : P.scc = true) (hw : 0 < P.width)
    (hk : ∀ k, 0 < P.wk k) (h0 : 0 < P.nel) (h1 : P.nel < 2 * P.t.norb * ∑ k, P.wk k) {Mx : Type}
    {T : ScfTools P Mx} (hT : Solvable T x) {q : List ℝ} {p : Pass P}
    (hp : onePass T x A.positions.length (some q) = .ok p) :
    ∃ m, FilledAt A x (vecOf _ q) p.e p.wf m ∧ (∀ k a, |p.f k a - smoothFermi P.width m (p.e k a)| ≤ occNoise P) ∧
      formLen (dotForm _) (vecOf _ p.dq - filledQ A x p.e p.wf m) ≤ chargeNoise x := by
  have hSh : ∀ k, (x.S k).IsHermitian := fun k => (hT.posDef k).isHermitian
  obtain ⟨p1, p2⟩ := onePass_parts hp
  have st : ∀ k, Solutions (meanH (x.H0 k) (x.S k) (orbPot P A (vecOf _ q))) (x.S k) (p.e k) (p.wf k) := by
    intro k
    have := (onePass_states hT hp k).solutions
    rw [onePass_h1 hp] at this
    rw [← ham_setup hfit hx hs]
    exact this
  obtain ⟨m, hm⟩ := mu_exists hw hk p.e h0 h1
  have near : ∀ k a, |p.f k a - smoothFermi P.width m (p.e k a)| ≤ occNoise P := by
    intro k a
    refine (fermi_near hw hk hm p1 k a).trans ?_
    rw [occNoise, div_eq_mul_one_div]
    have hW : 0 ≤ ∑ k, P.wk k := Finset.sum_nonneg fun k _ => (hk k).le
    refine add_le_add (mul_le_mul_of_nonneg_left ?_ ?_) le_rfl
    · exact Finset.single_le_sum (f := fun k => 1 / P.wk k)
        (fun k _ => one_div_nonneg.2 (hk k).le) (Finset.mem_univ k)
    · positivity
  refine ⟨m, ⟨st, hm⟩, near, ?_⟩
  have n1 := fun y => pop_near hk hSh st near y
  have n2 := atomSum_sq (A := A) hfit n1
  unfold formLen chargeNoise
  refine Real.sqrt_le_sqrt ?_
  rw [dotForm_self]
  refine le_trans (le_of_eq ?_) n2
  refine Finset.sum_congr rfl fun i _ => ?_
  congr 1
  rw [← atomSum_sub]
  simp only [Pi.sub_apply]
  have := dq_eq hfit p2 i.2
  have e2 : vecOf A.positions.length p.dq i = chg p.dq i := rfl
  rw [e2, this]
  unfold filledQ atomSum
  rw [sub_sub_sub_cancel_right]
  rfl

/-- The charges of a pass that hardly changed are near the exact ones. -/
theorem charges_near (hfit : Fits P A elements) (hA : InversionClosed A) (hx : setupOf P A = .ok x) (hs : P.scc = true)
    (hpos : ∀ q E, EsEnergy P.cd P.bohr P.U P.w P.gcut A q E → 0 ≤ E) (hw : 0 < P.width) (hk : ∀ k, 0 < P.wk k)
    {q : List ℝ} {d : ℝ} {y z : QVec A.positions.length} {ep e : Fin P.nk → Fin P.t.norb → ℝ}
    {cp c : Fin P.nk → CMat P.t.norb} {m mu : ℝ} (hS : ∀ k, (x.S k).IsHermitian)
    (F : FilledAt A x (vecOf _ q) ep cp m) (hy : formLen (dotForm _) (y - filledQ A x ep cp m) ≤ chargeNoise x)
    (hd : ∀ i, |y i - vecOf _ q i| ≤ d) (hex : ExactSolution A x z e c mu) :
    formLen (dotForm _) (filledQ A x ep cp m - z) ≤ enhancement A x * (√A.positions.length * d + chargeNoise x) ∧
    formLen (dotForm _) (y - z) ≤ chargeError A x d ∧
    formLen (dotForm _) (vecOf _ q - z) ≤ (enhancement A x + 1) * (√A.positions.length * d + chargeNoise x) := by
  obtain ⟨E1, E2⟩ := exact_iff.1 hex
  have hG : 0 ≤ stiffness P A := Finset.sum_nonneg fun i _ => Finset.sum_nonneg fun j _ => abs_nonneg _
  have hC : 0 < softness x := softness_pos hk
  have g := (filledQ_gap hfit hw hk hS E1 F).2
  rw [E2] at g
  have b := (coco_error (gamMat_form hA hx hs hpos) dotForm_pos hG (matForm_le (gamMat P A)) (by positivity) g).1
  have eK : stiffness P A / (P.width / 2 / softness x) = enhancement A x := by
    unfold enhancement
    field_simp
  rw [eK] at b
  have hK : 0 ≤ enhancement A x := by unfold enhancement; positivity
  have e1 : vecOf _ q - z - (filledQ A x ep cp m - z) = (y - filledQ A x ep cp m) - (y - vecOf _ q) := by abel
  rw [e1] at b
  have r := dotForm_pos.len_sub (y - filledQ A x ep cp m) (y - vecOf A.positions.length q)
  have r2 := len_le_norm (y - vecOf A.positions.length q) hd
  have R : formLen (dotForm _) (y - filledQ A x ep cp m - (y - vecOf A.positions.length q))
      ≤ √A.positions.length * d + chargeNoise x := by linarith
  have b' := b.trans (mul_le_mul_of_nonneg_left R hK)
  refine ⟨b', ?_, ?_⟩
  · have e2 : y - z = (y - filledQ A x ep cp m) + (filledQ A x ep cp m - z) := by abel
    have t := dotForm_pos.len_add (y - filledQ A x ep cp m) (filledQ A x ep cp m - z)
    rw [← e2] at t
    unfold chargeError
    linarith
  · have e2 : vecOf _ q - z = (y - filledQ A x ep cp m - (y - vecOf A.positions.length q)) + (filledQ A x ep cp m - z) := by
      abel
    have t := dotForm_pos.len_add (y - filledQ A x ep cp m - (y - vecOf A.positions.length q)) (filledQ A x ep cp m - z)
    rw [← e2] at t
    linarith

/-- The ground state comes from the last iteration, after which the mixer was satisfied. -/
theorem groundState_last {Mx : Type} {T : ScfTools P Mx} {p : Pass P} (hs : P.scc = true)
    (h : groundState T A = .ok (x, p)) :
    setupOf P A = .ok x ∧ ∃ q s, onePass T x A.positions.length (some q) = .ok p ∧ (T.mix s q p.dq).1 = true := by
  unfold groundState at h
  simp only [Bind.bind, Except.bind] at h
  rcases hx : setupOf P A with e | x'
  · rw [hx] at h; cases h
  rw [hx] at h
  dsimp only at h
  rcases hr : getStates (scfEnv T x' A.positions.length) P.scc T.maxiter none T.mx T.guess with e | r
  · rw [hr] at h; cases h
  rw [hr] at h
  dsimp only at h
  rcases hst : r.states with _ | p'
  · rw [hst] at h; cases h
  rw [hst] at h
  dsimp only at h
  split at h
  · cases h
  split at h
  · cases h
  obtain ⟨rfl, rfl⟩ : x' = x ∧ p' = p := by
    have := Except.ok.inj h
    exact ⟨congrArg Prod.fst this, congrArg Prod.snd this⟩
  refine ⟨rfl, ?_⟩
  rw [hs] at hr
  have hm : 1 ≤ T.maxiter := by
    by_contra hm
    have : T.maxiter = 0 := by omega
    rw [this] at hr
    obtain ⟨r', h1, h2, -⟩ := c15_zero_fails (scfEnv T x' A.positions.length) true none T.mx T.guess
    rw [hr] at h1
    cases h1
    rw [hst] at h2
    cases h2
  obtain ⟨-, -, h1, s, h2⟩ := c15_scc _ _ hm _ _ _ _ hr
  rw [hst] at h1 h2
  refine ⟨r.charges, s, ?_, h2⟩
  rcases ho : onePass T x' A.positions.length (some r.charges) with e | pp
  · simp only [scfEnv, ho, Except.map] at h1
    cases h1
  · simp only [scfEnv, ho, Except.map, Except.ok.injEq, Option.some.injEq] at h1
    rw [h1]

/-- The energy of a pass. -/
theorem potentialEnergy_ok {Mx : Type} {T : ScfTools P Mx} {E : ℝ} (hs : P.scc = true)
    (h : potentialEnergy T A = .ok E) : ∃ x p, groundState T A = .ok (x, p) ∧ setupOf P A = .ok x ∧
    E = (bandSum P.wk x.H0 p.wf p.f + matForm (gamMat P A) (vecOf _ p.dq) (vecOf _ p.dq) / 2) * P.hartree
      + repEnergyOf (P.geom A) P.V P.rmax P.hartree - P.efree * P.hartree := by
  unfold potentialEnergy at h
  simp only [Bind.bind, Except.bind] at h
  rcases hg : groundState T A with e | g
  · rw [hg] at h; cases h
  rw [hg] at h
  dsimp only at h
  obtain ⟨x, p⟩ := g
  have hx := (groundState_last hs hg).1
  refine ⟨x, p, rfl, hx, ?_⟩
  unfold bandEnergy at h
  dsimp only at h
  by_cases hi : (∑ k, (P.wk k : ℂ) * ∑ i, rowDot (p.rho k) (x.H0 k) i).im < P.tolIm
  · rw [if_pos hi] at h
    dsimp only at h
    unfold repEnergyOf
    cases hE : repEnergy (P.geom A) P.V P.rmax P.hartree with
    | error e => rw [hE] at h; cases h
    | ok e =>
      rw [hE] at h
      cases h
      dsimp only
      have e1 : (∑ k, (P.wk k : ℂ) * ∑ i, rowDot (p.rho k) (x.H0 k) i).re = bandSum P.wk x.H0 p.wf p.f := by
        unfold bandSum
        rw [Complex.re_sum]
        refine Finset.sum_congr rfl fun k _ => ?_
        rw [Complex.re_ofReal_mul]
        rfl
      have e2 : coulombEnergy P.scc A.positions.length (chg p.dq) (x.epsilon A.positions.length p.dq)
          = matForm (gamMat P A) (vecOf _ p.dq) (vecOf _ p.dq) / 2 := by
        unfold coulombEnergy
        rw [if_pos hs, matForm_apply]
        have : ∑ i ∈ Finset.range A.positions.length, chg p.dq i * x.epsilon A.positions.length p.dq i
            = ∑ i : Fin A.positions.length, ∑ j, vecOf _ p.dq i * gamMat P A i j * vecOf _ p.dq j := by
          rw [← Fin.sum_univ_eq_sum_range fun i => chg p.dq i * x.epsilon A.positions.length p.dq i]
          refine Finset.sum_congr rfl fun i _ => ?_
          rw [epsilon_setup hx hs p.dq i.2, Finset.mul_sum]
          refine Finset.sum_congr rfl fun j _ => ?_
          rw [mul_assoc]
          rfl
        rw [this]
        norm_num
        ring
      rw [e1, e2]
      ring
  · rw [if_neg hi] at h
    cases h

theorem exactEnergy_eq (q : QVec A.positions.length) (e : Fin P.nk → Fin P.t.norb → ℝ) (c : Fin P.nk → CMat P.t.norb)
    (mu : ℝ) : exactEnergy A x q e c mu
      = bandSum P.wk x.H0 c (fun k a => smoothFermi P.width mu (e k a)) + matForm (gamMat P A) q q / 2 := rfl

theorem bandScale_nonneg (x : Setup P) : 0 ≤ bandScale P.wk x.H0 x.S :=
  Finset.sum_nonneg fun k _ => mul_nonneg (Real.sqrt_nonneg _)
    (Finset.sum_nonneg fun i _ => Finset.sum_nonneg fun j _ => by positivity)

/-- The energy of a pass that hardly changed the charges. -/
theorem energy_near (hfit : Fits P A elements) (hA : InversionClosed A) (hx : setupOf P A = .ok x) (hs : P.scc = true)
    (hpos : ∀ q E, EsEnergy P.cd P.bohr P.U P.w P.gcut A q E → 0 ≤ E) (hw : 0 < P.width) (hk : ∀ k, 0 < P.wk k)
    {q : List ℝ} {d : ℝ} {y z : QVec A.positions.length} {ep e : Fin P.nk → Fin P.t.norb → ℝ}
    {cp c : Fin P.nk → CMat P.t.norb} {fp : Fin P.nk → Fin P.t.norb → ℝ} {m mu : ℝ} (hS : ∀ k, (x.S k).IsHermitian)
    (F : FilledAt A x (vecOf _ q) ep cp m) (hy : formLen (dotForm _) (y - filledQ A x ep cp m) ≤ chargeNoise x)
    (hf : ∀ k a, |fp k a - smoothFermi P.width m (ep k a)| ≤ occNoise P)
    (hd : ∀ i, |y i - vecOf _ q i| ≤ d) (hd0 : 0 ≤ d) (hex : ExactSolution A x z e c mu) :
    |bandSum P.wk x.H0 cp fp + matForm (gamMat P A) y y / 2 - exactEnergy A x z e c mu|
      ≤ bandScale P.wk x.H0 x.S * (√(P.t.norb * ∑ k, P.wk k) * occNoise P
          + √(2 * stiffness P A / P.width) * ((enhancement A x + 1) * (√A.positions.length * d + chargeNoise x)))
        + stiffness P A * (chargeError A x d * (formLen (dotForm _) z + chargeError A x d)) := by
  obtain ⟨n1, n2, n3⟩ := charges_near hfit hA hx hs hpos hw hk hS F hy hd hex
  obtain ⟨E1, E2⟩ := exact_iff.1 hex
  have hG : 0 ≤ stiffness P A := Finset.sum_nonneg fun i _ => Finset.sum_nonneg fun j _ => abs_nonneg _
  have hC : 0 < softness x := softness_pos hk
  have hK : 0 ≤ enhancement A x := by unfold enhancement; positivity
  have hB := gamMat_form hA hx hs hpos
  have hν : 0 ≤ chargeNoise x := Real.sqrt_nonneg _
  have hWk : 0 ≤ ∑ k, P.wk k := Finset.sum_nonneg fun k _ => (hk k).le
  have hocc : 0 ≤ occNoise P := by
    unfold occNoise
    have : 0 ≤ ∑ k, 1 / P.wk k := Finset.sum_nonneg fun k _ => one_div_nonneg.2 (hk k).le
    positivity
  set R : ℝ := √A.positions.length * d + chargeNoise x with hR
  have hR0 : 0 ≤ R := by positivity
  have hBI : ∀ u v : QVec A.positions.length, |matForm (gamMat P A) u v|
      ≤ stiffness P A * (formLen (dotForm _) u * formLen (dotForm _) v) := by
    intro u v
    have l : ∀ u : QVec A.positions.length, formLen (matForm (gamMat P A)) u ≤ √(stiffness P A) * formLen (dotForm _) u := by
      intro u
      unfold formLen
      rw [← Real.sqrt_mul hG]
      exact Real.sqrt_le_sqrt (matForm_le (gamMat P A) u)
    calc _ ≤ formLen (matForm (gamMat P A)) u * formLen (matForm (gamMat P A)) v := hB.le_mul _ _
      _ ≤ (√(stiffness P A) * formLen (dotForm _) u) * (√(stiffness P A) * formLen (dotForm _) v) :=
        mul_le_mul (l u) (l v) (Real.sqrt_nonneg _) (mul_nonneg (Real.sqrt_nonneg _) (Real.sqrt_nonneg _))
      _ = _ := by
        have := Real.mul_self_sqrt hG
        linear_combination (formLen (dotForm _) u * formLen (dotForm _) v) * this
  -- bands
  set f : Fin P.nk → Fin P.t.norb → ℝ := fun k a => smoothFermi P.width m (ep k a) with hfdef
  set f' : Fin P.nk → Fin P.t.norb → ℝ := fun k a => smoothFermi P.width mu (e k a) with hf'
  have b1 := band_gap hk x.H0 F.states F.states fp f
  have b2 := band_gap hk x.H0 F.states E1.states f f'
  have g1 : √(fillGap P.wk x.S cp cp fp f) ≤ √(P.t.norb * ∑ k, P.wk k) * occNoise P := by
    rw [Real.sqrt_le_left (by positivity), mul_pow, Real.sq_sqrt (by positivity)]
    exact fillGap_near hk F.states hf
  have g2 : √(fillGap P.wk x.S cp c f f') ≤ √(2 * stiffness P A / P.width) * ((enhancement A x + 1) * R) := by
    rw [Real.sqrt_le_left (by positivity), mul_pow, Real.sq_sqrt (by positivity)]
    have g := (filledQ_gap hfit hw hk hS E1 F).1
    rw [E2] at g
    have h1 : -matForm (gamMat P A) (filledQ A x ep cp m - z) (vecOf _ q - z)
        ≤ stiffness P A * ((enhancement A x + 1) * R) ^ 2 := by
      refine (neg_le_abs _).trans ((hBI _ _).trans (mul_le_mul_of_nonneg_left ?_ hG))
      rw [sq]
      refine mul_le_mul (n1.trans ?_) n3 (Real.sqrt_nonneg _) (by positivity)
      nlinarith
    have h2 := g.trans h1
    rw [div_mul_eq_mul_div, le_div_iff₀ hw]
    have : P.width / 2 * fillGap P.wk x.S cp c f f' * 2 = fillGap P.wk x.S cp c f f' * P.width := by ring
    rw [← this]
    linarith
  -- charges
  have c0 : matForm (gamMat P A) y y - matForm (gamMat P A) z z
      = matForm (gamMat P A) (y - z) (y - z) + 2 * matForm (gamMat P A) (y - z) z := by
    simp only [map_sub, LinearMap.sub_apply]
    rw [hB.symm z y]
    ring
  have hX : 0 ≤ formLen (dotForm A.positions.length) (y - z) := Real.sqrt_nonneg _
  have hZ : 0 ≤ formLen (dotForm A.positions.length) z := Real.sqrt_nonneg _
  have c1 : |(matForm (gamMat P A) y y - matForm (gamMat P A) z z) / 2|
      ≤ stiffness P A * (chargeError A x d * (formLen (dotForm _) z + chargeError A x d)) := by
    have k1 := hBI (y - z) (y - z)
    have k2 := hBI (y - z) z
    have m1 : formLen (dotForm _) (y - z) * formLen (dotForm _) (y - z) ≤ chargeError A x d * chargeError A x d :=
      mul_le_mul n2 n2 hX (hX.trans n2)
    have m2 : formLen (dotForm _) (y - z) * formLen (dotForm _) z ≤ chargeError A x d * formLen (dotForm _) z :=
      mul_le_mul_of_nonneg_right n2 hZ
    have m3 := mul_le_mul_of_nonneg_left m1 hG
    have m4 := mul_le_mul_of_nonneg_left m2 hG
    rw [c0, abs_le]
    have k3 := abs_le.1 k1
    have k4 := abs_le.1 k2
    have m5 : 0 ≤ stiffness P A * (chargeError A x d * chargeError A x d) :=
      mul_nonneg hG (mul_self_nonneg _)
    constructor <;> nlinarith
  rw [exactEnergy_eq]
  have hb := bandScale_nonneg x
  have t : bandSum P.wk x.H0 cp fp + matForm (gamMat P A) y y / 2
      - (bandSum P.wk x.H0 c f' + matForm (gamMat P A) z z / 2)
      = (bandSum P.wk x.H0 cp fp - bandSum P.wk x.H0 cp f) + (bandSum P.wk x.H0 cp f - bandSum P.wk x.H0 c f')
        + (matForm (gamMat P A) y y - matForm (gamMat P A) z z) / 2 := by ring
  rw [t]
  refine (abs_add_le _ _).trans (add_le_add ((abs_add_le _ _).trans ?_) c1)
  rw [mul_add]
  exact add_le_add (b1.trans (mul_le_mul_of_nonneg_left g1 hb)) (b2.trans (mul_le_mul_of_nonneg_left g2 hb))

end Run

end Hotbit
