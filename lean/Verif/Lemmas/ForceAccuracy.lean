import Verif.Lemmas.Accuracy
import Verif.Lemmas.TurningForces

/-!
# How near the forces of a converged calculation are to the exact ones
-/

set_option linter.unusedSimpArgs false

namespace Hotbit

open Matrix

section Close

variable {ι : Type} {t : ι → ℝ} {m : ℕ} {F G : ι → ℂ} {F0 G0 : ℂ}

/-- `F` is `F0` up to a multiple of `t (1 + t)^m`. -/
def Close (t : ι → ℝ) (m : ℕ) (F : ι → ℂ) (F0 : ℂ) : Prop :=
  ∃ K, 0 ≤ K ∧ ∀ i, ‖F i - F0‖ ≤ K * (t i * (1 + t i) ^ m)

theorem Close.const (t : ι → ℝ) (m : ℕ) (a : ℂ) : Close t m (fun _ => a) a :=
  ⟨0, le_rfl, fun i => by simp⟩

theorem Close.add (h : Close t m F F0) (h' : Close t m G G0) : Close t m (fun i => F i + G i) (F0 + G0) := by
  obtain ⟨K, hK, h⟩ := h
  obtain ⟨L, hL, h'⟩ := h'
  refine ⟨K + L, add_nonneg hK hL, fun i => ?_⟩
  rw [add_sub_add_comm, add_mul]
  exact (norm_add_le _ _).trans (add_le_add (h i) (h' i))

theorem Close.constMul (a : ℂ) (h : Close t m F F0) : Close t m (fun i => a * F i) (a * F0) := by
  obtain ⟨K, hK, h⟩ := h
  refine ⟨‖a‖ * K, by positivity, fun i => ?_⟩
  rw [← mul_sub, norm_mul, mul_assoc]
  exact mul_le_mul_of_nonneg_left (h i) (norm_nonneg _)

theorem Close.neg (h : Close t m F F0) : Close t m (fun i => -F i) (-F0) := by
  have := h.constMul (-1)
  simpa using this

theorem Close.sub (h : Close t m F F0) (h' : Close t m G G0) : Close t m (fun i => F i - G i) (F0 - G0) := by
  simpa [sub_eq_add_neg] using h.add h'.neg

theorem Close.sum {κ : Type} (s : Finset κ) {F : κ → ι → ℂ} {F0 : κ → ℂ} (h : ∀ j ∈ s, Close t m (F j) (F0 j)) :
    Close t m (fun i => ∑ j ∈ s, F j i) (∑ j ∈ s, F0 j) := by
  classical
  induction s using Finset.induction_on with
  | empty => simpa using Close.const t m 0
  | insert a s ha ih =>
    simp only [Finset.sum_insert ha]
    exact (h a (Finset.mem_insert_self _ _)).add (ih fun j hj => h j (Finset.mem_insert_of_mem hj))

theorem Close.listSum {κ : Type} (l : List κ) {F : κ → ι → ℂ} {F0 : κ → ℂ} (h : ∀ j ∈ l, Close t m (F j) (F0 j)) :
    Close t m (fun i => (l.map fun j => F j i).sum) (l.map F0).sum := by
  induction l with
  | nil => simpa using Close.const t m 0
  | cons a l ih =>
    simp only [List.map_cons, List.sum_cons]
    exact (h a (by simp)).add (ih fun j hj => h j (by simp [hj]))

theorem Close.re (h : Close t m F F0) : Close t m (fun i => (((F i).re : ℝ) : ℂ)) ((F0.re : ℝ) : ℂ) := by
  obtain ⟨K, hK, h⟩ := h
  refine ⟨K, hK, fun i => ?_⟩
  rw [← Complex.ofReal_sub, Complex.norm_real, ← Complex.sub_re]
  exact (Complex.abs_re_le_norm _).trans (h i)

theorem Close.mul (ht : ∀ i, 0 ≤ t i) (h : Close t 0 F F0) (h' : Close t 0 G G0) :
    Close t 1 (fun i => F i * G i) (F0 * G0) := by
  obtain ⟨K, hK, h⟩ := h
  obtain ⟨L, hL, h'⟩ := h'
  refine ⟨K * L + K * ‖G0‖ + ‖F0‖ * L, by positivity, fun i => ?_⟩
  have e : F i * G i - F0 * G0 = (F i - F0) * (G i - G0) + (F i - F0) * G0 + F0 * (G i - G0) := by ring
  have h := h i
  have h' := h' i
  simp only [pow_zero, mul_one] at h h'
  have t0 := ht i
  have n1 : ‖(F i - F0) * (G i - G0)‖ ≤ (K * t i) * (L * t i) := by
    rw [norm_mul]; exact mul_le_mul h h' (norm_nonneg _) (by positivity)
  have n2 : ‖(F i - F0) * G0‖ ≤ (K * t i) * ‖G0‖ := by
    rw [norm_mul]; exact mul_le_mul_of_nonneg_right h (norm_nonneg _)
  have n3 : ‖F0 * (G i - G0)‖ ≤ ‖F0‖ * (L * t i) := by
    rw [norm_mul]; exact mul_le_mul_of_nonneg_left h' (norm_nonneg _)
  have n4 : ‖F i * G i - F0 * G0‖ ≤ (K * t i) * (L * t i) + (K * t i) * ‖G0‖ + ‖F0‖ * (L * t i) := by
    rw [e]
    exact (norm_add_le _ _).trans (add_le_add ((norm_add_le _ _).trans (add_le_add n1 n2)) n3)
  refine n4.trans ?_
  rw [pow_one]
  have p1 : 0 ≤ K * L * t i := by positivity
  have p2 : 0 ≤ K * ‖G0‖ * t i * t i := by positivity
  have p3 : 0 ≤ ‖F0‖ * L * t i * t i := by positivity
  nlinarith

theorem Close.up (ht : ∀ i, 0 ≤ t i) (h : Close t 0 F F0) : Close t 1 F F0 := by
  obtain ⟨K, hK, h⟩ := h
  refine ⟨K, hK, fun i => (h i).trans (mul_le_mul_of_nonneg_left ?_ hK)⟩
  have := ht i
  simp only [pow_zero, mul_one, pow_one]
  nlinarith

end Close

/-- The energy-weighted density matrix from the density matrix. -/
theorem rhoe_of_rho {n : ℕ} {H S c : CMat n} {e : Fin n → ℝ} (h : Solutions H S e c) (f : Fin n → ℝ) :
    computeRhoe c f e = S⁻¹ * H * computeRho c f := by
  obtain ⟨o, s⟩ := h.matrix
  have u : cᵀ * (cᵀ)ᴴ * S = 1 := by rw [Matrix.mul_assoc]; exact mul_eq_one_comm.1 o
  have hi : S⁻¹ = cᵀ * (cᵀ)ᴴ := Matrix.inv_eq_left_inv u
  have r : computeRhoe c f e = computeRho c fun a => e a * f a := by
    unfold computeRhoe computeRho
    congr 1
    ext a j
    simp only [Matrix.of_apply]
    push_cast
    ring
  rw [hi, r, computeRho_diagonal, computeRho_diagonal]
  rw [show (fun a => ((e a * f a : ℝ) : ℂ)) = fun a => (e a : ℂ) * (f a : ℂ) by funext a; push_cast; rfl,
    ← Matrix.diagonal_mul_diagonal]
  conv_rhs => rw [s]
  calc _ = (cᵀ * (cᵀ)ᴴ * S) * cᵀ * diagonal (fun a => (e a : ℂ)) * ((cᵀ)ᴴ * S * cᵀ) * diagonal (fun a => (f a : ℂ)) * (cᵀ)ᴴ := by
        rw [o, u]; simp only [Matrix.mul_assoc, Matrix.one_mul, Matrix.mul_one]
    _ = _ := by simp only [Matrix.mul_assoc]

section Run

variable {P : ScfIn} {A : Atoms} {elements : String → Option ElementData} {x : Setup P}

/-- The potential of the charges between two orbitals. -/
theorem h1_setup (hfit : Fits P A elements) (hx : setupOf P A = .ok x) (hs : P.scc = true) (q : List ℝ)
    (a b : Fin P.t.norb) :
    constructH1 P.t A.positions.length (x.epsilon A.positions.length q) (fun _ => 0) a b
      = (orbPot P A (vecOf _ q) a + orbPot P A (vecOf _ q) b) / 2 := by
  obtain ⟨-, -, -, -, -, -, ha, -⟩ := orb_at hfit.orbitals a
  obtain ⟨-, -, -, -, -, -, hb, -⟩ := orb_at hfit.orbitals b
  have hNs : A.symbols.length = A.positions.length := by simp [Atoms.symbols, Atoms.positions]
  have := (c28_element elements A.symbols P.t hfit.orbitals (x.epsilon A.positions.length q) (fun _ => 0) a b _ _
    ha hb).2 (fun i _ => by simp; norm_num)
  rw [hNs] at this
  rw [this]
  unfold orbPot
  rw [epsilon_setup hx hs q (hfit.numAt a).1, epsilon_setup hx hs q (hfit.numAt b).1]

/-- A pass that hardly changed the charges. -/
structure LastPass (A : Atoms) (x : Setup P) where
  q : List ℝ
  p : Pass P
  d : ℝ
  m : ℝ
  nonneg : 0 ≤ d
  filled : FilledAt A x (vecOf _ q) p.e p.wf m
  occ : ∀ k a, |p.f k a - smoothFermi P.width m (p.e k a)| ≤ occNoise P
  charges : formLen (dotForm _) (vecOf _ p.dq - filledQ A x p.e p.wf m) ≤ chargeNoise x
  step : ∀ i, |vecOf A.positions.length p.dq i - vecOf _ q i| ≤ d
  pot : p.h1 = some fun a b => (orbPot P A (vecOf _ q) a + orbPot P A (vecOf _ q) b) / 2

/-- Size of the errors. -/
noncomputable def LastPass.t (r : LastPass A x) : ℝ := r.d + occNoise P

theorem occNoise_nonneg (hk : ∀ k, 0 < P.wk k) : 0 ≤ occNoise P := by
  unfold occNoise
  have : 0 ≤ ∑ k, 1 / P.wk k := Finset.sum_nonneg fun k _ => one_div_nonneg.2 (hk k).le
  have : 0 ≤ ∑ k, P.wk k := Finset.sum_nonneg fun k _ => (hk k).le
  positivity

theorem chargeNoise_eq (hk : ∀ k, 0 < P.wk k) : chargeNoise x
    = √(P.t.norb ^ 2 * (popScale P.wk x.S * (P.t.norb * ∑ k, P.wk k))) * occNoise P := by
  unfold chargeNoise
  have e : (P.t.norb : ℝ) ^ 2 * (popScale P.wk x.S * (P.t.norb * (∑ k, P.wk k) * occNoise P ^ 2))
      = P.t.norb ^ 2 * (popScale P.wk x.S * (P.t.norb * ∑ k, P.wk k)) * occNoise P ^ 2 := by ring
  rw [e, Real.sqrt_mul' _ (sq_nonneg _), Real.sqrt_sq (occNoise_nonneg hk)]

theorem residual_le (A : Atoms) (x : Setup P) (hk : ∀ k, 0 < P.wk k) : ∃ ρ, 0 ≤ ρ ∧ ∀ d, 0 ≤ d →
    √A.positions.length * d + chargeNoise x ≤ ρ * (d + occNoise P) := by
  have ho := occNoise_nonneg hk
  rw [chargeNoise_eq hk]
  set c0 : ℝ := √(P.t.norb ^ 2 * (popScale P.wk x.S * (P.t.norb * ∑ k, P.wk k)))
  have hc0 : 0 ≤ c0 := Real.sqrt_nonneg _
  have hs := Real.sqrt_nonneg (A.positions.length : ℝ)
  refine ⟨√A.positions.length + c0, by positivity, fun d hd => ?_⟩
  nlinarith [mul_nonneg hs ho, mul_nonneg hc0 hd]

section Near

variable (hfit : Fits P A elements) (hA : InversionClosed A) (hx : setupOf P A = .ok x) (hs : P.scc = true)
  (hpos : ∀ q E, EsEnergy P.cd P.bohr P.U P.w P.gcut A q E → 0 ≤ E) (hw : 0 < P.width) (hk : ∀ k, 0 < P.wk k)
  (hS : ∀ k, (x.S k).IsHermitian) {z : QVec A.positions.length} {e : Fin P.nk → Fin P.t.norb → ℝ}
  {c : Fin P.nk → CMat P.t.norb} {mu : ℝ} (hex : ExactSolution A x z e c mu)

include hfit hA hx hs hpos hw hk hS hex

/-- The charges that went in, and those that came out. -/
theorem close_charges (j : Fin A.positions.length) :
    Close (LastPass.t (A := A) (x := x)) 0 (fun r => ((vecOf _ r.q j : ℝ) : ℂ)) (z j) ∧
    Close (LastPass.t (A := A) (x := x)) 0 (fun r => ((vecOf _ r.p.dq j : ℝ) : ℂ)) (z j) := by
  obtain ⟨ρ, hρ, hR⟩ := residual_le A x hk
  have hG : 0 ≤ stiffness P A := Finset.sum_nonneg fun i _ => Finset.sum_nonneg fun j _ => abs_nonneg _
  have hC : 0 < softness x := softness_pos hk
  have hK : 0 ≤ enhancement A x := by unfold enhancement; positivity
  have nr := fun r : LastPass A x =>
    charges_near hfit hA hx hs hpos hw hk hS r.filled r.charges r.step hex
  have nq : ∀ r : LastPass A x, |vecOf _ r.q j - z j| ≤ (enhancement A x + 1) * ρ * r.t := by
    intro r
    have a := (norm_le_pi_norm (vecOf _ r.q - z) j).trans ((norm_le_len _).trans (nr r).2.2)
    refine a.trans ?_
    rw [mul_assoc]
    exact mul_le_mul_of_nonneg_left (hR r.d r.nonneg) (by positivity)
  refine ⟨⟨(enhancement A x + 1) * ρ, by positivity, fun r => ?_⟩,
    ⟨(enhancement A x + 1) * ρ + 1, by positivity, fun r => ?_⟩⟩
  · rw [← Complex.ofReal_sub, Complex.norm_real, pow_zero, mul_one]
    exact nq r
  · rw [← Complex.ofReal_sub, Complex.norm_real, pow_zero, mul_one, Real.norm_eq_abs]
    have a := nq r
    have b := r.step j
    have o := occNoise_nonneg hk
    have c' : vecOf _ r.p.dq j - z j = (vecOf _ r.q j - z j) + (vecOf _ r.p.dq j - vecOf _ r.q j) := by ring
    rw [c', add_mul, one_mul]
    refine (abs_add_le _ _).trans (add_le_add a (b.trans ?_))
    unfold LastPass.t
    linarith

/-- The potential at an orbital. -/
theorem close_pot (y : Fin P.t.norb) :
    Close (LastPass.t (A := A) (x := x)) 0 (fun r => ((orbPot P A (vecOf _ r.q) y : ℝ) : ℂ)) (orbPot P A z y) := by
  unfold orbPot
  push_cast
  exact Close.sum _ fun j _ => (close_charges hfit hA hx hs hpos hw hk hS hex j).1.constMul _

/-- The density matrix. -/
theorem close_rho (k : Fin P.nk) (i j : Fin P.t.norb) :
    Close (LastPass.t (A := A) (x := x)) 0 (fun r => r.p.rho k i j)
      (computeRho (c k) (fun a => smoothFermi P.width mu (e k a)) i j) := by
  obtain ⟨ρ, hρ, hR⟩ := residual_le A x hk
  obtain ⟨E1, E2⟩ := exact_iff.1 hex
  have hG : 0 ≤ stiffness P A := Finset.sum_nonneg fun i _ => Finset.sum_nonneg fun j _ => abs_nonneg _
  have hC : 0 < softness x := softness_pos hk
  have hK : 0 ≤ enhancement A x := by unfold enhancement; positivity
  have hWk : 0 ≤ ∑ k, P.wk k := Finset.sum_nonneg fun k _ => (hk k).le
  have hocc := occNoise_nonneg hk
  have hB := gamMat_form hA hx hs hpos
  have hBI : ∀ u v : QVec A.positions.length, |matForm (gamMat P A) u v|
      ≤ stiffness P A * (formLen (dotForm _) u * formLen (dotForm _) v) := by
    intro u v
    have l : ∀ u : QVec A.positions.length, formLen (matForm (gamMat P A)) u ≤ √(stiffness P A) * formLen (dotForm _) u := by
      intro u
      unfold formLen
      rw [← Real.sqrt_mul hG]
      exact Real.sqrt_le_sqrt (matForm_le (gamMat P A) u)
    calc _ ≤ formLen (matForm (gamMat P A)) u * formLen (matForm (gamMat P A)) v := hB.le_mul _ _
      _ ≤ (√(stiffness P A) * formLen (dotForm _) u) * (√(stiffness P A) * formLen (dotForm _) v) :=
        mul_le_mul (l u) (l v) (Real.sqrt_nonneg _) (mul_nonneg (Real.sqrt_nonneg _) (Real.sqrt_nonneg _))
      _ = _ := by
        have := Real.mul_self_sqrt hG
        linear_combination (formLen (dotForm _) u * formLen (dotForm _) v) * this
  set s : ℝ := ‖(x.S k)⁻¹ i i‖ * ‖(x.S k)⁻¹ j j‖ / P.wk k with hsdef
  have hs0 : 0 ≤ s := div_nonneg (by positivity) (hk k).le
  -- one entry from the gap of all
  have ent : ∀ {H H' : Fin P.nk → CMat P.t.norb} {a a' : Fin P.nk → Fin P.t.norb → ℝ} {u u' : Fin P.nk → CMat P.t.norb}
      (f f' : Fin P.nk → Fin P.t.norb → ℝ), (∀ k, Solutions (H k) (x.S k) (a k) (u k)) →
      (∀ k, Solutions (H' k) (x.S k) (a' k) (u' k)) → ∀ B, 0 ≤ B → fillGap P.wk x.S u u' f f' ≤ B ^ 2 →
      ‖computeRho (u k) (f k) i j - computeRho (u' k) (f' k) i j‖ ≤ √s * B := by
    intro H H' a a' u u' f f' h h' B hB0 hg
    have g := rho_elem_gap (f k) (f' k) (h k) (h' k) i j
    set Γ : ℝ := ∑ a, ∑ b, Complex.normSq (overlapsOf (x.S k) (u k) (u' k) a b) * (f k a - f' k b) ^ 2 with hΓ
    have g1 : P.wk k * Γ ≤ B ^ 2 := by
      refine le_trans ?_ hg
      unfold fillGap
      exact Finset.single_le_sum (f := fun k => P.wk k * ∑ a, ∑ b,
        Complex.normSq (overlapsOf (x.S k) (u k) (u' k) a b) * (f k a - f' k b) ^ 2)
        (fun k _ => mul_nonneg (hk k).le (Finset.sum_nonneg fun _ _ => Finset.sum_nonneg fun _ _ =>
          mul_nonneg (Complex.normSq_nonneg _) (sq_nonneg _))) (Finset.mem_univ k)
    refine abs_le_of_sq_le_sq' ?_ (by positivity) |>.2
    rw [mul_pow, Real.sq_sqrt hs0]
    refine g.trans ?_
    calc _ = s * (P.wk k * Γ) := by
          rw [hsdef]
          have := (hk k).ne'
          field_simp
      _ ≤ _ := mul_le_mul_of_nonneg_left g1 hs0
  refine ⟨√s * (√(P.t.norb * ∑ k, P.wk k) + √(2 * stiffness P A / P.width) * ((enhancement A x + 1) * ρ)),
    by positivity, fun r => ?_⟩
  have t0 : 0 ≤ r.t := add_nonneg r.nonneg hocc
  obtain ⟨n1, -, n3⟩ := charges_near hfit hA hx hs hpos hw hk hS r.filled r.charges r.step hex
  have hR := hR r.d r.nonneg
  set f : Fin P.nk → Fin P.t.norb → ℝ := fun k a => smoothFermi P.width r.m (r.p.e k a) with hfdef
  set f' : Fin P.nk → Fin P.t.norb → ℝ := fun k a => smoothFermi P.width mu (e k a) with hf'
  have g1 : fillGap P.wk x.S r.p.wf r.p.wf r.p.f f ≤ (√(P.t.norb * ∑ k, P.wk k) * r.t) ^ 2 := by
    rw [mul_pow, Real.sq_sqrt (by positivity)]
    refine (fillGap_near hk r.filled.states r.occ).trans (mul_le_mul_of_nonneg_left ?_ (by positivity))
    refine pow_le_pow_left₀ hocc ?_ 2
    have := r.nonneg
    unfold LastPass.t
    linarith
  have g2 : fillGap P.wk x.S r.p.wf c f f' ≤ (√(2 * stiffness P A / P.width) * ((enhancement A x + 1) * (ρ * r.t))) ^ 2 := by
    rw [mul_pow, Real.sq_sqrt (by positivity)]
    have g := (filledQ_gap hfit hw hk hS E1 r.filled).1
    rw [E2] at g
    have h1 : -matForm (gamMat P A) (filledQ A x r.p.e r.p.wf r.m - z) (vecOf _ r.q - z)
        ≤ stiffness P A * ((enhancement A x + 1) * (ρ * r.t)) ^ 2 := by
      refine (neg_le_abs _).trans ((hBI _ _).trans (mul_le_mul_of_nonneg_left ?_ hG))
      rw [sq]
      have l3 := n3.trans (mul_le_mul_of_nonneg_left hR (show 0 ≤ enhancement A x + 1 by positivity))
      have l1 := n1.trans (mul_le_mul_of_nonneg_left hR hK)
      refine mul_le_mul (l1.trans ?_) l3 (Real.sqrt_nonneg _) (by positivity)
      have : 0 ≤ ρ * r.t := by positivity
      unfold LastPass.t at this ⊢
      nlinarith
    have h2 := g.trans h1
    rw [div_mul_eq_mul_div, le_div_iff₀ hw]
    have : P.width / 2 * fillGap P.wk x.S r.p.wf c f f' * 2 = fillGap P.wk x.S r.p.wf c f f' * P.width := by ring
    rw [← this]
    linarith
  have a1 := ent r.p.f f r.filled.states r.filled.states _ (by positivity) g1
  have a2 := ent f f' r.filled.states E1.states _ (by positivity) g2
  have t : r.p.rho k i j - computeRho (c k) (f' k) i j
      = (computeRho (r.p.wf k) (r.p.f k) i j - computeRho (r.p.wf k) (f k) i j)
        + (computeRho (r.p.wf k) (f k) i j - computeRho (c k) (f' k) i j) := by
    unfold Pass.rho
    ring
  rw [pow_zero, mul_one, t]
  refine (norm_add_le _ _).trans ((add_le_add a1 a2).trans (le_of_eq ?_))
  ring

/-- The Hamiltonian. -/
theorem close_ham (k : Fin P.nk) (i j : Fin P.t.norb) :
    Close (LastPass.t (A := A) (x := x)) 0 (fun r => meanH (x.H0 k) (x.S k) (orbPot P A (vecOf _ r.q)) i j)
      (meanH (x.H0 k) (x.S k) (orbPot P A z) i j) := by
  have h := ((close_pot hfit hA hx hs hpos hw hk hS hex i).add (close_pot hfit hA hx hs hpos hw hk hS hex j)).constMul
    (x.S k i j / 2)
  have h' := (Close.const (LastPass.t (A := A) (x := x)) 0 (x.H0 k i j)).add h
  convert h' using 2
  · simp only [meanH, Matrix.add_apply, Matrix.of_apply]
    push_cast
    ring
  · simp only [meanH, Matrix.add_apply, Matrix.of_apply]
    push_cast
    ring

/-- The energy-weighted density matrix. -/
theorem close_rhoe (k : Fin P.nk) (i j : Fin P.t.norb) :
    Close (LastPass.t (A := A) (x := x)) 1 (fun r => r.p.rhoe k i j)
      (computeRhoe (c k) (fun a => smoothFermi P.width mu (e k a)) (e k) i j) := by
  obtain ⟨E1, E2⟩ := exact_iff.1 hex
  have ht : ∀ r : LastPass A x, 0 ≤ r.t := fun r => add_nonneg r.nonneg (occNoise_nonneg hk)
  have h := Close.sum Finset.univ fun l _ => Close.mul ht
    (Close.sum Finset.univ fun a _ => (close_ham hfit hA hx hs hpos hw hk hS hex k a l).constMul ((x.S k)⁻¹ i a))
    (close_rho hfit hA hx hs hpos hw hk hS hex k l j)
  convert h using 1
  · funext r
    unfold Pass.rhoe
    rw [rhoe_of_rho (r.filled.states k), Matrix.mul_apply]
    refine Finset.sum_congr rfl fun l _ => ?_
    rw [Matrix.mul_apply]
    rfl
  · rw [rhoe_of_rho (E1.states k), Matrix.mul_apply]
    refine Finset.sum_congr rfl fun l _ => ?_
    rw [Matrix.mul_apply]

/-- The band-structure forces. -/
theorem close_bands (d : Fin 3) {i : ℕ} (hi : i < A.positions.length) :
    Close (LastPass.t (A := A) (x := x)) 1
      (fun r => (((bandForces P.wk (fun k => dHfull (x.dH0 d k) (x.dS d k) r.p.h1) (x.dS d) r.p.rho r.p.rhoe P.t.blocks).getD i 0
        : ℝ) : ℂ))
      (((bandForces P.wk (fun k => dHfull (x.dH0 d k) (x.dS d k) (some fun a b => (orbPot P A z a + orbPot P A z b) / 2))
        (x.dS d) (fun k => computeRho (c k) fun a => smoothFermi P.width mu (e k a))
        (fun k => computeRhoe (c k) (fun a => smoothFermi P.width mu (e k a)) (e k)) P.t.blocks).getD i 0 : ℝ) : ℂ) := by
  have ht : ∀ r : LastPass A x, 0 ≤ r.t := fun r => add_nonneg r.nonneg (occNoise_nonneg hk)
  have dh : ∀ k y y', Close (LastPass.t (A := A) (x := x)) 0 (fun r => dHfull (x.dH0 d k) (x.dS d k) r.p.h1 y y')
      (dHfull (x.dH0 d k) (x.dS d k) (some fun a b => (orbPot P A z a + orbPot P A z b) / 2) y y') := by
    intro k y y'
    have h := ((close_pot hfit hA hx hs hpos hw hk hS hex y).add (close_pot hfit hA hx hs hpos hw hk hS hex y')).constMul
      (x.dS d k y y' / 2)
    have h' := (Close.const (LastPass.t (A := A) (x := x)) 0 (x.dH0 d k y y')).add h
    convert h' using 1
    · funext r
      rw [r.pot]
      simp only [dHfull, Matrix.of_apply]
      push_cast
      ring
    · simp only [dHfull, Matrix.of_apply]
      push_cast
      ring
  have el : ∀ k y, Close (LastPass.t (A := A) (x := x)) 1
      (fun r => (dHfull (x.dH0 d k) (x.dS d k) r.p.h1 * r.p.rho k - x.dS d k * r.p.rhoe k) y y)
      ((dHfull (x.dH0 d k) (x.dS d k) (some fun a b => (orbPot P A z a + orbPot P A z b) / 2)
        * computeRho (c k) (fun a => smoothFermi P.width mu (e k a))
        - x.dS d k * computeRhoe (c k) (fun a => smoothFermi P.width mu (e k a)) (e k)) y y) := by
    intro k y
    simp only [Matrix.sub_apply, Matrix.mul_apply]
    exact (Close.sum _ fun y' _ => Close.mul ht (dh k y y') (close_rho hfit hA hx hs hpos hw hk hS hex k y' y)).sub
      (Close.sum _ fun y' _ => (close_rhoe hfit hA hx hs hpos hw hk hS hex k y' y).constMul _)
  simp only [bandForces_entry hfit _ _ _ _ hi]
  push_cast
  refine Close.sum _ fun k _ => Close.neg ((Close.re (Close.sum _ fun y _ => ?_)).constMul _)
  by_cases hy : P.t.atomAt y = i
  · simp only [if_pos hy]
    exact el k y
  · simp only [if_neg hy]
    exact Close.const _ _ _

/-- The forces between the charges. -/
theorem close_gamma (d : Fin 3) {i : ℕ} (hi : i < A.positions.length) :
    Close (LastPass.t (A := A) (x := x)) 1
      (fun r => ((gammaForces P.scc A.positions.length (corrDMatrix P.cd P.bohr P.w x.nb) P.bohr
        (dcField P.gcut r.p.dq (some x.nb)) (chg r.p.dq) i d : ℝ) : ℂ))
      ((gammaForces P.scc A.positions.length (corrDMatrix P.cd P.bohr P.w x.nb) P.bohr
        (dcField P.gcut (List.ofFn z) (some x.nb)) (chg (List.ofFn z)) i d : ℝ) : ℂ) := by
  have ht : ∀ r : LastPass A x, 0 ≤ r.t := fun r => add_nonneg r.nonneg (occNoise_nonneg hk)
  have ch : ∀ j, j < A.positions.length → Close (LastPass.t (A := A) (x := x)) 0
      (fun r => ((chg r.p.dq j : ℝ) : ℂ)) ((chg (List.ofFn z) j : ℝ) : ℂ) := by
    intro j hj
    have := (close_charges hfit hA hx hs hpos hw hk hS hex ⟨j, hj⟩).2
    have e1 : chg (List.ofFn z) j = z ⟨j, hj⟩ := by
      unfold chg
      rw [List.getD_eq_getElem?_getD, List.getElem?_eq_getElem (by simpa using hj), Option.getD_some, List.getElem_ofFn]
    rw [e1]
    exact this
  have vs : ∀ (l : List Vec), l.sum d = (l.map fun v => v d).sum := by
    intro l
    induction l with
    | nil => rfl
    | cons a l ih => simp [ih]
  unfold gammaForces
  simp only [if_pos hs, Pi.smul_apply, Pi.add_apply, Finset.sum_apply, smul_eq_mul, dcField, Option.getD_some, vs,
    List.map_map]
  push_cast
  refine Close.mul ht (ch i hi) (Close.add (Close.sum _ fun j hj => ?_) (Close.constMul _ ?_))
  · simp only [mul_comm _ (Complex.ofReal (corrDMatrix P.cd P.bohr P.w x.nb i j d))]
    exact (ch j (Finset.mem_range.1 hj)).constMul _
  · have := Close.listSum (x.nb.filter fun e => e.i == i) (t := LastPass.t (A := A) (x := x)) (m := 0)
      (F := fun e r => ((coulField P.gcut e.d * e.n d : ℝ) : ℂ) * ((chg r.p.dq e.j : ℝ) : ℂ))
      (F0 := fun e => ((coulField P.gcut e.d * e.n d : ℝ) : ℂ) * ((chg (List.ofFn z) e.j : ℝ) : ℂ)) fun e he => by
        rw [(setupOf_ok hx).2 hs] at he
        exact (ch e.j (nbList_i A P.gcut e (List.mem_filter.1 he).1).2).constMul _
    convert this using 1
    · funext r
      rw [← Complex.ofRealHom_eq_coe, map_list_sum, List.map_map]
      congr 1
      refine List.map_congr_left fun e _ => ?_
      simp only [Function.comp, Pi.smul_apply, smul_eq_mul, Complex.ofRealHom_eq_coe]
      push_cast
      ring
    · rw [← Complex.ofRealHom_eq_coe, map_list_sum, List.map_map]
      congr 1
      refine List.map_congr_left fun e _ => ?_
      simp only [Function.comp, Pi.smul_apply, smul_eq_mul, Complex.ofRealHom_eq_coe]
      push_cast
      ring

/-- All forces of the electrons and charges. -/
theorem close_forces (d : Fin 3) {i : ℕ} (hi : i < A.positions.length) : ∃ K, 0 ≤ K ∧ ∀ r : LastPass A x,
    |(bandForces P.wk (fun k => dHfull (x.dH0 d k) (x.dS d k) r.p.h1) (x.dS d) r.p.rho r.p.rhoe P.t.blocks).getD i 0
      + gammaForces P.scc A.positions.length (corrDMatrix P.cd P.bohr P.w x.nb) P.bohr
        (dcField P.gcut r.p.dq (some x.nb)) (chg r.p.dq) i d - exactForce A x z e c mu i d|
      ≤ K * (r.t * (1 + r.t)) := by
  obtain ⟨K, hK, h⟩ := (close_bands hfit hA hx hs hpos hw hk hS hex d hi).add
    (close_gamma hfit hA hx hs hpos hw hk hS hex d hi)
  refine ⟨K, hK, fun r => ?_⟩
  have := h r
  dsimp only at this
  rw [← Complex.ofReal_add, ← Complex.ofReal_add, ← Complex.ofReal_sub, Complex.norm_real, Real.norm_eq_abs, pow_one] at this
  exact this

end Near

end Run

end Hotbit
