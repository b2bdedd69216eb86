import Verif.Props.TotalForces
import Verif.Lemmas.TimeReversalRun

/-!
# Two solutions of the self-consistency problem
-/

set_option linter.unusedSimpArgs false

namespace Hotbit

open Matrix

section Gap

variable {n : ℕ}

/-- Overlaps of two sets of states. -/
noncomputable def overlapsOf (S c d : CMat n) : CMat n := (cᵀ)ᴴ * S * dᵀ

/-- Matrix form of orthonormal solutions. -/
theorem Solutions.matrix {H S c : CMat n} {e : Fin n → ℝ} (h : Solutions H S e c) :
    (cᵀ)ᴴ * S * cᵀ = 1 ∧ H = S * cᵀ * diagonal (fun a => (e a : ℂ)) * ((cᵀ)ᴴ * S) := by
  have o : (cᵀ)ᴴ * S * cᵀ = 1 := by
    ext a b
    rw [Matrix.mul_apply]
    have := h.orthonormal a b
    rw [Finset.sum_comm] at this
    rw [Matrix.one_apply, ← this]
    refine Finset.sum_congr rfl fun j _ => ?_
    rw [Matrix.mul_apply, Finset.sum_mul]
    rfl
  have s : H * cᵀ = S * cᵀ * diagonal (fun a => (e a : ℂ)) := by
    ext i a
    rw [Matrix.mul_diagonal, Matrix.mul_apply, Matrix.mul_apply, mul_comm]
    exact h.solve a i
  refine ⟨o, ?_⟩
  have u : cᵀ * ((cᵀ)ᴴ * S) = 1 := mul_eq_one_comm.1 o
  rw [← s, Matrix.mul_assoc, u, Matrix.mul_one]

theorem computeRho_diagonal (c : CMat n) (g : Fin n → ℝ) :
    computeRho c g = cᵀ * diagonal (fun a => (g a : ℂ)) * (cᵀ)ᴴ := by
  unfold computeRho
  rw [Matrix.mul_assoc]
  congr 1
  ext a j
  rw [Matrix.diagonal_mul]
  rfl

theorem overlapsOf_conj {S : CMat n} (hS : S.IsHermitian) (c d : CMat n) :
    (overlapsOf S c d)ᴴ = overlapsOf S d c := by
  unfold overlapsOf
  rw [conjTranspose_mul, conjTranspose_mul, conjTranspose_conjTranspose, hS, Matrix.mul_assoc]

/-- The sum over one density matrix with another Hamiltonian. -/
theorem trace_overlap {S : CMat n} (hS : S.IsHermitian) (c d : CMat n) (f e : Fin n → ℝ) :
    ∑ i, ∑ j, computeRho c f i j * (S * dᵀ * diagonal (fun a => (e a : ℂ)) * ((dᵀ)ᴴ * S)) j i
      = ((∑ a, ∑ b, f a * e b * Complex.normSq (overlapsOf S c d a b) : ℝ) : ℂ) := by
  have t : ∀ A B : CMat n, ∑ i, ∑ j, A i j * B j i = (A * B).trace := by
    intro A B
    simp [Matrix.trace, Matrix.mul_apply]
  rw [t, computeRho_diagonal]
  have e1 : cᵀ * diagonal (fun a => (f a : ℂ)) * (cᵀ)ᴴ * (S * dᵀ * diagonal (fun a => (e a : ℂ)) * ((dᵀ)ᴴ * S))
      = cᵀ * (diagonal (fun a => (f a : ℂ)) * (overlapsOf S c d * diagonal (fun a => (e a : ℂ)) * ((dᵀ)ᴴ * S))) := by
    unfold overlapsOf
    simp only [Matrix.mul_assoc]
  have e2 : diagonal (fun a => (f a : ℂ)) * (overlapsOf S c d * diagonal (fun a => (e a : ℂ)) * ((dᵀ)ᴴ * S)) * cᵀ
      = diagonal (fun a => (f a : ℂ)) * (overlapsOf S c d * diagonal (fun a => (e a : ℂ)) * (overlapsOf S c d)ᴴ) := by
    rw [overlapsOf_conj hS]
    unfold overlapsOf
    simp only [Matrix.mul_assoc]
  rw [e1, Matrix.trace_mul_comm, e2, Matrix.trace]
  simp only [Matrix.diag_apply, Matrix.diagonal_mul, Complex.ofReal_sum]
  refine Finset.sum_congr rfl fun a _ => ?_
  rw [Matrix.mul_apply, Finset.mul_sum]
  refine Finset.sum_congr rfl fun b _ => ?_
  rw [Matrix.mul_diagonal, Matrix.conjTranspose_apply]
  push_cast
  rw [Complex.normSq_eq_conj_mul_self]
  show _ * (_ * _ * (starRingEnd ℂ) _) = _
  ring

theorem overlapsOf_row {H H' S c d : CMat n} {e e' : Fin n → ℝ} (hS : S.IsHermitian) (h : Solutions H S e c)
    (h' : Solutions H' S e' d) (a : Fin n) : ∑ b, Complex.normSq (overlapsOf S c d a b) = 1 := by
  have o := h.matrix.1
  have u : S * (dᵀ * (dᵀ)ᴴ) = 1 := by
    have : dᵀ * ((dᵀ)ᴴ * S) = 1 := mul_eq_one_comm.1 h'.matrix.1
    rw [← Matrix.mul_assoc] at this
    exact mul_eq_one_comm.1 this
  have : overlapsOf S c d * (overlapsOf S c d)ᴴ = 1 := by
    rw [overlapsOf_conj hS]
    unfold overlapsOf
    calc (cᵀ)ᴴ * S * dᵀ * ((dᵀ)ᴴ * S * cᵀ) = (cᵀ)ᴴ * (S * (dᵀ * (dᵀ)ᴴ)) * S * cᵀ := by
          simp only [Matrix.mul_assoc]
      _ = 1 := by rw [u, Matrix.mul_one, o]
  have := congrFun (congrFun this a) a
  rw [Matrix.mul_apply, Matrix.one_apply, if_pos rfl] at this
  have hc : ((∑ b, Complex.normSq (overlapsOf S c d a b) : ℝ) : ℂ) = ((1 : ℝ) : ℂ) := by
    rw [Complex.ofReal_sum, Complex.ofReal_one, ← this]
    refine Finset.sum_congr rfl fun b _ => ?_
    rw [Matrix.conjTranspose_apply, Complex.normSq_eq_conj_mul_self, mul_comm]
    rfl
  exact Complex.ofReal_inj.1 hc

theorem overlapsOf_swap {S : CMat n} (hS : S.IsHermitian) (c d : CMat n) (a b : Fin n) :
    Complex.normSq (overlapsOf S d c b a) = Complex.normSq (overlapsOf S c d a b) := by
  rw [← overlapsOf_conj hS c d, Matrix.conjTranspose_apply]
  exact Complex.normSq_conj _

/-- The difference of the density matrices with the difference of the Hamiltonians. -/
theorem trace_gap {H H' S c d : CMat n} {e e' : Fin n → ℝ} (f f' : Fin n → ℝ) (hS : S.IsHermitian)
    (h : Solutions H S e c) (h' : Solutions H' S e' d) :
    (∑ i, ∑ j, (computeRho c f i j - computeRho d f' i j) * (H j i - H' j i)).re
      = ∑ a, ∑ b, Complex.normSq (overlapsOf S c d a b) * ((f a - f' b) * (e a - e' b)) := by
  have t := fun (c d : CMat n) (f e : Fin n → ℝ) => trace_overlap hS c d f e
  have h1 : ∑ i, ∑ j, (computeRho c f i j - computeRho d f' i j) * (H j i - H' j i)
      = (∑ i, ∑ j, computeRho c f i j * H j i) - (∑ i, ∑ j, computeRho c f i j * H' j i)
        - (∑ i, ∑ j, computeRho d f' i j * H j i) + ∑ i, ∑ j, computeRho d f' i j * H' j i := by
    simp only [← Finset.sum_sub_distrib, ← Finset.sum_add_distrib]
    exact Finset.sum_congr rfl fun i _ => Finset.sum_congr rfl fun j _ => by ring
  have own : ∀ {H c : CMat n} {e : Fin n → ℝ}, Solutions H S e c → ∀ f : Fin n → ℝ,
      ∑ i, ∑ j, computeRho c f i j * H j i = ((∑ a, f a * e a : ℝ) : ℂ) := by
    intro H c e h f
    conv_lhs => rw [h.matrix.2]
    rw [t]
    congr 1
    refine Finset.sum_congr rfl fun a _ => ?_
    have : overlapsOf S c c = 1 := h.matrix.1
    rw [this, Finset.sum_eq_single a]
    · simp
    · intro b _ hb
      rw [Matrix.one_apply_ne hb.symm]; simp
    · simp
  rw [h1, own h f, own h' f']
  have x1 : ∑ i, ∑ j, computeRho c f i j * H' j i
      = ((∑ a, ∑ b, f a * e' b * Complex.normSq (overlapsOf S c d a b) : ℝ) : ℂ) := by
    conv_lhs => rw [h'.matrix.2]
    exact t c d f e'
  have x2 : ∑ i, ∑ j, computeRho d f' i j * H j i
      = ((∑ b, ∑ a, f' b * e a * Complex.normSq (overlapsOf S d c b a) : ℝ) : ℂ) := by
    conv_lhs => rw [h.matrix.2]
    exact t d c f' e
  rw [x1, x2, ← Complex.ofReal_sub, ← Complex.ofReal_sub, ← Complex.ofReal_add, Complex.ofReal_re]
  have r1 : ∑ a, f a * e a = ∑ a, ∑ b, f a * e a * Complex.normSq (overlapsOf S c d a b) :=
    Finset.sum_congr rfl fun a _ => by rw [← Finset.mul_sum, overlapsOf_row hS h h', mul_one]
  have r2 : ∑ b, f' b * e' b = ∑ a, ∑ b, f' b * e' b * Complex.normSq (overlapsOf S c d a b) := by
    rw [Finset.sum_comm]
    refine Finset.sum_congr rfl fun b _ => ?_
    rw [← Finset.mul_sum, Finset.sum_congr rfl fun a _ => (overlapsOf_swap hS c d a b).symm,
      overlapsOf_row hS h' h, mul_one]
  rw [r1, r2, Finset.sum_comm (f := fun b a => f' b * e a * Complex.normSq (overlapsOf S d c b a))]
  simp only [← Finset.sum_sub_distrib, ← Finset.sum_add_distrib]
  refine Finset.sum_congr rfl fun a _ => Finset.sum_congr rfl fun b _ => ?_
  rw [overlapsOf_swap hS]
  ring

/-- Occupations that agree on overlapping states give the same density matrix. -/
theorem rho_eq_of_overlap {H H' S c d : CMat n} {e e' f f' : Fin n → ℝ} (h : Solutions H S e c)
    (h' : Solutions H' S e' d) (hf : ∀ a b, overlapsOf S c d a b ≠ 0 → f a = f' b) :
    computeRho c f = computeRho d f' := by
  have u1 : cᵀ * ((cᵀ)ᴴ * S) = 1 := mul_eq_one_comm.1 h.matrix.1
  have u2 : S * (dᵀ * (dᵀ)ᴴ) = 1 := by
    have : dᵀ * ((dᵀ)ᴴ * S) = 1 := mul_eq_one_comm.1 h'.matrix.1
    rw [← Matrix.mul_assoc] at this
    exact mul_eq_one_comm.1 this
  have gcomm : diagonal (fun a => (f a : ℂ)) * overlapsOf S c d
      = overlapsOf S c d * diagonal (fun a => (f' a : ℂ)) := by
    ext a b
    rw [Matrix.diagonal_mul, Matrix.mul_diagonal]
    by_cases hz : overlapsOf S c d a b = 0
    · rw [hz]; simp
    · rw [hf a b hz, mul_comm]
  have hW : dᵀ = cᵀ * overlapsOf S c d := by
    unfold overlapsOf
    rw [← Matrix.mul_assoc, u1, Matrix.one_mul]
  have hZ : (cᵀ)ᴴ = overlapsOf S c d * (dᵀ)ᴴ := by
    unfold overlapsOf
    rw [Matrix.mul_assoc, Matrix.mul_assoc, u2, Matrix.mul_one]
  rw [computeRho_diagonal, computeRho_diagonal]
  calc cᵀ * diagonal (fun a => (f a : ℂ)) * (cᵀ)ᴴ
      = cᵀ * diagonal (fun a => (f a : ℂ)) * (overlapsOf S c d * (dᵀ)ᴴ) := by rw [← hZ]
    _ = cᵀ * (diagonal (fun a => (f a : ℂ)) * overlapsOf S c d) * (dᵀ)ᴴ := by
        simp only [Matrix.mul_assoc]
    _ = cᵀ * overlapsOf S c d * diagonal (fun a => (f' a : ℂ)) * (dᵀ)ᴴ := by
        rw [gcomm]; simp only [Matrix.mul_assoc]
    _ = _ := by rw [← hW]

end Gap

section Fermi

/-- The occupation depends on the energy above the chemical potential. -/
theorem fermi_shift (w mu e : ℝ) : fermi w mu e = fermi w 0 (e - mu) := by
  unfold fermi
  rw [sub_zero]

theorem fermi_gap {w : ℝ} (hw : 0 < w) (mu mu' e e' : ℝ) :
    (fermi w mu e - fermi w mu' e') * ((e - mu) - (e' - mu')) ≤ 0 := by
  rw [fermi_shift w mu e, fermi_shift w mu' e']
  rcases le_total (e - mu) (e' - mu') with h | h
  · have := c13_monotone w hw 0 0 _ _ h (le_refl 0)
    exact mul_nonpos_of_nonneg_of_nonpos (by linarith) (by linarith)
  · have := c13_monotone w hw 0 0 _ _ h (le_refl 0)
    exact mul_nonpos_of_nonpos_of_nonneg (by linarith) (by linarith)

/-- Where there is any occupation, it grows strictly with the chemical potential. -/
theorem fermi_strict {w : ℝ} (hw : 0 < w) {mu mu' e : ℝ} (hp : 0 < fermi w mu e) (h : mu < mu') :
    fermi w mu e < fermi w mu' e := by
  have hlt : (e - mu') / w < (e - mu) / w := by gcongr
  have h1 : (e - mu) / w < maxExpArg := by
    by_contra hc
    unfold fermi at hp
    rw [if_neg hc] at hp
    exact lt_irrefl _ hp
  unfold fermi
  rw [if_pos h1, if_pos (hlt.trans h1)]
  have := Real.exp_lt_exp.2 hlt
  have := Real.exp_pos ((e - mu') / w)
  gcongr

/-- There is only one chemical potential for some electrons. -/
theorem mu_unique {nk n : ℕ} {wk : Fin nk → ℝ} {w : ℝ} (hw : 0 < w) (hwk : ∀ k, 0 < wk k)
    (e : Fin nk → Fin n → ℝ) {mu mu' nel : ℝ} (hn : 0 < nel)
    (h : ∑ k, wk k * ∑ a, fermi w mu (e k a) = nel) (h' : ∑ k, wk k * ∑ a, fermi w mu' (e k a) = nel) :
    mu = mu' := by
  have key : ∀ mu mu', mu < mu' → ∑ k, wk k * ∑ a, fermi w mu (e k a) = nel →
      ∑ k, wk k * ∑ a, fermi w mu' (e k a) = nel → False := by
    intro mu mu' hlt h h'
    have hle : ∀ k a, fermi w mu (e k a) ≤ fermi w mu' (e k a) := fun k a =>
      c13_monotone w hw _ _ _ _ (le_refl _) hlt.le
    have : ∃ k a, 0 < fermi w mu (e k a) := by
      by_contra hc
      push Not at hc
      have : ∑ k, wk k * ∑ a, fermi w mu (e k a) ≤ 0 :=
        Finset.sum_nonpos fun k _ => mul_nonpos_of_nonneg_of_nonpos (hwk k).le
          (Finset.sum_nonpos fun a _ => hc k a)
      linarith
    obtain ⟨k, a, hka⟩ := this
    have : ∑ k, wk k * ∑ a, fermi w mu (e k a) < ∑ k, wk k * ∑ a, fermi w mu' (e k a) := by
      refine Finset.sum_lt_sum (fun k _ => ?_) ⟨k, Finset.mem_univ _, ?_⟩
      · exact mul_le_mul_of_nonneg_left (Finset.sum_le_sum fun a _ => hle k a) (hwk k).le
      · exact mul_lt_mul_of_pos_left (Finset.sum_lt_sum (fun a _ => hle k a)
          ⟨a, Finset.mem_univ _, fermi_strict hw hka hlt⟩) (hwk k)
    linarith
  rcases lt_trichotomy mu mu' with hl | hl | hl
  · exact (key _ _ hl h h').elim
  · exact hl
  · exact (key _ _ hl h' h).elim

end Fermi

end Hotbit
