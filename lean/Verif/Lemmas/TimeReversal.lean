import Verif.Spec.TimeReversal
import Verif.Lemmas.TotalPath
import Verif.Lemmas.TurnedStates
import Verif.Props.Eigen

/-!
# Matrices and states at inverse k-points
-/

set_option linter.unusedSimpArgs false

namespace Hotbit

open Matrix
open scoped ComplexOrder

/-- Complex conjugation, or nothing. -/
noncomputable def cj (b : Bool) : ℂ →+* ℂ := if b then starRingEnd ℂ else RingHom.id ℂ

theorem cj_cj (b : Bool) (z : ℂ) : cj b (cj b z) = z := by
  cases b <;> simp [cj]

theorem cj_star (b : Bool) (z : ℂ) : cj b (starRingEnd ℂ z) = starRingEnd ℂ (cj b z) := by
  cases b <;> simp [cj]

theorem cj_real (b : Bool) (x : ℝ) : cj b (x : ℂ) = x := by
  cases b <;> simp [cj]

theorem cj_re (b : Bool) (z : ℂ) : (cj b z).re = z.re := by
  cases b <;> simp [cj]

theorem cj_xor (a b : Bool) (z : ℂ) : cj a (cj b z) = cj (xor a b) z := by
  cases a <;> cases b <;> simp [cj]

theorem sameOrInverse_phase {k k' : Vec} (h : SameOrInverse k k') :
    ∃ b, ∀ n, blochPhase k' n = cj b (blochPhase k n) := by
  obtain ⟨s, hs, z, hz⟩ := h
  have e : ∀ n : Op, blochPhase k' n
      = Complex.exp (Complex.I * ((s * ∑ c, (n c : ℝ) * k c : ℝ) : ℂ)) := by
    intro n
    unfold blochPhase
    rw [Complex.exp_eq_exp_iff_exists_int]
    refine ⟨∑ c, n c * z c, ?_⟩
    simp only [hz, Fin.sum_univ_three]
    push_cast
    ring
  rcases hs with rfl | rfl
  · refine ⟨false, fun n => ?_⟩
    rw [e]
    simp [cj, blochPhase]
  · refine ⟨true, fun n => ?_⟩
    rw [e]
    unfold blochPhase cj
    rw [if_pos rfl, ← Complex.exp_conj]
    congr 1
    simp only [map_mul, Complex.conj_I, Complex.conj_ofReal]
    push_cast
    ring

/-! ### Matrices -/

/-- Conjugate blocks. -/
noncomputable def BMat.cj (b : Bool) (X : BMat) : BMat := fun i j p q => Hotbit.cj b (X i j p q)

/-- Conjugate matrices. -/
noncomputable def MatSt.cj (b : Bool) (s : MatSt) : MatSt :=
  ⟨s.H0.cj b, s.S.cj b, fun c => (s.dH0 c).cj b, fun c => (s.dS c).cj b⟩

theorem foldlM_cj {α β : Type} {f g : β → α → Except Exn β} (T : β → β)
    {l : List α} (h : ∀ a ∈ l, ∀ x, g (T x) a = (f x a).map T) (x : β) :
    l.foldlM g (T x) = (l.foldlM f x).map T := by
  induction l generalizing x with
  | nil => rfl
  | cons a l ih =>
    simp only [List.foldlM_cons]
    rw [h a List.mem_cons_self]
    cases hf : f x a with
    | error e => rfl
    | ok y => exact ih (fun a ha => h a (List.mem_cons_of_mem _ ha)) y

theorem BMat.addBlock_cj (b : Bool) (X : BMat) (I : MatIn) (i j : ℕ) (B B' : Fin 9 → Fin 9 → ℂ)
    (h : ∀ p q, B' p q = Hotbit.cj b (B p q)) :
    (X.cj b).addBlock I i j B' = (X.addBlock I i j B).cj b := by
  funext a c p q
  unfold BMat.addBlock BMat.cj
  dsimp only
  split
  · rw [map_add, h]
  · rfl

theorem BMat.mirror_cj (b : Bool) (X : BMat) (i j : ℕ) : (X.cj b).mirror i j = (X.mirror i j).cj b := by
  funext a c p q
  unfold BMat.mirror BMat.cj
  dsimp only
  split
  · rw [cj_star]
  · rfl

variable {I : MatIn} {k k' : Vec} {b : Bool}

theorem addImage_cj {n : Op} (h : blochPhase k' n = cj b (blochPhase k n)) (i j : ℕ)
    (hb sb : (Fin 9 → Fin 9 → ℝ) × (Fin 3 → Fin 9 → Fin 9 → ℝ)) (s : MatSt) :
    addImage I k' i j n hb sb (s.cj b) = (addImage I k i j n hb sb s).cj b := by
  have h1 : ∀ x : ℝ, blochPhase k' n * (x : ℂ) = cj b (blochPhase k n * (x : ℂ)) := fun x => by
    rw [map_mul, cj_real, h]
  have h2 : ∀ x : ℝ, starRingEnd ℂ (blochPhase k' n * (x : ℂ)) = cj b (starRingEnd ℂ (blochPhase k n * (x : ℂ))) :=
    fun x => by rw [h1, cj_star]
  unfold addImage
  dsimp only
  by_cases hij : i ≠ j
  · rw [if_pos hij, if_pos hij]
    unfold MatSt.cj
    dsimp only
    congr 1
    · exact BMat.addBlock_cj b _ _ _ _ _ _ fun p q => h1 _
    · exact BMat.addBlock_cj b _ _ _ _ _ _ fun p q => h1 _
    · funext c
      rw [BMat.addBlock_cj b _ _ _ _ _ _ fun p q => h1 _, BMat.addBlock_cj b _ _ _ _ _ _ fun p q => h2 _]
    · funext c
      rw [BMat.addBlock_cj b _ _ _ _ _ _ fun p q => h1 _, BMat.addBlock_cj b _ _ _ _ _ _ fun p q => h2 _]
  · rw [if_neg hij, if_neg hij]
    unfold MatSt.cj
    dsimp only
    congr 1
    · exact BMat.addBlock_cj b _ _ _ _ _ _ fun p q => h1 _
    · exact BMat.addBlock_cj b _ _ _ _ _ _ fun p q => h1 _
    · funext c
      rw [BMat.addBlock_cj b _ _ _ _ _ _ fun p q => h1 _]
    · funext c
      rw [BMat.addBlock_cj b _ _ _ _ _ _ fun p q => h1 _]

theorem imageStep_cj (h : ∀ n, blochPhase k' n = cj b (blochPhase k n)) (i j : ℕ)
    (im : (Op × Matrix (Fin 9) (Fin 9) ℝ) × ℕ) (x : MatSt × Bool) :
    imageStep I k' i j (x.1.cj b, x.2) im = (imageStep I k i j x im).map fun y => (y.1.cj b, y.2) := by
  unfold imageStep
  dsimp only
  split
  · rfl
  split
  · rfl
  split
  · rfl
  split
  · rfl
  simp only [Bind.bind, Except.bind, pure, Except.pure]
  cases slakoPair I i j (I.rij im.1.1 i j) (norm3 (I.rij im.1.1 i j)) im.1.2
    ((I.tab (I.sym i) (I.sym j)).h (norm3 (I.rij im.1.1 i j)))
    ((I.tab (I.sym i) (I.sym j)).dh (norm3 (I.rij im.1.1 i j))) with
  | error e => rfl
  | ok hb =>
    dsimp only
    cases slakoPair I i j (I.rij im.1.1 i j) (norm3 (I.rij im.1.1 i j)) im.1.2
      ((I.tab (I.sym i) (I.sym j)).s (norm3 (I.rij im.1.1 i j)))
      ((I.tab (I.sym i) (I.sym j)).ds (norm3 (I.rij im.1.1 i j))) with
    | error e => rfl
    | ok sb =>
      show Except.ok _ = Except.ok _
      rw [addImage_cj (h _)]

theorem pairStep_cj (h : ∀ n, blochPhase k' n = cj b (blochPhase k n))
    (ims : List ((Op × Matrix (Fin 9) (Fin 9) ℝ) × ℕ)) (i j : ℕ) (x : MatSt) :
    pairStep I k' ims i (x.cj b) j = (pairStep I k ims i x j).map (MatSt.cj b) := by
  unfold pairStep
  have := foldlM_cj (f := imageStep I k i j) (g := imageStep I k' i j)
    (fun y : MatSt × Bool => (y.1.cj b, y.2)) (l := ims) (fun a _ x => imageStep_cj h i j a x) (x, false)
  rw [this]
  cases ims.foldlM (imageStep I k i j) (x, false) with
  | error e => rfl
  | ok y =>
    simp only [Except.map, Bind.bind, Except.bind, pure, Except.pure]
    split
    · show Except.ok _ = Except.ok _
      unfold MatSt.cj
      dsimp only
      rw [BMat.mirror_cj, BMat.mirror_cj]
    · rfl

theorem onSite_cj (i : ℕ) (x : MatSt) : onSite I i (x.cj b) = (onSite I i x).cj b := by
  unfold onSite MatSt.cj
  dsimp only
  congr 1
  · funext a c p q
    unfold BMat.cj
    dsimp only
    split
    · rw [cj_real]
    · rfl
  · funext a c p q
    unfold BMat.cj
    dsimp only
    split
    · rw [cj_real]
    · rfl

theorem getMatrices_cj (h : ∀ n, blochPhase k' n = cj b (blochPhase k n)) :
    getMatrices I k' = (getMatrices I k).map (MatSt.cj b) := by
  unfold getMatrices
  cases I.transforms with
  | error e => rfl
  | ok ims =>
    simp only [Bind.bind, Except.bind]
    have h0 : (MatSt.zero).cj b = MatSt.zero := by
      unfold MatSt.cj MatSt.zero BMat.cj
      simp
    have := foldlM_cj (f := rowStep I k ims.zipIdx) (g := rowStep I k' ims.zipIdx) (MatSt.cj b)
      (l := List.range I.N) (fun i _ x => by
        unfold rowStep
        rw [onSite_cj]
        exact foldlM_cj (MatSt.cj b) (fun j _ x => pairStep_cj h _ i j x) _) MatSt.zero
    rwa [h0] at this

/-! ### States -/

variable {n : ℕ}

/-- Conjugate matrix. -/
noncomputable def cjM (b : Bool) (M : CMat n) : CMat n := M.map (cj b)

theorem cjM_apply (M : CMat n) (i j : Fin n) : cjM b M i j = cj b (M i j) := rfl

theorem cjM_cjM (M : CMat n) : cjM b (cjM b M) = M := by
  ext i j; exact cj_cj b _

theorem cjM_mul (M N : CMat n) : cjM b (M * N) = cjM b M * cjM b N := Matrix.map_mul

theorem flat_cj (t : OrbTables) (X : BMat) : t.flat (X.cj b) = cjM b (t.flat X) := rfl

theorem cjM_xor (a b : Bool) (M : CMat n) : cjM a (cjM b M) = cjM (xor a b) M := by
  ext i j; exact cj_xor a b _

theorem scfHamiltonian_cj (H1 : Option (Fin n → Fin n → ℝ)) (H S : CMat n) :
    scfHamiltonian H1 (cjM b H) (cjM b S) = cjM b (scfHamiltonian H1 H S) := by
  cases H1 with
  | none => rfl
  | some h =>
    ext i j
    simp only [scfHamiltonian, Matrix.add_apply, Matrix.of_apply, cjM_apply, map_add, map_mul, cj_real]

theorem dHfull_cj (H1 : Option (Fin n → Fin n → ℝ)) (H S : CMat n) :
    dHfull (cjM b H) (cjM b S) H1 = cjM b (dHfull H S H1) := by
  cases H1 with
  | none => rfl
  | some h =>
    ext i j
    simp only [dHfull, Matrix.of_apply, cjM_apply, map_add, map_mul, cj_real]

theorem areStates_cj {H S : CMat n} {e : Fin n → ℝ} {wf : CMat n} (h : AreStates H S e wf) :
    AreStates (cjM b H) (cjM b S) e (cjM b wf) := by
  refine ⟨h.ascending, fun a c => ?_, fun a i => ?_⟩
  · have := congrArg (cj b) (h.orthonormal a c)
    simp only [map_sum, map_mul, cj_star] at this
    simp only [cjM_apply]
    rw [this]
    split <;> simp
  · have := congrArg (cj b) (h.solve a i)
    simp only [map_sum, map_mul, cj_real] at this
    exact this

theorem computeRho_cj (wf : CMat n) (f : Fin n → ℝ) : computeRho (cjM b wf) f = cjM b (computeRho wf f) := by
  ext i j
  simp only [computeRho_apply, cjM_apply, map_sum, map_mul, cj_real, cj_star]

theorem computeRhoe_cj (wf : CMat n) (f e : Fin n → ℝ) :
    computeRhoe (cjM b wf) f e = cjM b (computeRhoe wf f e) := by
  rw [computeRhoe_eq, computeRhoe_eq, computeRho_cj]

theorem rowDot_cj (M N : CMat n) (i : Fin n) : rowDot (cjM b M) (cjM b N) i = cj b (rowDot M N i) := by
  simp only [rowDot, Matrix.transpose_apply, cjM_apply, map_sum, map_mul]

/-- A matrix pair that has a complete set of orthonormal states with real energies is Hermitian. -/
theorem AreStates.herm {H S : CMat n} {e : Fin n → ℝ} {wf : CMat n} (h : AreStates H S e wf) :
    H.IsHermitian ∧ S.IsHermitian := by
  obtain ⟨-, o, s⟩ := (areStates_iff H S e wfᵀ).1 (by rwa [transpose_transpose])
  set Z := wfᵀ
  set D : CMat n := diagonal fun a => (e a : ℂ) with hD
  have hDD : Dᴴ = D := by
    rw [hD, diagonal_conjTranspose]
    congr 1
    funext a
    simp
  have u1 : Z * (Zᴴ * S) = 1 := mul_eq_one_comm.1 o
  have u2 : S * (Z * Zᴴ) = 1 := by
    rw [← Matrix.mul_assoc] at u1
    exact mul_eq_one_comm.1 u1
  have u3 : (Z * Zᴴ) * S = 1 := mul_eq_one_comm.1 u2
  have hZZ : (Z * Zᴴ)ᴴ = Z * Zᴴ := by rw [conjTranspose_mul, conjTranspose_conjTranspose]
  have u4 : Sᴴ * (Z * Zᴴ) = 1 := by
    have := congrArg Matrix.conjTranspose u3
    rwa [conjTranspose_mul, hZZ, conjTranspose_one] at this
  have hS : Sᴴ = S := by
    calc Sᴴ = Sᴴ * ((Z * Zᴴ) * S) := by rw [u3, Matrix.mul_one]
      _ = S := by rw [← Matrix.mul_assoc, u4, Matrix.one_mul]
  have hH : H = S * Z * D * (Zᴴ * S) := by
    rw [← s, Matrix.mul_assoc, u1, Matrix.mul_one]
  refine ⟨?_, hS⟩
  show Hᴴ = H
  rw [hH]
  simp only [conjTranspose_mul, conjTranspose_conjTranspose, hS, hDD, Matrix.mul_assoc]

end Hotbit
