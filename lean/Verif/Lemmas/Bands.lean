import Verif.Spec.Bands
import Verif.Props.Eigen
import Verif.Lemmas.Matrices

/-!
# Lemmas on band energies
-/

namespace Hotbit

open Matrix
open scoped ComplexOrder

/-! ### Matrices depend on the point through the phases only -/

theorem getMatrices_phase (I : MatIn) (k k' : Vec) (h : ∀ n, blochPhase k n = blochPhase k' n) :
    getMatrices I k = getMatrices I k' := by
  have h1 : addImage I k = addImage I k' := by
    funext i j n hb sb st
    unfold addImage
    rw [h n]
  have h2 : imageStep I k = imageStep I k' := by
    funext i j st im
    unfold imageStep
    rw [h1]
  have h3 : pairStep I k = pairStep I k' := by
    funext ims i st j
    unfold pairStep
    rw [h2]
  have h4 : rowStep I k = rowStep I k' := by
    funext ims st i
    unfold rowStep
    rw [h3]
  unfold getMatrices
  rw [h4]

theorem blochPhase_periodic (k : Vec) (m n : Op) :
    blochPhase (fun c => k c + 2 * Real.pi * m c) n = blochPhase k n := by
  unfold blochPhase
  rw [Complex.exp_eq_exp_iff_exists_int]
  refine ⟨∑ c, n c * m c, ?_⟩
  push_cast
  simp only [Fin.sum_univ_three]
  ring

theorem blochPhase_neg (k : Vec) (n : Op) :
    blochPhase (-k) n = (starRingEnd ℂ) (blochPhase k n) := by
  unfold blochPhase
  rw [← Complex.exp_conj]
  congr 1
  rw [map_mul, Complex.conj_I, Complex.conj_ofReal]
  simp only [Pi.neg_apply, mul_neg, Finset.sum_neg_distrib]
  push_cast
  ring

/-! ### Opposite points have conjugate matrices -/

/-- The conjugate block matrix. -/
noncomputable def BMat.conj (X : BMat) : BMat := fun a b p q => (starRingEnd ℂ) (X a b p q)

/-- The four conjugate arrays. -/
noncomputable def MatSt.conj (st : MatSt) : MatSt :=
  ⟨BMat.conj st.H0, BMat.conj st.S, fun c => BMat.conj (st.dH0 c), fun c => BMat.conj (st.dS c)⟩

theorem addBlock_conj (X : BMat) (I : MatIn) (i j : ℕ) (B B' : Fin 9 → Fin 9 → ℂ)
    (h : ∀ p q, B' p q = (starRingEnd ℂ) (B p q)) :
    (BMat.conj X).addBlock I i j B' = BMat.conj (X.addBlock I i j B) := by
  funext a b p q
  unfold BMat.addBlock BMat.conj
  by_cases hc : a = i ∧ b = j ∧ p.val < I.no i ∧ q.val < I.no j
  · simp only [if_pos hc, map_add, h]
  · simp only [if_neg hc]

theorem addImage_conj (I : MatIn) (k : Vec) (i j : ℕ) (n : Op)
    (hb sb : (Fin 9 → Fin 9 → ℝ) × (Fin 3 → Fin 9 → Fin 9 → ℝ)) (st : MatSt) :
    addImage I (-k) i j n hb sb st.conj = (addImage I k i j n hb sb st).conj := by
  have hr : ∀ x : ℝ, blochPhase (-k) n * (x : ℂ) = (starRingEnd ℂ) (blochPhase k n * (x : ℂ)) := by
    intro x
    rw [blochPhase_neg, map_mul, Complex.conj_ofReal]
  unfold addImage
  simp only [MatSt.conj]
  by_cases hij : i = j
  · rw [if_neg (not_not.2 hij), if_neg (not_not.2 hij)]
    simp only [MatSt.mk.injEq]
    refine ⟨addBlock_conj _ _ _ _ _ _ fun p q => hr _, addBlock_conj _ _ _ _ _ _ fun p q => hr _,
      funext fun c => addBlock_conj _ _ _ _ _ _ fun p q => hr _,
      funext fun c => addBlock_conj _ _ _ _ _ _ fun p q => hr _⟩
  · rw [if_pos hij, if_pos hij]
    simp only [MatSt.mk.injEq]
    refine ⟨addBlock_conj _ _ _ _ _ _ fun p q => hr _, addBlock_conj _ _ _ _ _ _ fun p q => hr _,
      funext fun c => ?_, funext fun c => ?_⟩
    · rw [addBlock_conj (st.dH0 c) I i j (fun p q => blochPhase k n * ((-hb.2 c p q : ℝ) : ℂ)) _
        fun p q => hr _]
      exact addBlock_conj _ _ _ _ _ _ fun p q => by rw [hr]
    · rw [addBlock_conj (st.dS c) I i j (fun p q => blochPhase k n * ((-sb.2 c p q : ℝ) : ℂ)) _
        fun p q => hr _]
      exact addBlock_conj _ _ _ _ _ _ fun p q => by rw [hr]

theorem foldlM_hom {α β : Type} (φ : α → α) (f g : α → β → Except Exn α)
    (h : ∀ a b, g (φ a) b = (f a b).map φ) (l : List β) (a : α) :
    l.foldlM g (φ a) = (l.foldlM f a).map φ := by
  induction l generalizing a with
  | nil => rfl
  | cons b l ih =>
    rw [List.foldlM_cons, List.foldlM_cons, h]
    cases f a b with
    | error e => rfl
    | ok a' => exact ih a'

theorem imageStep_conj (I : MatIn) (k : Vec) (i j : ℕ) (st : MatSt × Bool)
    (im : (Op × Matrix (Fin 9) (Fin 9) ℝ) × ℕ) :
    imageStep I (-k) i j (st.1.conj, st.2) im
      = (imageStep I k i j st im).map fun s => (s.1.conj, s.2) := by
  unfold imageStep
  simp only
  by_cases h1 : i = j ∧ im.2 = 0
  · simp only [if_pos h1]; rfl
  by_cases h2 : norm3 (I.rij im.1.1 i j) < 0.1
  · simp only [if_neg h1, if_pos h2]; rfl
  by_cases h3 : ¬ norm3 (I.rij im.1.1 i j) > 0.1
  · simp only [if_neg h1, if_neg h2, if_pos h3]; rfl
  by_cases h4 : ¬ ((I.tab (I.sym i) (I.sym j)).r1 ≤ norm3 (I.rij im.1.1 i j) ∧
      norm3 (I.rij im.1.1 i j) ≤ (I.tab (I.sym i) (I.sym j)).r2)
  · simp only [if_neg h1, if_neg h2, if_neg h3, if_pos h4]; rfl
  simp only [if_neg h1, if_neg h2, if_neg h3, if_neg h4]
  generalize slakoPair I i j _ _ _ _ _ = x
  generalize slakoPair I i j _ _ _ _ _ = y
  cases x with
  | error e => rfl
  | ok x =>
    cases y with
    | error e => rfl
    | ok y =>
      show Except.ok _ = Except.ok _
      rw [addImage_conj]

theorem mirror_conj (X : BMat) (i j : ℕ) :
    (BMat.conj X).mirror i j = BMat.conj (X.mirror i j) := by
  funext a b p q
  unfold BMat.mirror BMat.conj
  by_cases hc : a = j ∧ b = i
  · simp only [if_pos hc]
  · simp only [if_neg hc]

theorem pairStep_conj (I : MatIn) (k : Vec) (ims : List ((Op × Matrix (Fin 9) (Fin 9) ℝ) × ℕ))
    (i : ℕ) (st : MatSt) (j : ℕ) :
    pairStep I (-k) ims i st.conj j = (pairStep I k ims i st j).map MatSt.conj := by
  unfold pairStep
  have := foldlM_hom (fun s : MatSt × Bool => (s.1.conj, s.2)) (imageStep I k i j)
    (imageStep I (-k) i j) (fun a b => imageStep_conj I k i j a b) ims (st, false)
  simp only at this
  rw [this]
  cases ims.foldlM (imageStep I k i j) (st, false) with
  | error e => rfl
  | ok r =>
    show (if i ≠ j ∧ r.2 = true then _ else _) = Except.map _ (if i ≠ j ∧ r.2 = true then _ else _)
    split_ifs
    · show Except.ok _ = Except.ok _
      simp only [MatSt.conj, mirror_conj]
    · rfl

theorem onSite_conj (I : MatIn) (i : ℕ) (st : MatSt) :
    onSite I i st.conj = (onSite I i st).conj := by
  unfold onSite MatSt.conj BMat.conj
  simp only [MatSt.mk.injEq, and_true]
  refine ⟨?_, ?_⟩ <;> funext a b p q <;> split_ifs <;> simp only [Complex.conj_ofReal]

theorem getMatrices_neg (I : MatIn) (k : Vec) :
    getMatrices I (-k) = (getMatrices I k).map MatSt.conj := by
  unfold getMatrices
  cases I.transforms with
  | error e => rfl
  | ok ims =>
    have hz : MatSt.zero = MatSt.zero.conj := by
      simp only [MatSt.zero, MatSt.conj, MatSt.mk.injEq]
      refine ⟨?_, ?_, ?_, ?_⟩ <;> funext <;> simp [BMat.conj]
    show (List.range I.N).foldlM (rowStep I (-k) ims.zipIdx) MatSt.zero
      = Except.map _ ((List.range I.N).foldlM (rowStep I k ims.zipIdx) MatSt.zero)
    conv_lhs => rw [hz]
    refine foldlM_hom MatSt.conj _ _ (fun st i => ?_) _ _
    unfold rowStep
    rw [onSite_conj]
    exact foldlM_hom MatSt.conj _ _ (fun st j => pairStep_conj I k _ i st j) _ _

/-- The complex conjugate matrix. -/
noncomputable def cconj {n : ℕ} (M : CMat n) : CMat n := M.map (starRingEnd ℂ)

theorem matricesAt_neg (I : MatIn) (k : Vec) :
    matricesAt I (-k) = (matricesAt I k).map fun M => (cconj M.1, cconj M.2) := by
  unfold matricesAt
  rw [getMatrices_neg]
  cases getMatrices I k <;> rfl

theorem areStates_conj {n : ℕ} (H S : CMat n) (e : Fin n → ℝ) (wf : CMat n)
    (h : AreStates H S e wf) : AreStates (cconj H) (cconj S) e (cconj wf) := by
  refine ⟨h.ascending, fun a b => ?_, fun a i => ?_⟩
  · have := congrArg (starRingEnd ℂ) (h.orthonormal a b)
    simp only [map_sum, map_mul] at this
    simp only [cconj, map_apply]
    rw [this]
    split_ifs <;> simp
  · have := congrArg (starRingEnd ℂ) (h.solve a i)
    simp only [map_sum, map_mul, Complex.conj_ofReal] at this
    simp only [cconj, map_apply]
    exact this

theorem cconj_cconj {n : ℕ} (M : CMat n) : cconj (cconj M) = M := by
  ext i j
  simp [cconj]

theorem scf_conj {n : ℕ} (H1 : Option (Fin n → Fin n → ℝ)) (H S : CMat n) :
    scfHamiltonian H1 (cconj H) (cconj S) = cconj (scfHamiltonian H1 H S) := by
  cases H1 with
  | none => rfl
  | some h =>
    ext i j
    simp [scfHamiltonian, cconj]

theorem isBand_neg (I : MatIn) (H1 : Option (Fin I.norb → Fin I.norb → ℝ)) (k : Vec)
    (e : Fin I.norb → ℝ) (h : IsBand I H1 k e) : IsBand I H1 (-k) e := by
  obtain ⟨H, S, wf, hm, hst⟩ := h
  refine ⟨cconj H, cconj S, cconj wf, ?_, ?_⟩
  · rw [matricesAt_neg, hm]
    rfl
  · rw [scf_conj]
    exact areStates_conj _ _ _ _ hst

theorem goodPoint_neg (I : MatIn) (k : Vec) (h : GoodPoint I k) : GoodPoint I (-k) := by
  obtain ⟨H, S, hm, hH, hS⟩ := h
  refine ⟨cconj H, cconj S, by rw [matricesAt_neg, hm]; rfl, ?_, ?_⟩
  · have : cconj H = Hᵀ := by
      ext i j
      simp only [cconj, map_apply, transpose_apply]
      exact hH.apply j i
    rw [this]
    exact hH.transpose
  · have : cconj S = Sᵀ := by
      ext i j
      simp only [cconj, map_apply, transpose_apply]
      exact hS.isHermitian.apply j i
    rw [this]
    exact hS.transpose

/-! ### Uniqueness and lists -/

theorem isBand_unique {I : MatIn} {H1 : Option (Fin I.norb → Fin I.norb → ℝ)} {k : Vec}
    {e e' : Fin I.norb → ℝ} (h : IsBand I H1 k e) (h' : IsBand I H1 k e') : e = e' := by
  obtain ⟨H, S, wf, hm, hst⟩ := h
  obtain ⟨H', S', wf', hm', hst'⟩ := h'
  rw [hm] at hm'
  cases hm'
  exact c121_unique _ _ _ _ _ _ hst hst'

theorem matricesList_ok (I : MatIn) (ks : List Vec) (h : ∀ k ∈ ks, GoodPoint I k) :
    ∃ Ms, matricesList I ks = .ok Ms ∧ (∀ M ∈ Ms, M.1.IsHermitian ∧ M.2.PosDef) ∧
      List.Forall₂ (fun k M => matricesAt I k = .ok M) ks Ms := by
  induction ks with
  | nil => exact ⟨[], rfl, by simp, .nil⟩
  | cons k ks ih =>
    obtain ⟨Ms, h1, h2, h3⟩ := ih fun k' hk' => h k' (List.mem_cons_of_mem _ hk')
    obtain ⟨H, S, hm, hH, hS⟩ := h k List.mem_cons_self
    refine ⟨(H, S) :: Ms, ?_, ?_, .cons hm h3⟩
    · unfold matricesList at h1 ⊢
      rw [List.mapM_cons, hm, h1]
      rfl
    · intro M hM
      rcases List.mem_cons.1 hM with rfl | hM
      · exact ⟨hH, hS⟩
      · exact h2 M hM

/-- At good points the solver finds the band energies. -/
theorem bands_good {I : MatIn} (hn : 2 ≤ I.norb) (L : Lapack I.norb) (hL : L.Ok) (tol : ℝ)
    (ht : 0 ≤ tol) (H1 : Option (Fin I.norb → Fin I.norb → ℝ)) (h1 : SymmH1 H1) (ks : List Vec)
    (h : ∀ k ∈ ks, GoodPoint I k) :
    ∃ Ms r, matricesList I ks = .ok Ms ∧ solveAll L tol H1 Ms = .ok r ∧
      List.Forall₂ (IsBand I H1) ks (r.map Prod.fst) := by
  obtain ⟨Ms, hm, hg, hf⟩ := matricesList_ok I ks h
  obtain ⟨r, hr, hs⟩ := c121_all hn L hL tol ht H1 h1 Ms hg
  refine ⟨Ms, r, hm, hr, ?_⟩
  clear hm hr hg h
  induction hf generalizing r with
  | nil => cases hs; exact .nil
  | cons hk _ ih =>
    cases hs with
    | cons ha hb => exact .cons ⟨_, _, _, hk, ha⟩ (ih _ hb)

theorem forall2_unique {α β : Type} {R : α → β → Prop} (hR : ∀ a b b', R a b → R a b' → b = b')
    {l : List α} {r r' : List β} (h : List.Forall₂ R l r) (h' : List.Forall₂ R l r') : r = r' := by
  induction h generalizing r' with
  | nil => cases h'; rfl
  | cons ha _ ih =>
    cases h' with
    | cons ha' hb' => rw [hR _ _ _ ha ha', ih hb']

end Hotbit
