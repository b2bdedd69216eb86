import Verif.Lemmas.Unfold
import Mathlib.Data.Fin.Tuple.Sort

/-!
# The states of a repeated structure
-/

set_option linter.unusedSimpArgs false

namespace Hotbit

open Matrix

theorem SameOrbitals.diag {I J : MatIn} {M : ℕ} {ix : ℕ → ℕ → ℕ} (O : SameOrbitals I J M ix) (K : Comp) {u : ℕ} (hu : u < M)
    {i : ℕ} (hi : i < I.N) : K.diag J (ix u i) = K.diag I i := by
  cases K
  · exact O.eps u hu i hi
  · show (fun _ : Fin 9 => 1 + J.seps) = fun _ => 1 + I.seps
    rw [O.seps]

theorem SameOrbitals.shellK {I J : MatIn} {M : ℕ} {ix : ℕ → ℕ → ℕ} (O : SameOrbitals I J M ix) (K : Comp) {i : ℕ} (hi : i < I.N) :
    ShellDiag (K.diag I i) (I.no i) := by
  cases K
  · exact O.shell i hi
  · intro a b _ _ _; rfl

theorem copy_inj {N u v i j : ℕ} (hi : i < N) (hj : j < N) : u * N + i = v * N + j ↔ u = v ∧ i = j := by
  constructor
  · intro h
    have h3 : i = j := by
      have := congrArg (· % N) h
      simpa [Nat.add_mod, Nat.mod_eq_of_lt hi, Nat.mod_eq_of_lt hj] using this
    subst h3
    exact ⟨Nat.eq_of_mul_eq_mul_right (by omega) (by omega : u * N = v * N), rfl⟩
  · rintro ⟨rfl, rfl⟩; rfl

theorem copy_lt {M N u i : ℕ} (hu : u < M) (hi : i < N) : u * N + i < M * N :=
  calc u * N + i < u * N + N := by omega
    _ = (u + 1) * N := by ring
    _ ≤ M * N := Nat.mul_le_mul_right _ hu

theorem copies_block (M N : ℕ) : Copies M N fun u i => u * N + i :=
  ⟨fun _ hu _ hi => copy_lt hu hi, fun _ _ _ hi _ _ _ hj h => (copy_inj hi hj).1 h⟩

/-- The blocks of the repeated structure applied to a Bloch wave. -/
theorem get_unfold {I J : MatIn} {M : ℕ} {ix : ℕ → ℕ → ℕ} {R : ℕ → ℕ → Mat} {comb : ℕ → ℕ → ℕ → ℕ → Op → Op} {rng : ℕ → ℕ → ℝ}
    (G : Repeats I.geom J.geom M ix R comb rng) (O : SameOrbitals I J M ix)
    (hrng : ∀ i < I.N, ∀ j < I.N, (I.tab (I.sym i) (I.sym j)).r2 ≤ rng i j) {k κ : Vec} {φ : ℕ → ℕ → ℂ}
    (hφ : ∀ u < M, ∀ v < M, ∀ n ∈ J.ntuples, ∀ i < I.N, ∀ j < I.N, φ v j * blochPhase k n = φ u i * blochPhase κ (comb u i v j n))
    {σ τ : Op → Op} (gI : GoodMat I κ σ) (gJ : GoodMat J k τ) {st st' : MatSt}
    (h : getMatrices I κ = .ok st) (h' : getMatrices J k = .ok st') (K : Comp) {u : ℕ} (hu : u < M)
    {i j : ℕ} (hi : i < I.N) (hj : j < I.N) {p q : Fin 9} (hp : p.val < I.no i) (hq : q.val < I.no j) :
    ∑ v ∈ Finset.range M, φ v j * ∑ b, (if b.val < I.no j then K.get st' (ix u i) (ix v j) p b
        * ((orbRep (R v j) b q : ℝ) : ℂ) else 0)
      = φ u i * ∑ a, (if a.val < I.no i then ((orbRep (R u i) p a : ℝ) : ℂ) * K.get st i j a q else 0) := by
  have hN : J.N = M * I.N := G.N
  have e1 : ∀ v ∈ Finset.range M, (∑ b, (if b.val < I.no j then K.get st' (ix u i) (ix v j) p b
        * ((orbRep (R v j) b q : ℝ) : ℂ) else 0))
      = (if u = v ∧ i = j then ((K.diag I i p : ℝ) : ℂ) * ((orbRep (R u i) p q : ℝ) : ℂ) else 0)
        + ∑ b, blochSum J K.f k (ix u i) (ix v j) p b * ((orbRep (R v j) b q : ℝ) : ℂ) := by
    intro v hv
    rw [Finset.mem_range] at hv
    have e : ∀ b : Fin 9, (if b.val < I.no j then K.get st' (ix u i) (ix v j) p b
        * ((orbRep (R v j) b q : ℝ) : ℂ) else 0)
        = (if b = p then (if u = v ∧ i = j then ((K.diag I i p : ℝ) : ℂ) * ((orbRep (R u i) p q : ℝ) : ℂ) else 0)
            else 0)
          + blochSum J K.f k (ix u i) (ix v j) p b * ((orbRep (R v j) b q : ℝ) : ℂ) := by
      intro b
      by_cases hb : b.val < I.no j
      · rw [if_pos hb, elements_all h' gJ.id gJ.follow gJ.mirror gJ.tables K
          (by rw [hN]; exact G.copies.lt u hu i hi) (by rw [hN]; exact G.copies.lt v hv j hj)
          (by rw [O.no u hu i hi]; exact hp) (by rw [O.no v hv j hj]; exact hb), add_mul, O.diag K hu hi]
        congr 1
        have hc := G.copies.iff hu hi hv hj
        by_cases hbp : b = p
        · subst hbp
          rw [if_pos rfl]
          by_cases huv : u = v ∧ i = j
          · rw [if_pos ⟨hc.2 huv, rfl⟩, if_pos huv, huv.1, huv.2]
          · rw [if_neg fun h => huv (hc.1 h.1), if_neg huv, zero_mul]
        · rw [if_neg hbp, if_neg fun h => hbp h.2.symm, zero_mul]
      · rw [if_neg hb, orbRep_shell' (O.valid j hj) hb hq]
        rw [Complex.ofReal_zero, mul_zero, add_zero]
        split
        · rename_i hbp
          subst hbp
          rw [if_neg]
          rintro ⟨-, rfl⟩
          exact hb hp
        · rfl
    rw [Finset.sum_congr rfl fun b _ => e b, Finset.sum_add_distrib, Finset.sum_ite_eq' Finset.univ p,
      if_pos (Finset.mem_univ _)]
  have e2 : ∀ a : Fin 9, (if a.val < I.no i then ((orbRep (R u i) p a : ℝ) : ℂ) * K.get st i j a q else 0)
      = (if a = q then (if i = j then ((K.diag I i p : ℝ) : ℂ) * ((orbRep (R u i) p q : ℝ) : ℂ) else 0) else 0)
        + ((orbRep (R u i) p a : ℝ) : ℂ) * blochSum I K.f κ i j a q := by
    intro a
    by_cases ha : a.val < I.no i
    · rw [if_pos ha, elements_all h gI.id gI.follow gI.mirror gI.tables K hi hj ha hq, mul_add]
      congr 1
      by_cases haq : a = q
      · subst haq
        rw [if_pos rfl]
        by_cases hij : i = j
        · rw [if_pos ⟨hij, rfl⟩, if_pos hij]
          by_cases hl : orbL p = orbL a
          · rw [O.shellK K hi p a hp ha hl, mul_comm]
          · rw [orbRep_off _ _ _ hl, Complex.ofReal_zero, zero_mul, mul_zero]
        · rw [if_neg fun h => hij h.1, if_neg hij, mul_zero]
      · rw [if_neg haq, if_neg fun h => haq h.2, mul_zero]
    · rw [if_neg ha, orbRep_shell (O.valid i hi) hp ha, Complex.ofReal_zero, zero_mul, add_zero]
      split
      · rename_i haq
        subst haq
        rw [if_neg]
        rintro rfl
        exact ha hq
      · rfl
  rw [Finset.sum_congr rfl fun v hv => by rw [e1 v hv, mul_add], Finset.sum_add_distrib,
    blochSum_unfold G O hrng hφ K.f hu hi hj p q, Finset.sum_congr rfl fun a _ => e2 a,
    Finset.sum_add_distrib, mul_add, Finset.sum_ite_eq' Finset.univ q, if_pos (Finset.mem_univ _)]
  congr 1
  rw [Finset.sum_eq_single u]
  · by_cases hij : i = j
    · rw [if_pos ⟨rfl, hij⟩, if_pos hij, hij]
    · rw [if_neg fun h => hij h.2, if_neg hij, mul_zero, mul_zero]
  · intro v _ hv
    rw [if_neg fun h => hv h.1.symm, mul_zero]
  · intro hn
    exact absurd (Finset.mem_range.2 hu) hn

/-- The orbitals of the repeated structure are the orbitals of the copies. -/
theorem orb_equiv {n n' M N : ℕ} {ix : ℕ → ℕ → ℕ} (C : Copies M N ix)
    {atom : Fin n → ℕ} {num : Fin n → Fin 9} {no : ℕ → ℕ}
    {atom' : Fin n' → ℕ} {num' : Fin n' → Fin 9} {no' : ℕ → ℕ} (L : OrbLay atom num no N)
    (L' : OrbLay atom' num' no' (M * N)) (hno : ∀ u < M, ∀ i < N, no' (ix u i) = no i) :
    ∃ g : Fin M × Fin n ≃ Fin n', ∀ u x, atom' (g (u, x)) = ix u (atom x) ∧ num' (g (u, x)) = num x := by
  have ex : ∀ c : Fin M × Fin n, ∃ y, atom' y = ix c.1 (atom c.2) ∧ num' y = num c.2 := by
    rintro ⟨u, x⟩
    exact L'.surj _ (C.lt u u.2 _ (L.lt x)) _ (by rw [hno u u.2 _ (L.lt x)]; exact L.num_lt x)
  choose g hg using ex
  have hinj : Function.Injective g := by
    rintro ⟨u, x⟩ ⟨v, y⟩ h
    have h1 := hg (u, x)
    have h2 := hg (v, y)
    rw [h] at h1
    have h3 := C.inj _ u.2 _ (L.lt x) _ v.2 _ (L.lt y) (h1.1.symm.trans h2.1)
    rw [Prod.mk.injEq]
    exact ⟨Fin.ext h3.1, L.inj x y h3.2 (h1.2.symm.trans h2.2)⟩
  have hsurj : Function.Surjective g := by
    intro y
    obtain ⟨u, hu, i, hi, hd⟩ := C.split (L'.lt y)
    have hl := L'.num_lt y
    rw [← hd, hno _ hu _ hi] at hl
    obtain ⟨x, h1, h2⟩ := L.surj _ hi _ hl
    refine ⟨(⟨u, hu⟩, x), ?_⟩
    have h3 := hg (⟨u, hu⟩, x)
    refine L'.inj _ _ ?_ ?_
    · rw [h3.1]; simp only [h1]; exact hd
    · rw [h3.2]; exact h2
  exact ⟨Equiv.ofBijective g ⟨hinj, hsurj⟩, fun u x => hg (u, x)⟩

/-- The orbitals of each atom turned by its own matrix and multiplied by its own phase. -/
noncomputable def atomRep {n : ℕ} (atom : Fin n → ℕ) (num : Fin n → Fin 9) (R : ℕ → Mat) (φ : ℕ → ℂ) : CMat n :=
  Matrix.of fun x y => φ (atom x) * bigRep atom num (R (atom x)) x y

section AtomRep

variable {n N : ℕ} {atom : Fin n → ℕ} {num : Fin n → Fin 9} {no : ℕ → ℕ} {R : ℕ → Mat} {φ ψ : ℕ → ℂ}

theorem OrbLay.atomRep_orth (L : OrbLay atom num no N) (hR : ∀ i < N, (R i)ᵀ * R i = 1) :
    (atomRep atom num R φ)ᴴ * atomRep atom num R ψ
      = diagonal fun y => starRingEnd ℂ (φ (atom y)) * ψ (atom y) := by
  ext y z
  have h := congrFun (congrFun (L.unitary' (hR _ (L.lt y))) y) z
  rw [Matrix.mul_apply] at h ⊢
  have e : ∀ x, (atomRep atom num R φ)ᴴ y x * atomRep atom num R ψ x z
      = (starRingEnd ℂ (φ (atom y)) * ψ (atom y)) *
        ((bigRep atom num (R (atom y)))ᴴ y x * bigRep atom num (R (atom y)) x z) := by
    intro x
    rw [conjTranspose_apply, conjTranspose_apply]
    unfold atomRep
    rw [Matrix.of_apply, Matrix.of_apply, star_mul']
    by_cases hx : atom x = atom y
    · rw [hx, ← starRingEnd_apply, ← starRingEnd_apply]; ring
    · have h0 : ∀ R', bigRep atom num R' x y = 0 := fun R' => by
        unfold bigRep; rw [Matrix.of_apply, if_neg hx]
      rw [h0, h0]; simp
  rw [Finset.sum_congr rfl fun x _ => e x, ← Finset.mul_sum, h, Matrix.diagonal_apply, Matrix.one_apply]
  split <;> simp

theorem OrbLay.atomRep_trace (L : OrbLay atom num no N) {i : ℕ} (hi : i < N) (hR : (R i)ᵀ * R i = 1)
    (hφ : starRingEnd ℂ (φ i) * φ i = 1) (X : CMat n) :
    (∑ x, if atom x = i then (atomRep atom num R φ * X * (atomRep atom num R φ)ᴴ) x x else 0)
      = ∑ x, if atom x = i then X x x else 0 := by
  rw [← atom_trace (L.unitary' hR) X i]
  refine Finset.sum_congr rfl fun x _ => ?_
  by_cases hx : atom x = i
  · rw [if_pos hx, if_pos hx]
    simp only [Matrix.mul_apply, Finset.sum_mul]
    refine Finset.sum_congr rfl fun y _ => Finset.sum_congr rfl fun z _ => ?_
    rw [conjTranspose_apply, conjTranspose_apply]
    unfold atomRep
    rw [Matrix.of_apply, Matrix.of_apply, star_mul', hx]
    simp only [← starRingEnd_apply]
    linear_combination (bigRep atom num (R i) x z * X z y * (starRingEnd ℂ) (bigRep atom num (R i) x y)) * hφ
  · rw [if_neg hx, if_neg hx]

end AtomRep

section Bloch

variable {n n' M : ℕ} (g : Fin M × Fin n ≃ Fin n') (D D' : ℕ → CMat n)

/-- The map from states of the original to Bloch waves of the repeated structure. -/
noncomputable def blochMap : Matrix (Fin n') (Fin n) ℂ :=
  Matrix.of fun x y => D (g.symm x).1 (g.symm x).2 y

theorem blochMap_apply (u : Fin M) (x y : Fin n) : blochMap g D (g (u, x)) y = D u x y := by
  unfold blochMap
  rw [Matrix.of_apply, Equiv.symm_apply_apply]

theorem sum_copies {β : Type} [AddCommMonoid β] (F : Fin n' → β) :
    ∑ x, F x = ∑ u : Fin M, ∑ z, F (g (u, z)) := by
  rw [← Equiv.sum_comp g, Fintype.sum_prod_type]

theorem blochMap_orth : (blochMap g D)ᴴ * blochMap g D' = ∑ u ∈ Finset.range M, (D u)ᴴ * D' u := by
  ext y z
  rw [Matrix.mul_apply, sum_copies g, Finset.sum_range, Matrix.sum_apply]
  refine Finset.sum_congr rfl fun u _ => ?_
  rw [Matrix.mul_apply]
  refine Finset.sum_congr rfl fun x _ => ?_
  rw [Matrix.conjTranspose_apply, Matrix.conjTranspose_apply, blochMap_apply, blochMap_apply]

theorem blochMap_diag (X : CMat n) (u : Fin M) (x : Fin n) :
    (blochMap g D * X * (blochMap g D)ᴴ) (g (u, x)) (g (u, x)) = (D u * X * (D u)ᴴ) x x := by
  simp only [Matrix.mul_apply, Finset.sum_mul]
  refine Finset.sum_congr rfl fun y _ => Finset.sum_congr rfl fun z _ => ?_
  rw [Matrix.conjTranspose_apply, Matrix.conjTranspose_apply, blochMap_apply, blochMap_apply]

end Bloch

section States

variable {n n' M : ℕ} {U : Fin M → Matrix (Fin n') (Fin n) ℂ}

/-- The Bloch waves of all states of the original are the states of the repeated structure; the density
matrix of any occupation that depends on the energy is the sum of those of the original. -/
theorem bloch_states (hM : 0 < M) (g : Fin M × Fin n ≃ Fin n')
    (hU : ∀ c d, (U c)ᴴ * U d = (if c = d then (M : ℂ) else 0) • 1) {H' S' : CMat n'}
    {H S : Fin M → CMat n} (hH : ∀ c, H' * U c = U c * H c) (hS : ∀ c, S' * U c = U c * S c)
    {e : Fin M → Fin n → ℝ} {wf : Fin M → CMat n} (h : ∀ c, AreStates (H c) (S c) (e c) (wf c)) :
    ∃ e' wf', AreStates H' S' e' wf' ∧
      (∃ τ : Fin n' ≃ Fin M × Fin n, ∀ b, e' b = e (τ b).1 (τ b).2) ∧
      ∀ F : ℝ → ℝ, computeRho wf' (fun b => F (e' b))
        = ((M : ℂ)⁻¹) • ∑ c, U c * computeRho (wf c) (fun a => F (e c a)) * (U c)ᴴ := by
  set E : Fin n' → ℝ := fun x => e (g.symm x).1 (g.symm x).2 with hE
  set τ : Fin n' ≃ Fin M × Fin n := (Tuple.sort E).trans g.symm with hτ
  have hMr : (0 : ℝ) < M := by exact_mod_cast hM
  set s : ℂ := (((Real.sqrt M)⁻¹ : ℝ) : ℂ) with hs
  have hss : s * s = (M : ℂ)⁻¹ := by
    rw [hs, ← Complex.ofReal_mul, ← mul_inv, Real.mul_self_sqrt hMr.le]
    push_cast; rfl
  have hcs : star s = s := by rw [hs]; exact Complex.conj_ofReal _
  have hMc : (M : ℂ) ≠ 0 := by exact_mod_cast hM.ne'
  set Wc : Fin M → Matrix (Fin n') (Fin n) ℂ := fun c => s • (U c * (wf c)ᵀ) with hWc
  set W : Matrix (Fin n') (Fin M × Fin n) ℂ := Matrix.of fun x ca => Wc ca.1 x ca.2 with hW
  have k := fun c => (areStates_iff (H c) (S c) (e c) (wf c)ᵀ).1 (by rw [transpose_transpose]; exact h c)
  have o1 : Wᴴ * S' * W = 1 := by
    ext ⟨c, a⟩ ⟨d, b⟩
    have e1 : (Wᴴ * S' * W) (c, a) (d, b) = ((Wc c)ᴴ * S' * Wc d) a b := by
      simp only [Matrix.mul_apply]; rfl
    have e2 : (Wc c)ᴴ * S' * Wc d = (M : ℂ)⁻¹ • ((wf c)ᵀᴴ * ((U c)ᴴ * U d) * S d * (wf d)ᵀ) := by
      simp only [hWc]
      rw [conjTranspose_smul, conjTranspose_mul, hcs, Matrix.smul_mul, Matrix.smul_mul, Matrix.mul_smul,
        smul_smul, hss]
      congr 1
      calc (wf c)ᵀᴴ * (U c)ᴴ * S' * (U d * (wf d)ᵀ) = (wf c)ᵀᴴ * (U c)ᴴ * (S' * U d) * (wf d)ᵀ := by
            simp only [Matrix.mul_assoc]
        _ = _ := by rw [hS]; simp only [Matrix.mul_assoc]
    rw [e1, e2, hU]
    by_cases hcd : c = d
    · subst hcd
      rw [if_pos rfl, Matrix.mul_smul, Matrix.mul_one, Matrix.smul_mul, Matrix.smul_mul, (k c).2.1, smul_smul,
        inv_mul_cancel₀ hMc, one_smul, Matrix.one_apply, Matrix.one_apply]
      simp
    · rw [if_neg hcd, zero_smul, Matrix.mul_zero, Matrix.zero_mul, Matrix.zero_mul, smul_zero,
        Matrix.zero_apply, Matrix.one_apply, if_neg]
      intro h
      exact hcd (congrArg Prod.fst h)
  have o2 : H' * W = S' * W * diagonal fun ca : Fin M × Fin n => (e ca.1 ca.2 : ℂ) := by
    ext x ⟨c, a⟩
    rw [Matrix.mul_diagonal]
    have e1 : (H' * W) x (c, a) = (H' * Wc c) x a := by simp only [Matrix.mul_apply]; rfl
    have e2 : (S' * W) x (c, a) = (S' * Wc c) x a := by simp only [Matrix.mul_apply]; rfl
    have e3 : H' * Wc c = S' * Wc c * diagonal fun a => (e c a : ℂ) := by
      simp only [hWc]
      rw [Matrix.mul_smul, Matrix.mul_smul, ← Matrix.mul_assoc, ← Matrix.mul_assoc, hH, hS,
        Matrix.mul_assoc, (k c).2.2, Matrix.smul_mul]
      simp only [Matrix.mul_assoc]
    rw [e1, e2, e3, Matrix.mul_diagonal]
  set Z : CMat n' := W.submatrix id τ with hZ
  refine ⟨fun b => e (τ b).1 (τ b).2, Zᵀ, ?_, ⟨τ, fun _ => rfl⟩, ?_⟩
  · rw [areStates_iff]
    refine ⟨?_, ?_, ?_⟩
    · exact Tuple.monotone_sort E
    · have : Zᴴ * S' * Z = (Wᴴ * S' * W).submatrix τ τ := by
        ext a b
        simp only [Matrix.mul_apply, Matrix.submatrix_apply]; rfl
      rw [this, o1, Matrix.submatrix_one_equiv]
    · ext x b
      have e1 : (H' * Z) x b = (H' * W) x (τ b) := by simp only [Matrix.mul_apply]; rfl
      have e2 : (S' * Z) x b = (S' * W) x (τ b) := by simp only [Matrix.mul_apply]; rfl
      rw [e1, o2, Matrix.mul_diagonal, Matrix.mul_diagonal, e2]
  · intro F
    ext x y
    have e1 : computeRho Zᵀ (fun b => F (e (τ b).1 (τ b).2)) x y
        = ∑ ca : Fin M × Fin n, W x ca * ((F (e ca.1 ca.2) : ℂ) * starRingEnd ℂ (W y ca)) := by
      rw [← Equiv.sum_comp τ]
      unfold computeRho
      rw [Matrix.mul_apply]
      rfl
    rw [e1, Fintype.sum_prod_type, Matrix.smul_apply, Matrix.sum_apply, smul_eq_mul, Finset.mul_sum]
    refine Finset.sum_congr rfl fun c _ => ?_
    have e2 : (M : ℂ)⁻¹ * (U c * computeRho (wf c) (fun a => F (e c a)) * (U c)ᴴ) x y
        = ((Wc c) * (diagonal fun a => (F (e c a) : ℂ)) * (Wc c)ᴴ) x y := by
      rw [← smul_eq_mul, ← Matrix.smul_apply]
      congr 1
      simp only [hWc]
      rw [conjTranspose_smul, hcs, Matrix.mul_smul, Matrix.smul_mul, Matrix.smul_mul, smul_smul, hss,
        conjTranspose_mul]
      congr 1
      have : computeRho (wf c) (fun a => F (e c a)) = (wf c)ᵀ * (diagonal fun a => (F (e c a) : ℂ)) * (wf c)ᵀᴴ := by
        unfold computeRho
        rw [Matrix.mul_assoc]
        congr 1
        ext a j
        rw [Matrix.diagonal_mul]
        rfl
      rw [this]
      simp only [Matrix.mul_assoc]
    rw [e2, Matrix.mul_apply]
    refine Finset.sum_congr rfl fun a _ => ?_
    rw [Matrix.mul_diagonal, Matrix.conjTranspose_apply, ← starRingEnd_apply]
    simp only [hW, Matrix.of_apply]
    ring

/-- Sums over the states of the repeated structure. -/
theorem sum_folded {e' : Fin n' → ℝ} {e : Fin M → Fin n → ℝ} {τ : Fin n' ≃ Fin M × Fin n}
    (h : ∀ b, e' b = e (τ b).1 (τ b).2) (F : ℝ → ℝ) : ∑ b, F (e' b) = ∑ c, ∑ a, F (e c a) := by
  simp only [h]
  rw [Equiv.sum_comp τ (fun ca : Fin M × Fin n => F (e ca.1 ca.2)), Fintype.sum_prod_type]

/-- Products of the density matrix with a matrix that acts on Bloch waves. -/
theorem rho_mul {X' : CMat n'} {X ρ : Fin M → CMat n} {ρ' : CMat n'} (hX : ∀ c, X' * U c = U c * X c)
    (hX' : X'.IsHermitian) (hXc : ∀ c, (X c).IsHermitian)
    (hρ : ρ' = ((M : ℂ)⁻¹) • ∑ c, U c * ρ c * (U c)ᴴ) :
    ρ' * X' = ((M : ℂ)⁻¹) • ∑ c, U c * (ρ c * X c) * (U c)ᴴ := by
  rw [hρ, Matrix.smul_mul, Finset.sum_mul]
  congr 1
  refine Finset.sum_congr rfl fun c _ => ?_
  have : (U c)ᴴ * X' = X c * (U c)ᴴ := by
    have := congrArg conjTranspose (hX c)
    rw [conjTranspose_mul, conjTranspose_mul, hX', hXc c] at this
    exact this
  rw [Matrix.mul_assoc, this]
  simp only [Matrix.mul_assoc]

end States

end Hotbit
