import Verif.Lemmas.TurningMatrices
import Verif.Props.Invariance

/-!
# Slow turning: the forces
-/

set_option linter.unusedSimpArgs false

namespace Hotbit

open Matrix
open scoped ComplexOrder

variable {W : Mat}

/-! ### A trace -/

/-- The band-structure forces along a motion that changes the matrices like a change of basis. -/
theorem force_trace {n : ℕ} (v : Fin n → Fin 3 → ℝ) {D E : Fin 3 → CMat n} {ρ ρe H S L : CMat n}
    (hD : ∀ x y, (∑ c, (v x c : ℂ) * D c x y) + (∑ c, (v y c : ℂ) * starRingEnd ℂ (D c y x))
      = (L * H - H * L) x y)
    (hE : ∀ x y, (∑ c, (v x c : ℂ) * E c x y) + (∑ c, (v y c : ℂ) * starRingEnd ℂ (E c y x))
      = (L * S - S * L) x y)
    (hρ : ρ.IsHermitian) (hρe : ρe.IsHermitian) (hH : H.IsHermitian) (hS : S.IsHermitian)
    (hs : H * ρ = S * ρe) :
    (∑ x, ∑ c, (v x c : ℂ) * (D c * ρ - E c * ρe) x x).re = 0 := by
  have tr : ∀ {D : Fin 3 → CMat n} {ρ K : CMat n}, ρ.IsHermitian →
      (∀ x y, (∑ c, (v x c : ℂ) * D c x y) + (∑ c, (v y c : ℂ) * starRingEnd ℂ (D c y x)) = K x y) →
      (2 * (∑ x, ∑ c, (v x c : ℂ) * (D c * ρ) x x).re : ℝ) = (K * ρ).trace.re := by
    intro D ρ K hρ hK
    set M : CMat n := Matrix.of fun x y => ∑ c, (v x c : ℂ) * D c x y with hM
    have e1 : (∑ x, ∑ c, (v x c : ℂ) * (D c * ρ) x x) = (M * ρ).trace := by
      unfold Matrix.trace
      refine Finset.sum_congr rfl fun x _ => ?_
      simp only [Matrix.diag_apply, Matrix.mul_apply, hM, Matrix.of_apply, Finset.sum_mul, Finset.mul_sum]
      rw [Finset.sum_comm]
      exact Finset.sum_congr rfl fun c _ => Finset.sum_congr rfl fun y _ => by ring
    have e2 : K = M + Mᴴ := by
      ext x y
      rw [← hK, Matrix.add_apply, Matrix.conjTranspose_apply, hM, Matrix.of_apply, Matrix.of_apply]
      congr 1
      rw [← starRingEnd_apply, map_sum]
      exact Finset.sum_congr rfl fun c _ => by rw [map_mul, Complex.conj_ofReal]
    have e3 : (Mᴴ * ρ).trace = starRingEnd ℂ (M * ρ).trace := by
      rw [starRingEnd_apply, ← Matrix.trace_conjTranspose, Matrix.conjTranspose_mul, hρ, Matrix.trace_mul_comm]
    rw [e1, e2, Matrix.add_mul, Matrix.trace_add, e3, Complex.add_re, Complex.conj_re]
    ring
  have h1 := tr hρ hD
  have h2 := tr hρe hE
  have h3 : ρ * H = ρe * S := by
    have := congrArg Matrix.conjTranspose hs
    rwa [Matrix.conjTranspose_mul, Matrix.conjTranspose_mul, hρ, hH, hρe, hS] at this
  have h4 : ((L * H - H * L) * ρ).trace = ((L * S - S * L) * ρe).trace := by
    rw [Matrix.sub_mul, Matrix.sub_mul, Matrix.trace_sub, Matrix.trace_sub]
    have a1 : (L * H * ρ).trace = (L * S * ρe).trace := by rw [Matrix.mul_assoc, hs, Matrix.mul_assoc]
    have a2 : (H * L * ρ).trace = (S * L * ρe).trace := by
      rw [Matrix.trace_mul_comm, ← Matrix.mul_assoc, h3, Matrix.mul_assoc, Matrix.trace_mul_comm]
    rw [a1, a2]
  have h5 : (∑ x, ∑ c, (v x c : ℂ) * (D c * ρ - E c * ρe) x x)
      = (∑ x, ∑ c, (v x c : ℂ) * (D c * ρ) x x) - ∑ x, ∑ c, (v x c : ℂ) * (E c * ρe) x x := by
    simp only [Matrix.sub_apply, mul_sub, Finset.sum_sub_distrib]
  rw [h5, Complex.sub_re]
  rw [h4] at h1
  linarith

/-- The density matrices belong together. -/
theorem states_rho {n : ℕ} {H S : CMat n} {e : Fin n → ℝ} {wf : CMat n} (h : AreStates H S e wf)
    (f : Fin n → ℝ) : H * computeRho wf f = S * computeRhoe wf f e := by
  have h1 : H * wfᵀ = S * wfᵀ * Matrix.diagonal fun a => (e a : ℂ) := by
    ext i a
    rw [Matrix.mul_diagonal, Matrix.mul_apply, Matrix.mul_apply, mul_comm]
    exact h.solve a i
  unfold computeRho computeRhoe
  rw [← Matrix.mul_assoc, h1, Matrix.mul_assoc (S * wfᵀ), ← Matrix.mul_assoc S]
  congr 1
  ext a j
  rw [Matrix.diagonal_mul, Matrix.of_apply, Matrix.of_apply, mul_assoc]

/-! ### All orbitals -/

/-- All orbitals turning. -/
noncomputable def bigGen {n : ℕ} (atom : Fin n → ℕ) (num : Fin n → Fin 9) (W : Mat) : CMat n :=
  Matrix.of fun x y => if atom x = atom y then ((orbGen W (num x) (num y) : ℝ) : ℂ) else 0

theorem OrbLay.flat_gen {n : ℕ} {atom : Fin n → ℕ} {num : Fin n → Fin 9} {no : ℕ → ℕ} {N : ℕ}
    (L : OrbLay atom num no N) (hW : Wᵀ = -W) (X : BMat) (x y : Fin n) :
    gen W (X (atom x) (atom y)) (num x) (num y)
      = (bigGen atom num W * (Matrix.of fun x y => X (atom x) (atom y) (num x) (num y) : CMat n)
        - (Matrix.of fun x y => X (atom x) (atom y) (num x) (num y) : CMat n) * bigGen atom num W) x y := by
  have hL : ∀ p q, orbGen W p q = -orbGen W q p := by
    intro p q
    have := congrFun (congrFun (orbGen_skew hW) q) p
    rwa [Matrix.transpose_apply, Matrix.neg_apply] at this
  unfold gen
  rw [Matrix.sub_apply, Matrix.mul_apply, Matrix.mul_apply, sub_eq_add_neg]
  congr 1
  · rw [← L.sum_atom (L.lt x) (fun a => ((orbGen W (num x) a : ℝ) : ℂ) * X (atom x) (atom y) a (num y))
      fun a ha => by rw [orbGen_shell W (L.valid _ (L.lt x)) (L.num_lt x) ha]; simp]
    refine Finset.sum_congr rfl fun z _ => ?_
    unfold bigGen
    rw [Matrix.of_apply, Matrix.of_apply]
    by_cases hz : atom z = atom x
    · rw [if_pos hz, if_pos hz.symm, hz]
    · rw [if_neg hz, if_neg (fun e => hz e.symm), zero_mul]
  · rw [← L.sum_atom (L.lt y) (fun b => ((orbGen W (num y) b : ℝ) : ℂ) * X (atom x) (atom y) (num x) b)
      fun a ha => by rw [orbGen_shell W (L.valid _ (L.lt y)) (L.num_lt y) ha]; simp, ← Finset.sum_neg_distrib]
    refine Finset.sum_congr rfl fun z _ => ?_
    unfold bigGen
    rw [Matrix.of_apply, Matrix.of_apply]
    by_cases hz : atom z = atom y
    · rw [if_pos hz, if_pos hz, hz, hL (num y)]
      push_cast
      ring
    · rw [if_neg hz, if_neg hz, mul_zero, neg_zero]

/-- Multiplying elements by a number that depends only on the atoms. -/
theorem hadamard_gen {n : ℕ} {atom : Fin n → ℕ} {num : Fin n → Fin 9} (h : Fin n → Fin n → ℂ)
    (hh : ∀ x x' y y', atom x = atom x' → atom y = atom y' → h x y = h x' y') (M : CMat n) :
    (Matrix.of fun x y => h x y * (bigGen atom num W * M - M * bigGen atom num W) x y : CMat n)
      = bigGen atom num W * (Matrix.of fun x y => h x y * M x y : CMat n)
        - (Matrix.of fun x y => h x y * M x y : CMat n) * bigGen atom num W := by
  ext x y
  simp only [Matrix.of_apply, Matrix.sub_apply, Matrix.mul_apply, mul_sub, Finset.mul_sum]
  congr 1
  · refine Finset.sum_congr rfl fun z _ => ?_
    unfold bigGen
    rw [Matrix.of_apply]
    by_cases hz : atom x = atom z
    · rw [if_pos hz, hh x z y y hz rfl]; ring
    · rw [if_neg hz]; ring
  · refine Finset.sum_congr rfl fun z _ => ?_
    unfold bigGen
    rw [Matrix.of_apply]
    by_cases hz : atom z = atom y
    · rw [if_pos hz, hh x x y z rfl hz.symm]; ring
    · rw [if_neg hz]; ring

/-! ### Structures that can turn -/

/-- Turning all atoms with angular velocity `W` turns their images along. -/
structure TurnsFreely (A : Atoms) (W : Mat) : Prop where
  skew : Wᵀ = -W
  images : ∀ n, Legal A n → ∀ x, W *ᵥ A.rawTransform x n = A.rawRotation n *ᵥ (W *ᵥ x)

theorem TurnsFreely.comm {A : Atoms} (h : TurnsFreely A W) (hA : A.ctype ≠ .twistAndTurn) {n : Op}
    (hn : Legal A n) : W * A.rawRotation n = A.rawRotation n * W := by
  have : ∀ x, (W * A.rawRotation n) *ᵥ x = (A.rawRotation n * W) *ᵥ x := by
    intro x
    have h1 := rawTransform_affine A hA n hn x 0
    rw [sub_zero] at h1
    rw [← Matrix.mulVec_mulVec, ← Matrix.mulVec_mulVec, ← h1, Matrix.mulVec_sub, h.images n hn, h.images n hn]
    simp
  ext i j
  have := congrFun (this (Pi.single j 1)) i
  rwa [Matrix.mulVec_single_one, Matrix.mulVec_single_one] at this

variable {P : ScfIn} {A : Atoms} {elements : String → Option ElementData} {σ : Op → Op}

theorem skew_zero (hW : Wᵀ = -W) (u : Vec) : u ⬝ᵥ (W *ᵥ u) = 0 := by
  have h1 : u ⬝ᵥ (W *ᵥ u) = -(u ⬝ᵥ (W *ᵥ u)) := by
    conv_lhs => rw [Matrix.dotProduct_mulVec, ← Matrix.mulVec_transpose, hW, Matrix.neg_mulVec,
      neg_dotProduct, dotProduct_comm]
  linarith

/-- The velocities of the images. -/
theorem TurnsFreely.image (h : TurnsFreely A W) (hc : InversionClosed A) {n : Op}
    (hn : n = 0 ∨ Legal A n) (x : Vec) :
    W *ᵥ A.rawTransform x n = A.rawRotation n *ᵥ (W *ᵥ x) ∧ W * A.rawRotation n = A.rawRotation n * W := by
  rcases hn with rfl | hn
  · have h1 := rawTransform_zero A hc.commuting
    have h2 := rawRotation_zero A hc.commuting
    rw [h1, h2]
    simp
  · exact ⟨h.images n hn x, h.comm hc.commuting.ne_tat hn⟩

theorem mat_ops (hscan : ∀ n ∈ P.scan, Legal A n) {n : Op} (hn : n ∈ (P.mat A).ntuples) :
    n = 0 ∨ Legal A n := by
  rcases List.mem_cons.1 hn with h | h
  · exact .inl h
  · exact .inr (hscan n (List.mem_filter.1 h).1)

theorem TurnsFreely.along (h : TurnsFreely A W) (hc : InversionClosed A)
    (hscan : ∀ n ∈ P.scan, Legal A n) : TurnsAlong (P.mat A) W where
  skew := h.skew
  rot n hn := (h.image hc (mat_ops hscan hn) 0).2
  pos n hn j hj := by
    show A.rawRotation n *ᵥ (W *ᵥ (P.bohr⁻¹ • A.rawTransform _ 0)) = W *ᵥ (P.bohr⁻¹ • A.rawTransform _ n)
    rw [rawTransform_zero A hc.commuting, Matrix.mulVec_smul, Matrix.mulVec_smul, Matrix.mulVec_smul,
      (h.image hc (mat_ops hscan hn) _).1]

/-! ### Band-structure forces -/

theorem bandForces_entry (hfit : Fits P A elements) (dH dS rho rhoe : Fin P.nk → CMat P.t.norb) {i : ℕ}
    (hi : i < A.positions.length) :
    (bandForces P.wk dH dS rho rhoe P.t.blocks).getD i 0
      = ∑ k, -(2 * P.wk k * (∑ y : Fin P.t.norb, if P.t.atomAt y = i then
          (dH k * rho k - dS k * rhoe k) y y else 0).re) := by
  have hN : A.symbols.length = A.positions.length := by simp [Atoms.symbols, Atoms.positions]
  have hi : i < P.t.blocks.length := by
    rw [blocks_length elements A.symbols P.t hfit.orbitals, hN]
    exact hi
  have hb : P.t.blocks[i]? = some P.t.blocks[i] := List.getElem?_eq_getElem hi
  unfold bandForces
  rw [List.getD_eq_getElem?_getD, List.getElem?_eq_getElem (by simpa using hi), Option.getD_some,
    List.getElem_map, block_sum_atom hfit.orbitals _ i _ hb]
  have : (∑ y : Fin P.t.norb, if P.t.atomAt y = i then forceDiag P.wk dH dS rho rhoe y else 0)
      = ∑ k, -((P.wk k : ℂ) * ∑ y : Fin P.t.norb,
        if P.t.atomAt y = i then (dH k * rho k - dS k * rhoe k) y y else 0) := by
    simp only [Finset.mul_sum, ← Finset.sum_neg_distrib]
    rw [Finset.sum_comm]
    refine Finset.sum_congr rfl fun y _ => ?_
    unfold forceDiag
    split
    · refine Finset.sum_congr rfl fun k _ => ?_
      rw [Matrix.sub_apply, Matrix.mul_apply, Matrix.mul_apply, Finset.sum_sub_distrib]
      rfl
    · simp
  rw [this, Complex.re_sum, Finset.mul_sum]
  refine Finset.sum_congr rfl fun k _ => ?_
  rw [Complex.neg_re, Complex.re_ofReal_mul]
  ring

/-- The work of the band-structure forces when the atoms move with velocities `v`. -/
theorem bandForces_work (hfit : Fits P A elements) (dH dS : Fin 3 → Fin P.nk → CMat P.t.norb)
    (rho rhoe : Fin P.nk → CMat P.t.norb) (v : ℕ → Vec) :
    ∑ i ∈ Finset.range A.positions.length, ∑ c, v i c *
        (bandForces P.wk (dH c) (dS c) rho rhoe P.t.blocks).getD i 0
      = ∑ k, -(2 * P.wk k * (∑ y : Fin P.t.norb, ∑ c, (v (P.t.atomAt y) c : ℂ) *
          (dH c k * rho k - dS c k * rhoe k) y y).re) := by
  have e1 : ∀ i ∈ Finset.range A.positions.length, (∑ c, v i c *
        (bandForces P.wk (dH c) (dS c) rho rhoe P.t.blocks).getD i 0)
      = ∑ k, -(2 * P.wk k * (∑ y : Fin P.t.norb, if P.t.atomAt y = i then ∑ c, (v (P.t.atomAt y) c : ℂ) *
          (dH c k * rho k - dS c k * rhoe k) y y else 0).re) := by
    intro i hi
    simp only [bandForces_entry hfit _ _ _ _ (Finset.mem_range.1 hi), Finset.mul_sum]
    rw [Finset.sum_comm]
    refine Finset.sum_congr rfl fun k _ => ?_
    have : (∑ y : Fin P.t.norb, if P.t.atomAt y = i then ∑ c, (v (P.t.atomAt y) c : ℂ) *
          (dH c k * rho k - dS c k * rhoe k) y y else 0)
        = ∑ c, (v i c : ℂ) * ∑ y : Fin P.t.norb, if P.t.atomAt y = i then
          (dH c k * rho k - dS c k * rhoe k) y y else 0 := by
      simp only [Finset.mul_sum]
      rw [Finset.sum_comm]
      refine Finset.sum_congr rfl fun y _ => ?_
      by_cases hy : P.t.atomAt y = i
      · subst hy
        simp
      · simp only [if_neg hy, mul_zero, Finset.sum_const_zero]
    rw [this, Complex.re_sum, Finset.mul_sum, ← Finset.sum_neg_distrib]
    refine Finset.sum_congr rfl fun c _ => ?_
    rw [Complex.re_ofReal_mul]
    ring
  rw [Finset.sum_congr rfl e1, Finset.sum_comm]
  refine Finset.sum_congr rfl fun k _ => ?_
  rw [Finset.sum_neg_distrib, ← Finset.mul_sum, ← Complex.re_sum, Finset.sum_comm]
  congr 4
  funext y
  rw [Finset.sum_ite_eq, if_pos (Finset.mem_range.2 (hfit.numAt y).1)]

theorem onePass_states {Mx : Type} {T : ScfTools P Mx} {x : Setup P} {N : ℕ} (hx : Solvable T x)
    {dq : Option (List ℝ)} {p : Pass P} (h : onePass T x N dq = .ok p) (k : Fin P.nk) :
    AreStates (scfHamiltonian p.h1 (x.H0 k) (x.S k)) (x.S k) (p.e k) (p.wf k) := by
  have h1 := onePass_h1 h
  set H1 : Option (Fin P.t.norb → Fin P.t.norb → ℝ) :=
    dq.map fun q (a b : Fin P.t.norb) => constructH1 P.t N (x.epsilon N q) (fun _ => 0) a b with hH1
  have hsy : ∀ h, H1 = some h → ∀ i j, h i j = h j i := by
    intro f hf i j
    rw [hH1] at hf
    obtain ⟨q, -, rfl⟩ := Option.map_eq_some_iff.1 hf
    exact c28_symmetric _ _ _ _ _ _
  obtain ⟨r, h2, h3⟩ := solve_states hx H1 hsy
  have hp : p.e k = (r.getD k (0, 0)).1 ∧ p.wf k = (r.getD k (0, 0)).2 := by
    unfold onePass at h
    dsimp only at h
    rw [← hH1, h2] at h
    simp only [Bind.bind, Except.bind] at h
    split at h
    · cases h
    · split at h
      · split at h
        · cases h
        · simp only [Pure.pure, Except.pure, Except.ok.injEq] at h
          rw [← h]
          exact ⟨rfl, rfl⟩
      · simp only [Pure.pure, Except.pure, Except.ok.injEq] at h
        rw [← h]
        exact ⟨rfl, rfl⟩
  rw [h1, hp.1, hp.2]
  exact h3 k

/-- **Band structure.** -/
theorem band_torque {Mx : Type} {T : ScfTools P Mx} (hfit : Fits P A elements) (hsm : Smooth P A σ)
    (hw : WellPosed T A σ) (hW : TurnsFreely A W) (hscan : ∀ n ∈ P.scan, Legal A n) {x : Setup P}
    (hx : setupOf P A = .ok x) {dq : Option (List ℝ)} {p : Pass P}
    (hp : onePass T x A.positions.length dq = .ok p) :
    ∑ i ∈ Finset.range A.positions.length, ∑ c, (W *ᵥ (P.mat A).pos 0 i) c *
      (bandForces P.wk (fun k => dHfull (x.dH0 c k) (x.dS c k) p.h1) (x.dS c) p.rho p.rhoe
        P.t.blocks).getD i 0 = 0 := by
  obtain ⟨hm, -⟩ := setupOf_ok hx
  have hN : A.positions.length = (P.mat A).N := by simp [ScfIn.mat, MatIn.ofAtoms, Atoms.positions]
  have hno : ∀ i < (P.mat A).N, ValidNo ((P.mat A).no i) := fun i hi => (hfit.numbers i (by rwa [hN])).2
  have hso : Solvable T x := by
    refine ⟨hw.orbitals, hw.lapack, hw.tolerance, fun k => ?_, fun k => hw.overlap k _ (hm k)⟩
    exact (flatten_hermitian (hm k) (mat_idFirst P A) hw.follow (hw.pairs k) (fun i hi => hw.parity i hi)
      (fun y => ⟨by have := (hfit.numAt y).1; rwa [hN] at this, (hfit.numAt y).2.1⟩)).1
  have hst := onePass_states hso hp
  have h1 := onePass_h1 hp
  have hsy : ∀ h, p.h1 = some h → ∀ i j, h i j = h j i := by
    intro f hf i j
    rw [h1] at hf
    obtain ⟨q, -, rfl⟩ := Option.map_eq_some_iff.1 hf
    exact c28_symmetric _ _ _ _ _ _
  have hat : ∀ h, p.h1 = some h → ∀ x x' y y' : Fin P.t.norb, P.t.atomAt x = P.t.atomAt x' →
      P.t.atomAt y = P.t.atomAt y' → h x y = h x' y' := by
    intro f hf a a' b b' h2 h3
    rw [h1] at hf
    obtain ⟨q, -, rfl⟩ := Option.map_eq_some_iff.1 hf
    exact atomic_h1 hfit _ a a' b b' h2 h3
  rw [bandForces_work hfit (fun c k => dHfull (x.dH0 c k) (x.dS c k) p.h1) x.dS p.rho p.rhoe
    fun i => W *ᵥ (P.mat A).pos 0 i]
  refine Finset.sum_eq_zero fun k _ => ?_
  set L := bigGen (fun x : Fin P.t.norb => P.t.atomAt x) (fun x => P.t.numAt x) W with hL
  have hK : ∀ (K : Comp) (a b : Fin P.t.norb),
      (∑ c, ((W *ᵥ (P.mat A).pos 0 (P.t.atomAt a)) c : ℂ) * P.t.flat (K.getD (x.st k) c) a b)
        + (∑ c, ((W *ᵥ (P.mat A).pos 0 (P.t.atomAt b)) c : ℂ) * starRingEnd ℂ (P.t.flat (K.getD (x.st k) c) b a))
      = (L * P.t.flat (K.get (x.st k)) - P.t.flat (K.get (x.st k)) * L) a b := by
    intro K a b
    refine Eq.trans ?_ (hfit.lay.flat_gen hW.skew (K.get (x.st k)) a b)
    refine matrix_gen (hW.along hsm.closed hscan) K (hm k) (mat_idFirst P A) hno hsm.follow (hsm.pairs k)
      (fun i hi => ?_) (fun i hi => hsm.tables i i le_rfl (by rwa [hN])) (fun i hi => ?_)
      (by rw [← hN]; exact (hfit.numAt a).1) (by rw [← hN]; exact (hfit.numAt b).1) (hfit.numAt a).2.1
      (hfit.numAt b).2.1
    · cases K with
      | H => exact (hsm.parity i (by rwa [hN])).1
      | S => exact (hsm.parity i (by rwa [hN])).2
    · intro a b ha hb hab
      cases K with
      | H => exact hw.shells i hi a b ha hb hab
      | S => rfl
  have hS : ∀ a b : Fin P.t.norb, (∑ c, ((W *ᵥ (P.mat A).pos 0 (P.t.atomAt a)) c : ℂ) * x.dS c k a b)
        + (∑ c, ((W *ᵥ (P.mat A).pos 0 (P.t.atomAt b)) c : ℂ) * starRingEnd ℂ (x.dS c k b a))
      = (L * x.S k - x.S k * L) a b := hK Comp.S
  have hH : ∀ a b : Fin P.t.norb, (∑ c, ((W *ᵥ (P.mat A).pos 0 (P.t.atomAt a)) c : ℂ) * x.dH0 c k a b)
        + (∑ c, ((W *ᵥ (P.mat A).pos 0 (P.t.atomAt b)) c : ℂ) * starRingEnd ℂ (x.dH0 c k b a))
      = (L * x.H0 k - x.H0 k * L) a b := hK Comp.H
  have hfull : ∀ a b : Fin P.t.norb, (∑ c, ((W *ᵥ (P.mat A).pos 0 (P.t.atomAt a)) c : ℂ) *
        dHfull (x.dH0 c k) (x.dS c k) p.h1 a b)
        + (∑ c, ((W *ᵥ (P.mat A).pos 0 (P.t.atomAt b)) c : ℂ) *
          starRingEnd ℂ (dHfull (x.dH0 c k) (x.dS c k) p.h1 b a))
      = (L * scfHamiltonian p.h1 (x.H0 k) (x.S k) - scfHamiltonian p.h1 (x.H0 k) (x.S k) * L) a b := by
    intro a b
    rcases hh : p.h1 with _ | f
    · exact hH a b
    · have e1 := congrFun (congrFun (hadamard_gen (W := W) (atom := fun x : Fin P.t.norb => P.t.atomAt x)
        (num := fun x => P.t.numAt x) (fun a b => ((f a b : ℝ) : ℂ))
        (fun x x' y y' h1 h2 => by rw [hat f hh x x' y y' h1 h2]) (x.S k)) a) b
      rw [Matrix.of_apply, ← hL, ← hS] at e1
      have e2 : scfHamiltonian (some f) (x.H0 k) (x.S k)
          = x.H0 k + (Matrix.of fun a b => ((f a b : ℝ) : ℂ) * x.S k a b : CMat P.t.norb) := rfl
      rw [e2, Matrix.mul_add, Matrix.add_mul, add_sub_add_comm, Matrix.add_apply, ← e1, ← hH]
      unfold dHfull
      simp only [Matrix.of_apply, map_add, map_mul, Complex.conj_ofReal, mul_add, Finset.sum_add_distrib,
        Finset.mul_sum]
      rw [hsy f hh b a]
      have e3 : ∀ v w z : ℂ, v * (w * z) = w * (v * z) := fun v w z => by ring
      simp only [e3 _ ((f a b : ℝ) : ℂ)]
      ring
  have key := force_trace (fun y => W *ᵥ (P.mat A).pos 0 (P.t.atomAt y)) hfull hS
    (c20_hermitian (p.wf k) (p.f k) (p.e k)).1 (c20_hermitian (p.wf k) (p.f k) (p.e k)).2
    (scfHamiltonian_hermitian p.h1 hsy _ _ (hso.hermitian k) (hso.posDef k).isHermitian)
    (hso.posDef k).isHermitian (states_rho (hst k) (p.f k))
  exact (congrArg (fun z => -(2 * P.wk k * z)) key).trans (by simp)

/-! ### Repulsion -/

theorem rep_torque (hsm : Smooth P A σ) (hW : TurnsFreely A W) (hscan : ∀ n ∈ P.scan, Legal A n) :
    ∑ i ∈ Finset.range A.positions.length,
      repForces (P.geom A) P.V P.rmax i ⬝ᵥ (W *ᵥ (P.geom A).pos 0 i) = 0 := by
  have h := hsm.inverse
  have hs := hsm.repulsion.smoothAt
  have hN : (P.geom A).N = A.positions.length := by simp [ScfIn.geom, Geom.ofAtoms, Atoms.positions]
  have hV : ∀ i < (P.geom A).N, ∀ j < (P.geom A).N,
      cutPot (P.geom A) P.V P.rmax i j = cutPot (P.geom A) P.V P.rmax j i := by
    intro i hi j hj
    funext d
    unfold cutPot
    rw [hsm.symmetric i hi j hj]
  have hT := hW.along hsm.closed hscan
  set G := P.geom A with hG
  set C := coef G (cutDer G P.V P.rmax) with hC
  have e1 : ∀ i, repForces G P.V P.rmax i ⬝ᵥ (W *ᵥ G.pos 0 i) = ∑ j ∈ Finset.range G.N,
      (G.ntuples.map fun n => C n i j * (G.rij n i j ⬝ᵥ (W *ᵥ G.pos 0 i))).sum := by
    intro i
    rw [c31_forces h.idFirst, centralForce_coef, sum_dotProduct]
    refine Finset.sum_congr rfl fun j _ => ?_
    rw [list_sum_dot]
    simp only [smul_dotProduct, smul_eq_mul, hC]
  have e2 : ∀ i < G.N, ∀ j < G.N,
      (G.ntuples.map fun n => C n j i * (G.rij n j i ⬝ᵥ (W *ᵥ G.pos 0 j))).sum
      = -(G.ntuples.map fun n => C n i j * (G.rij n i j ⬝ᵥ (W *ᵥ G.pos 0 i))).sum := by
    intro i hi j hj
    rw [list_sum_perm_inv G.ntuples σ h.nodup h.mem h.invol, ← map_sum_neg]
    congr 1
    refine List.map_congr_left fun n hn => ?_
    have c1 : C (σ n) j i = C n i j := coef_swap h hV hs hn hi hj
    have c2 : G.rot n *ᵥ (W *ᵥ G.pos 0 j) = W *ᵥ G.pos n j := hT.pos n hn j hj
    have c3 : W *ᵥ G.rij n i j = W *ᵥ G.pos n j - W *ᵥ G.pos 0 i := by
      rw [← Matrix.mulVec_sub]
      rfl
    have c4 := skew_zero hW.skew (G.rij n i j)
    rw [c3, dotProduct_sub] at c4
    rw [c1, h.pos n hn i hi j hj, neg_dotProduct, Matrix.mulVec_transpose, ← Matrix.dotProduct_mulVec, c2]
    have : G.rij n i j ⬝ᵥ (W *ᵥ G.pos n j) = G.rij n i j ⬝ᵥ (W *ᵥ G.pos 0 i) := by linarith
    rw [this]
    ring
  rw [← hN]
  simp only [e1]
  have e3 : ∑ i ∈ Finset.range G.N, ∑ j ∈ Finset.range G.N,
      (G.ntuples.map fun n => C n i j * (G.rij n i j ⬝ᵥ (W *ᵥ G.pos 0 i))).sum
      = -∑ i ∈ Finset.range G.N, ∑ j ∈ Finset.range G.N,
      (G.ntuples.map fun n => C n i j * (G.rij n i j ⬝ᵥ (W *ᵥ G.pos 0 i))).sum := by
    conv_lhs => rw [Finset.sum_comm]
    rw [← Finset.sum_neg_distrib]
    refine Finset.sum_congr rfl fun i hi => ?_
    rw [← Finset.sum_neg_distrib]
    exact Finset.sum_congr rfl fun j hj => e2 i (Finset.mem_range.1 hi) j (Finset.mem_range.1 hj)
  linarith

/-! ### Coulomb forces -/

/-- The sum over the neighbours of every atom. -/
theorem gammaForces_list (A : Atoms) (cut : Option ℝ) (cd : ChargeDensity) (bohr : ℝ) (w : ℕ → ℝ)
    (q : List ℝ) (a : ℕ) : gammaForces true A.positions.length
      (corrDMatrix cd bohr w (nbList A cut)) bohr (dcField cut q (some (nbList A cut))) (chg q) a
      = (((nbList A cut).filter fun e => e.i == a).map fun e => (chg q e.i * chg q e.j *
    (corrDG cd (w e.i) (w e.j) (e.d / bohr) + bohr ^ 2 * coulField cut e.d)) • e.n).sum := by
  have hi : ∀ e ∈ nbList A cut, e.i < A.positions.length ∧ e.j < A.positions.length :=
    fun e he => nbList_i A cut e he
  have hdG : ∑ j ∈ Finset.range A.positions.length, chg q j • corrDMatrix cd bohr w (nbList A cut) a j =
      (((nbList A cut).filter fun e => e.i == a).map fun e =>
        (chg q e.j * corrDG cd (w a) (w e.j) (e.d / bohr)) • e.n).sum := by
    rw [← sum_filter_range2 _ (nbList A cut) _ a fun e he => (hi e he).2]
    refine Finset.sum_congr rfl fun j _ => ?_
    rw [corrDMatrix, ← list_sum_smul]
    congr 1
    refine List.map_congr_left fun e he => ?_
    simp only [List.mem_filter, Bool.and_eq_true, beq_iff_eq] at he
    rw [he.2.2, smul_smul]
  simp only [gammaForces, if_true, hdG, dcField, Option.getD_some]
  rw [← list_sum_smul, ← List.sum_map_add, ← list_sum_smul]
  congr 1
  refine List.map_congr_left fun e he => ?_
  simp only [List.mem_filter, beq_iff_eq] at he
  simp only [he.2, smul_smul, ← add_smul]
  congr 1
  ring

theorem gamma_torque (hA : InversionClosed A) (hW : TurnsFreely A W) (cut : Option ℝ)
    (scc : Bool) (cd : ChargeDensity) (bohr : ℝ) (w : ℕ → ℝ) (q : List ℝ) :
    ∑ i ∈ Finset.range A.positions.length, gammaForces scc A.positions.length
      (corrDMatrix cd bohr w (nbList A cut)) bohr (dcField cut q (some (nbList A cut))) (chg q) i
      ⬝ᵥ (W *ᵥ A.pos i) = 0 := by
  cases scc with
  | false => simp [gammaForces]
  | true =>
  have hi : ∀ e ∈ nbList A cut, e.i < A.positions.length ∧ e.j < A.positions.length :=
    fun e he => nbList_i A cut e he
  simp only [gammaForces_list]
  let f : Nb → ℝ := fun e => chg q e.i * chg q e.j *
    (corrDG cd (w e.i) (w e.j) (e.d / bohr) + bohr ^ 2 * coulField cut e.d)
  have dot : ∀ (l : List Nb) (F : Nb → Vec) (u : Vec), (l.map F).sum ⬝ᵥ u = (l.map fun e => F e ⬝ᵥ u).sum := by
    intro l F u
    induction l with
    | nil => simp
    | cons e l ih => rw [List.map_cons, List.sum_cons, List.map_cons, List.sum_cons, add_dotProduct, ih]
  have e1 : ∀ i, (((nbList A cut).filter fun e => e.i == i).map fun e => f e • e.n).sum ⬝ᵥ (W *ᵥ A.pos i)
      = (((nbList A cut).filter fun e => e.i == i).map fun e => f e * (e.n ⬝ᵥ (W *ᵥ A.pos e.i))).sum := by
    intro i
    rw [dot]
    congr 1
    refine List.map_congr_left fun e he => ?_
    simp only [List.mem_filter, beq_iff_eq] at he
    rw [he.2, smul_dotProduct, smul_eq_mul]
  rw [Finset.sum_congr rfl fun i _ => e1 i, sum_filter_range A.positions.length (nbList A cut)
    (fun e => f e * (e.n ⬝ᵥ (W *ᵥ A.pos e.i))) fun e he => (hi e he).1]
  have hs : ((nbList A cut).map fun e => f e * (e.n ⬝ᵥ (W *ᵥ A.pos e.i))).sum
      = -((nbList A cut).map fun e => f e * (e.n ⬝ᵥ (W *ᵥ A.pos e.i))).sum := by
    conv_lhs => rw [← ((swap_perm A hA cut).map _).sum_eq, List.map_map]
    rw [← map_sum_neg]
    congr 1
    refine List.map_congr_left fun e he => ?_
    have hA2 := hA.commuting.ne_tat
    obtain ⟨-, -, hsc, -, hd, hn⟩ := (mem_nbList A hA2 cut e).1 he
    have hleg := (invOp_cases A hA _ hsc).1.1
    set Q := A.rawRotation (invOp A e.op) with hQ
    have ho : Qᵀ * Q = 1 := rawRotation_orth A hA.commuting _
    have hn' : (swapNb A e).n = -(Q *ᵥ e.n) := by
      show ((e.d)⁻¹ • _ : Vec) = _
      have e1 := rawTransform_affine A hA2 _ hleg (A.rawTransform (A.pos e.j) e.op) (A.pos e.i)
      rw [invOp_right A hA _ hsc] at e1
      rw [e1, hn, hd, Matrix.mulVec_smul, ← smul_neg, ← Matrix.mulVec_neg, neg_sub]
    have hp' : W *ᵥ A.pos e.j = Q *ᵥ (W *ᵥ A.rawTransform (A.pos e.j) e.op) := by
      rw [← hW.images _ hleg, invOp_right A hA _ hsc]
    have hc : e.n ⬝ᵥ (W *ᵥ A.rawTransform (A.pos e.j) e.op) = e.n ⬝ᵥ (W *ᵥ A.pos e.i) := by
      have := skew_zero hW.skew (A.pos e.i - A.rawTransform (A.pos e.j) e.op)
      rw [Matrix.mulVec_sub, dotProduct_sub] at this
      rw [hn, smul_dotProduct, smul_dotProduct]
      congr 1
      linarith
    show (chg q e.j * chg q e.i * (corrDG cd (w e.j) (w e.i) (e.d / bohr) + bohr ^ 2 * coulField cut e.d))
      * ((swapNb A e).n ⬝ᵥ (W *ᵥ A.pos e.j)) = _
    rw [hn', hp', neg_dotProduct, Matrix.dotProduct_mulVec, ← Matrix.mulVec_transpose, Matrix.mulVec_mulVec, ho,
      Matrix.one_mulVec, hc, (c54_symmetric cd (w e.j) (w e.i) _).2, mul_comm (chg q e.j)]
    simp only [f]
    ring
  linarith

end Hotbit
