import Verif.Lemmas.ChargeResponse
import Verif.Lemmas.TurningForces
import Verif.Spec.Damping

/-!
# The self-consistency cycle with damping
-/

set_option linter.unusedSimpArgs false

namespace Hotbit

open Matrix

section Forms

variable {N : ℕ}

/-- The form of a matrix. -/
noncomputable def matForm (G : Fin N → Fin N → ℝ) : QVec N →ₗ[ℝ] QVec N →ₗ[ℝ] ℝ :=
  LinearMap.mk₂ ℝ (fun u v => ∑ i, ∑ j, u i * G i j * v j)
    (fun u u' v => by
      rw [← Finset.sum_add_distrib]
      refine Finset.sum_congr rfl fun i _ => ?_
      rw [← Finset.sum_add_distrib]
      exact Finset.sum_congr rfl fun j _ => by simp only [Pi.add_apply]; ring)
    (fun c u v => by
      rw [Finset.smul_sum]
      refine Finset.sum_congr rfl fun i _ => ?_
      rw [Finset.smul_sum]
      exact Finset.sum_congr rfl fun j _ => by simp only [Pi.smul_apply, smul_eq_mul]; ring)
    (fun u v v' => by
      rw [← Finset.sum_add_distrib]
      refine Finset.sum_congr rfl fun i _ => ?_
      rw [← Finset.sum_add_distrib]
      exact Finset.sum_congr rfl fun j _ => by simp only [Pi.add_apply]; ring)
    (fun c u v => by
      rw [Finset.smul_sum]
      refine Finset.sum_congr rfl fun i _ => ?_
      rw [Finset.smul_sum]
      exact Finset.sum_congr rfl fun j _ => by simp only [Pi.smul_apply, smul_eq_mul]; ring)

theorem matForm_apply (G : Fin N → Fin N → ℝ) (u v : QVec N) : matForm G u v = ∑ i, ∑ j, u i * G i j * v j := rfl

/-- The usual product. -/
noncomputable def dotForm (N : ℕ) : QVec N →ₗ[ℝ] QVec N →ₗ[ℝ] ℝ := matForm fun i j => if i = j then 1 else 0

theorem dotForm_self (u : QVec N) : dotForm N u u = ∑ i, u i ^ 2 := by
  unfold dotForm
  rw [matForm_apply]
  refine Finset.sum_congr rfl fun i _ => ?_
  rw [Finset.sum_eq_single i]
  · rw [if_pos rfl]; ring
  · intro j _ hj
    rw [if_neg hj.symm]; ring
  · simp

theorem dotForm_pos : PosForm (dotForm N) := by
  refine ⟨fun u v => ?_, fun u => ?_⟩
  · unfold dotForm
    rw [matForm_apply, matForm_apply, Finset.sum_comm]
    refine Finset.sum_congr rfl fun i _ => Finset.sum_congr rfl fun j _ => ?_
    by_cases h : j = i
    · subst h; simp; ring
    · rw [if_neg h, if_neg (Ne.symm h)]; ring
  · rw [dotForm_self]
    exact Finset.sum_nonneg fun i _ => sq_nonneg _

theorem matForm_le (G : Fin N → Fin N → ℝ) (u : QVec N) :
    matForm G u u ≤ (∑ i, ∑ j, |G i j|) * dotForm N u u := by
  rw [matForm_apply, dotForm_self, Finset.sum_mul]
  refine Finset.sum_le_sum fun i _ => ?_
  rw [Finset.sum_mul]
  refine Finset.sum_le_sum fun j _ => ?_
  have s : ∀ i, u i ^ 2 ≤ ∑ i, u i ^ 2 := fun i =>
    Finset.single_le_sum (f := fun i => u i ^ 2) (fun i _ => sq_nonneg _) (Finset.mem_univ i)
  have h1 : |u i * u j| ≤ ∑ i, u i ^ 2 := by
    rw [abs_mul]
    have := two_mul_le_add_sq (|u i|) (|u j|)
    rw [sq_abs, sq_abs] at this
    have := s i; have := s j
    linarith
  calc u i * G i j * u j = G i j * (u i * u j) := by ring
    _ ≤ |G i j * (u i * u j)| := le_abs_self _
    _ = |G i j| * |u i * u j| := abs_mul _ _
    _ ≤ _ := mul_le_mul_of_nonneg_left h1 (abs_nonneg _)

theorem maxAbs_le_len (u : QVec N) : maxAbs u ≤ formLen (dotForm N) u := by
  unfold maxAbs
  have key : ∀ l : List ℝ, (∀ y ∈ l, y ≤ formLen (dotForm N) u) → l.foldr max 0 ≤ formLen (dotForm N) u := by
    intro l
    induction l with
    | nil => intro _; exact Real.sqrt_nonneg _
    | cons a l ih =>
      intro h
      exact max_le (h a List.mem_cons_self) (ih fun y hy => h y (List.mem_cons_of_mem _ hy))
  refine key _ fun y hy => ?_
  rw [List.mem_ofFn] at hy
  obtain ⟨i, rfl⟩ := hy
  unfold formLen
  rw [dotForm_self]
  refine Real.abs_le_sqrt ?_
  exact Finset.single_le_sum (f := fun i => u i ^ 2) (fun i _ => sq_nonneg _) (Finset.mem_univ i)

end Forms

section Atoms

variable {P : ScfIn} {A : Atoms} {elements : String → Option ElementData} {x : Setup P}

/-- Interactions of the atoms. -/
noncomputable def gamMat (P : ScfIn) (A : Atoms) (i j : Fin A.positions.length) : ℝ :=
  gam P.cd P.bohr P.U P.w P.gcut A i j

/-- The potential of the charges at an orbital. -/
noncomputable def orbPot (P : ScfIn) (A : Atoms) (q : QVec A.positions.length) (y : Fin P.t.norb) : ℝ :=
  ∑ j : Fin A.positions.length, gam P.cd P.bohr P.U P.w P.gcut A (P.t.atomAt y) j * q j

theorem epsilon_setup (hx : setupOf P A = .ok x) (hs : P.scc = true) (q : List ℝ) {i : ℕ}
    (hi : i < A.positions.length) :
    x.epsilon A.positions.length q i
      = ∑ j : Fin A.positions.length, gam P.cd P.bohr P.U P.w P.gcut A i j * vecOf A.positions.length q j := by
  unfold Setup.epsilon
  rw [(setupOf_ok hx).2 hs]
  unfold epsilonOf gam dcPhi vecOf
  rw [Fin.sum_univ_eq_sum_range (fun j => (corrMatrix P.cd P.bohr P.U P.w (nbList A P.gcut) i j
    + gammaEntry P.gcut (nbList A P.gcut) i j * P.bohr) * q.getD j 0)]
  simp only [Option.getD_some]
  rw [← sum_filter_range2 A.positions.length (nbList A P.gcut) _ i
    fun e he => (nbList_i A P.gcut e he).2, Finset.sum_mul, ← Finset.sum_add_distrib]
  refine Finset.sum_congr rfl fun j _ => ?_
  rw [add_mul]
  congr 1
  unfold gammaEntry
  rw [mul_right_comm]
  congr 1
  rw [mul_comm, ← list_sum_mul]
  congr 1
  refine List.map_congr_left fun e he => ?_
  have := (List.mem_filter.1 he).2
  simp only [Bool.and_eq_true, beq_iff_eq] at this
  rw [this.2]
  rfl

theorem ham_setup (hfit : Fits P A elements) (hx : setupOf P A = .ok x) (hs : P.scc = true) (q : List ℝ)
    (H0 S : CMat P.t.norb) :
    scfHamiltonian (some fun a b => constructH1 P.t A.positions.length (x.epsilon A.positions.length q) (fun _ => 0) a b)
      H0 S = meanH H0 S (orbPot P A (vecOf _ q)) := by
  unfold scfHamiltonian meanH
  dsimp only
  congr 1
  ext a b
  simp only [Matrix.of_apply]
  obtain ⟨-, -, -, -, -, -, ha, -⟩ := orb_at hfit.orbitals a
  obtain ⟨-, -, -, -, -, -, hb, -⟩ := orb_at hfit.orbitals b
  have hNs : A.symbols.length = A.positions.length := by simp [Atoms.symbols, Atoms.positions]
  have := (c28_element elements A.symbols P.t hfit.orbitals (x.epsilon A.positions.length q) (fun _ => 0) a b _ _
    ha hb).2 (fun i _ => by simp; norm_num)
  rw [hNs] at this
  rw [this]
  congr 3
  unfold orbPot
  rw [epsilon_setup hx hs q (hfit.numAt a).1, epsilon_setup hx hs q (hfit.numAt b).1]

theorem onePass_parts {Mx : Type} {T : ScfTools P Mx} {N : ℕ} {q : List ℝ} {p : Pass P}
    (h : onePass T x N (some q) = .ok p) :
    |(∑ k, P.wk k * ∑ a, fermi P.width p.mu (p.e k a)) - P.nel| ≤ 1e-10 ∧
      mulliken P.wk p.rho x.S P.t.blocks P.val P.charge P.tol = .ok p.dq := by
  unfold onePass at h
  simp only [Bind.bind, Except.bind, Option.isSome_some, if_true] at h
  split at h
  · cases h
  · split at h
    · cases h
    · rename_i o ho
      split at h
      · cases h
      · rename_i hm
        simp only [Pure.pure, Except.pure, Except.ok.injEq] at h
        rw [← h]
        obtain ⟨c1, c2⟩ := c14_conserves _ _ o.1 o.2 ho
        refine ⟨?_, ?_⟩
        · rw [c2] at c1
          simp only [Finset.mul_sum]
          exact c1
        · rw [c2] at hm
          exact hm

/-- The sum over the orbitals of an atom. -/
noncomputable def atomSum (P : ScfIn) (A : Atoms) (z : Fin P.t.norb → ℝ) (i : Fin A.positions.length) : ℝ :=
  ∑ y : Fin P.t.norb, if P.t.atomAt y = i then z y else 0

theorem atomSum_sub (z z' : Fin P.t.norb → ℝ) (i : Fin A.positions.length) :
    atomSum P A z i - atomSum P A z' i = atomSum P A (fun y => z y - z' y) i := by
  unfold atomSum
  rw [← Finset.sum_sub_distrib]
  exact Finset.sum_congr rfl fun y _ => by split <;> simp

theorem atomSum_sq (hfit : Fits P A elements) {z : Fin P.t.norb → ℝ} {M : ℝ} (hz : ∀ y, z y ^ 2 ≤ M) :
    ∑ i, atomSum P A z i ^ 2 ≤ P.t.norb ^ 2 * M := by
  have h1 : ∀ i, atomSum P A z i ^ 2 ≤ P.t.norb * ∑ y : Fin P.t.norb, if P.t.atomAt y = i then z y ^ 2 else 0 := by
    intro i
    have := Finset.sum_mul_sq_le_sq_mul_sq (Finset.univ : Finset (Fin P.t.norb)) (fun _ => (1 : ℝ))
      fun y => if P.t.atomAt y = i then z y else 0
    simp only [one_mul, one_pow, Finset.sum_const, Finset.card_univ, Fintype.card_fin, nsmul_eq_mul, mul_one] at this
    refine this.trans (le_of_eq ?_)
    congr 1
    exact Finset.sum_congr rfl fun y _ => by split <;> simp
  refine (Finset.sum_le_sum fun i _ => h1 i).trans ?_
  rw [← Finset.mul_sum, Finset.sum_comm]
  have h2 : ∀ y : Fin P.t.norb, (∑ i : Fin A.positions.length, if P.t.atomAt y = i then z y ^ 2 else 0) ≤ M := by
    intro y
    rw [Finset.sum_eq_single ⟨P.t.atomAt y, (hfit.numAt y).1⟩]
    · rw [if_pos rfl]; exact hz y
    · intro b _ hb
      rw [if_neg]
      intro h
      exact hb (Fin.ext h.symm)
    · simp
  have h3 := Finset.sum_le_sum fun (y : Fin P.t.norb) (_ : y ∈ Finset.univ) => h2 y
  simp only [Finset.sum_const, Finset.card_univ, Fintype.card_fin, nsmul_eq_mul] at h3
  rw [sq, mul_assoc]
  exact mul_le_mul_of_nonneg_left h3 (Nat.cast_nonneg _)

/-- The potential against the populations. -/
theorem atomSum_pot (hfit : Fits P A elements) (z : Fin P.t.norb → ℝ) (q : QVec A.positions.length) :
    ∑ y, orbPot P A q y * z y = matForm (gamMat P A) (atomSum P A z) q := by
  rw [matForm_apply]
  have h1 : ∀ y, orbPot P A q y * z y = ∑ i : Fin A.positions.length,
      (if P.t.atomAt y = i then z y else 0) * ∑ j, gamMat P A i j * q j := by
    intro y
    rw [Finset.sum_eq_single ⟨P.t.atomAt y, (hfit.numAt y).1⟩]
    · rw [if_pos rfl, mul_comm]; rfl
    · intro b _ hb
      rw [if_neg, zero_mul]
      intro h
      exact hb (Fin.ext h.symm)
    · simp
  rw [Finset.sum_congr rfl fun y _ => h1 y, Finset.sum_comm]
  refine Finset.sum_congr rfl fun i _ => ?_
  rw [← Finset.sum_mul, Finset.mul_sum]
  exact Finset.sum_congr rfl fun j _ => by unfold atomSum; ring

theorem gamMat_form (hA : InversionClosed A) (hx : setupOf P A = .ok x) (hs : P.scc = true)
    (hpos : ∀ q E, EsEnergy P.cd P.bohr P.U P.w P.gcut A q E → 0 ≤ E) : PosForm (matForm (gamMat P A)) := by
  have hc : P.gcut.isSome ∨ A.isCluster = true := by
    by_contra hc
    push Not at hc
    unfold setupOf at hx
    simp only [Bind.bind, Except.bind] at hx
    split at hx
    · cases hx
    · rw [hs] at hx
      unfold getNeighbors at hx
      simp only [if_true] at hx
      rw [if_pos (by cases hg : P.gcut <;> simp_all)] at hx
      cases hx
  refine ⟨fun u v => ?_, fun u => ?_⟩
  · rw [matForm_apply, matForm_apply, Finset.sum_comm]
    refine Finset.sum_congr rfl fun i _ => Finset.sum_congr rfl fun j _ => ?_
    unfold gamMat
    rw [gam_symm A hA hc j i]
    ring
  · obtain ⟨s, hes⟩ := esState_exists P.cd P.bohr P.U P.w P.gcut A (List.ofFn u) hc
    obtain ⟨phi, g, hphi, -⟩ := c43_potential _ _ _ _ (esState_eq _ _ _ _ _ _ _ _ _ _ hes).2.2.1
    have hE : EsEnergy P.cd P.bohr P.U P.w P.gcut A (List.ofFn u) _ := ⟨_, _, s, phi, hes, hphi, rfl⟩
    have h0 := hpos _ _ hE
    rw [esEnergy_gam hE] at h0
    have e1 : ∑ i ∈ Finset.range A.positions.length, ∑ j ∈ Finset.range A.positions.length,
        chg (List.ofFn u) i * gam P.cd P.bohr P.U P.w P.gcut A i j * chg (List.ofFn u) j = matForm (gamMat P A) u u := by
      rw [matForm_apply, ← Fin.sum_univ_eq_sum_range (fun i => ∑ j ∈ Finset.range A.positions.length,
        chg (List.ofFn u) i * gam P.cd P.bohr P.U P.w P.gcut A i j * chg (List.ofFn u) j)]
      refine Finset.sum_congr rfl fun i _ => ?_
      rw [← Fin.sum_univ_eq_sum_range (fun j =>
        chg (List.ofFn u) i * gam P.cd P.bohr P.U P.w P.gcut A i j * chg (List.ofFn u) j)]
      refine Finset.sum_congr rfl fun j _ => ?_
      have : ∀ i : Fin A.positions.length, chg (List.ofFn u) i = u i := by
        intro i
        simp [chg, List.getD_eq_getElem?_getD]
      rw [this, this]
      rfl
    rw [e1] at h0
    linarith

theorem softness_pos (hk : ∀ k, 0 < P.wk k) : 0 < softness x :=
  add_pos_of_nonneg_of_pos (mul_nonneg (sq_nonneg _) (popScale_nonneg hk)) one_pos

open scoped ComplexOrder in
/-- The charges that a pass returns are near those of a function that changes against the potential. -/
theorem response_exists (hfit : Fits P A elements) (hx : setupOf P A = .ok x) (hs : P.scc = true) (hw : 0 < P.width)
    (hk : ∀ k, 0 < P.wk k) (h0 : 0 < P.nel) (h1 : P.nel < 2 * P.t.norb * ∑ k, P.wk k)
    (hH : ∀ k, (x.H0 k).IsHermitian) (hS : ∀ k, (x.S k).PosDef) :
    ∃ (D : QVec A.positions.length → QVec A.positions.length),
      (∀ q q', P.width / 2 / softness x * dotForm _ (D q' - D q) (D q' - D q) ≤ -matForm (gamMat P A) (D q' - D q) (q' - q)) ∧
      ∀ (Mx : Type) (T : ScfTools P Mx) (q : List ℝ) (p : Pass P), Solvable T x →
        onePass T x A.positions.length (some q) = .ok p →
        formLen (dotForm _) (vecOf _ p.dq - D (vecOf _ q)) ≤ chargeNoise x := by
  have hSh : ∀ k, (x.S k).IsHermitian := fun k => (hS k).isHermitian
  have ex := fun q : QVec A.positions.length =>
    filled_exists (wk := P.wk) (H0 := x.H0) (S := x.S) hw hk hH hS h0 h1 (orbPot P A q)
  choose e c mu F using ex
  set f : QVec A.positions.length → Fin P.nk → Fin P.t.norb → ℝ := fun q k a => smoothFermi P.width (mu q) (e q k a)
    with hf
  set pop : QVec A.positions.length → Fin P.t.norb → ℝ := fun q =>
    mullikenDiag P.wk (fun k => computeRho (c q k) (f q k)) x.S with hpop
  set C : ℝ := softness x with hC
  have hCp : 0 < C := softness_pos hk
  set δ : ℝ := occNoise P with hδ
  have hW : 0 ≤ ∑ k, P.wk k := Finset.sum_nonneg fun k _ => (hk k).le
  refine ⟨fun q i => atomSum P A (pop q) i - P.val.getD i 0,
    fun q q' => ?_, fun Mx T q p hT hp => ?_⟩
  · have hd : (fun i => atomSum P A (pop q') i - P.val.getD i 0) - (fun i => atomSum P A (pop q) i - P.val.getD i 0)
        = atomSum P A fun y => pop q' y - pop q y := by
      funext i
      rw [← atomSum_sub]
      simp only [Pi.sub_apply]
      ring
    rw [hd]
    have g := response_gap hw hk hSh (F q') (F q)
    have b := fun y => response_bound hk hSh (F q').states (F q).states (f q') (f q) y
    have e1 : ∑ y, (orbPot P A q' y - orbPot P A q y) * (pop q' y - pop q y)
        = matForm (gamMat P A) (atomSum P A fun y => pop q' y - pop q y) (q' - q) := by
      rw [map_sub, ← atomSum_pot hfit, ← atomSum_pot hfit, ← Finset.sum_sub_distrib]
      exact Finset.sum_congr rfl fun y _ => by ring
    rw [← e1]
    refine le_trans ?_ g
    have g0 := fillGap_nonneg (S := x.S) hk (c q') (c q) (f q') (f q)
    have b1 := atomSum_sq (A := A) hfit b
    rw [dotForm_self]
    rw [div_mul_eq_mul_div, div_le_iff₀ hCp]
    have : ∑ i, atomSum P A (fun y => pop q' y - pop q y) i ^ 2 ≤ C * fillGap P.wk x.S (c q') (c q) (f q') (f q) := by
      refine b1.trans ?_
      rw [hC, softness, add_mul, one_mul, mul_assoc]
      linarith
    calc _ ≤ P.width / 2 * (C * fillGap P.wk x.S (c q') (c q) (f q') (f q)) :=
          mul_le_mul_of_nonneg_left this (by positivity)
      _ = _ := by ring
  · obtain ⟨p1, p2⟩ := onePass_parts hp
    have st : ∀ k, Solutions (meanH (x.H0 k) (x.S k) (orbPot P A (vecOf _ q))) (x.S k) (p.e k) (p.wf k) := by
      intro k
      have := (onePass_states hT hp k).solutions
      rw [onePass_h1 hp] at this
      rw [← ham_setup hfit hx hs]
      exact this
    obtain ⟨m, hm⟩ := mu_exists hw hk p.e h0 h1
    have F' : Filled P.wk x.H0 x.S P.width P.nel (orbPot P A (vecOf _ q)) p.e p.wf m := ⟨st, hm⟩
    set f' : Fin P.nk → Fin P.t.norb → ℝ := fun k a => smoothFermi P.width m (p.e k a) with hf'
    have same : ∀ y, mullikenDiag P.wk (fun k => computeRho (p.wf k) (f' k)) x.S y = pop (vecOf _ q) y := by
      intro y
      have g := response_gap hw hk hSh F' (F (vecOf _ q))
      have b := response_bound hk hSh st (F (vecOf _ q)).states f' (f (vecOf _ q)) y
      simp only [sub_self, zero_mul, Finset.sum_const_zero, neg_zero] at g
      have z : fillGap P.wk x.S p.wf (c (vecOf _ q)) f' (f (vecOf _ q)) ≤ 0 := by
        by_contra hcon
        push Not at hcon
        have := mul_pos (half_pos hw) hcon
        linarith
      have z0 := fillGap_nonneg (S := x.S) hk p.wf (c (vecOf _ q)) f' (f (vecOf _ q))
      rw [le_antisymm z z0, mul_zero] at b
      have := pow_eq_zero_iff (two_ne_zero) |>.1 (le_antisymm b (sq_nonneg _))
      linarith
    have near : ∀ k a, |p.f k a - f' k a| ≤ δ := by
      intro k a
      refine (fermi_near hw hk hm p1 k a).trans ?_
      rw [hδ, occNoise, div_eq_mul_one_div]
      refine add_le_add (mul_le_mul_of_nonneg_left ?_ ?_) le_rfl
      · exact Finset.single_le_sum (f := fun k => 1 / P.wk k)
          (fun k _ => one_div_nonneg.2 (hk k).le) (Finset.mem_univ k)
      · positivity
    have n1 := fun y => pop_near hk hSh st near y
    have n2 := atomSum_sq (A := A) hfit n1
    unfold formLen chargeNoise
    refine Real.sqrt_le_sqrt ?_
    rw [dotForm_self]
    refine le_trans (le_of_eq ?_) n2
    refine Finset.sum_congr rfl fun i _ => ?_
    congr 1
    rw [← atomSum_sub]
    simp only [Pi.sub_apply]
    have := dq_eq hfit p2 i.2
    have e2 : vecOf A.positions.length p.dq i = chg p.dq i := rfl
    rw [e2, this]
    have e3 : atomSum P A (mullikenDiag P.wk (fun k => computeRho (p.wf k) (f' k)) x.S) i
        = atomSum P A (pop (vecOf _ q)) i := by
      congr 1
      funext y
      exact same y
    rw [e3]
    unfold atomSum
    show _ - _ - (_ - _) = _
    rw [sub_sub_sub_cancel_right]
    rfl

end Atoms

end Hotbit
