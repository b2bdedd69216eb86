import Verif.Props.TotalForces
import Verif.Lemmas.TurnedGeometry

/-!
# The sum of the forces: the separate terms
-/

namespace Hotbit

open Matrix

variable {P : ScfIn} {A : Atoms} {elements : String → Option ElementData} {σ : Op → Op}

/-! ### Directions that no image changes -/

/-- Direction `c` is the same in every image. -/
def SameInImages (A : Atoms) (c : Fin 3) : Prop :=
  ∀ n, A.rawRotation n *ᵥ Pi.single c 1 = Pi.single c 1

theorem SameInImages.col (h : SameInImages A c) (n : Op) (d : Fin 3) :
    A.rawRotation n d c = if d = c then 1 else 0 := by
  have := congrFun (h n) d
  rw [Matrix.mulVec_single_one] at this
  rw [show A.rawRotation n d c = (A.rawRotation n).col c d from rfl, this, Pi.single_apply]

theorem SameInImages.transpose_mulVec (h : SameInImages A c) (n : Op) (v : Vec) :
    ((A.rawRotation n).transpose *ᵥ v) c = v c := by
  simp [Matrix.mulVec, dotProduct, h.col]

theorem SameInImages.mulVec (h : SameInImages A c) (n : Op)
    (ho : (A.rawRotation n).transpose * A.rawRotation n = 1) (v : Vec) :
    (A.rawRotation n *ᵥ v) c = v c := by
  have h1 := h.transpose_mulVec n (A.rawRotation n *ᵥ v)
  rw [Matrix.mulVec_mulVec, ho, Matrix.one_mulVec] at h1
  exact h1.symm

/-! ### Matrices -/

theorem map_sum_neg {α G : Type} [AddCommGroup G] (l : List α) (F : α → G) :
    (l.map fun x => -F x).sum = -(l.map F).sum := by
  induction l with
  | nil => simp
  | cons x l ih => rw [List.map_cons, List.sum_cons, ih, List.map_cons, List.sum_cons, neg_add]

theorem derivative_antihermitian (K : Comp) {I : MatIn} {k : Vec} {st : MatSt}
    (h : getMatrices I k = .ok st) (hid : IdFirst I) (hno : ∀ i < I.N, ValidNo (I.no i))
    (hf : OrbitalsFollow I) {σ : Op → Op} (hσ : InversePairs I k σ)
    (hpar : ∀ i < I.N, ParityTable K.f (I.tab (I.sym i) (I.sym i)))
    (hs : ∀ i < I.N, SmoothPair I i i) {c : Fin 3}
    (hc : ∀ n d, I.rot n d c = if d = c then 1 else 0)
    {i j : ℕ} (hi : i < I.N) (hj : j < I.N) {p q : Fin 9} (hp : p.val < I.no i) (hq : q.val < I.no j) :
    starRingEnd ℂ (K.getD st c j i q p) = -K.getD st c i j p q := by
  obtain ⟨l, hl, -, -⟩ := getMatrices_ok h
  have key : ∀ i j (p q : Fin 9), dBlockSum2 K I k l.zipIdx i j c p q = -dBlockSum K I k l.zipIdx i j c p q := by
    intro i j p q
    unfold dBlockSum dBlockSum2
    rw [← map_sum_neg]
    congr 1
    refine List.map_congr_left fun im _ => ?_
    split
    · unfold dotRot
      simp [hc]
    · simp
  rw [getMatrices_closedD h hl K hj hi, getMatrices_closedD h hl K hi hj]
  unfold finalD
  rw [if_pos (c := q.val < I.no j ∧ p.val < I.no i) ⟨hq, hp⟩,
    if_pos (c := p.val < I.no i ∧ q.val < I.no j) ⟨hp, hq⟩]
  rcases lt_trichotomy i j with hij | rfl | hij
  · rw [if_neg (c := j ≤ i) (by omega), if_pos hij.le, key, Complex.conj_conj]
  · rw [if_pos (le_refl i), if_pos (le_refl i)]
    rw [← selfSum_conj hl hid hf hσ (notTooClose_of_ok h hid hno hf) hi (hno i hi) (hpar i hi)
      (hs i hi) c hp hq, key]
  · rw [if_pos hij.le, if_neg (c := i ≤ j) (by omega), key, map_neg, neg_neg]

theorem flat_antihermitian (hfit : Fits P A elements) (hsm : Smooth P A σ) {c : Fin 3}
    (hc : SameInImages A c) {k : Fin P.nk} {st : MatSt}
    (h : getMatrices (P.mat A) (P.kpt k) = .ok st) :
    (P.t.flat (st.dH0 c))ᴴ = -P.t.flat (st.dH0 c) ∧ (P.t.flat (st.dS c))ᴴ = -P.t.flat (st.dS c) := by
  have hN : (P.mat A).N = A.positions.length := by simp [ScfIn.mat, MatIn.ofAtoms, Atoms.positions]
  have hid : IdFirst (P.mat A) := mat_idFirst P A
  have hno : ∀ i < (P.mat A).N, ValidNo ((P.mat A).no i) := fun i hi => (hfit.numbers i (by rwa [hN] at hi)).2
  have key : ∀ K : Comp, (∀ i < (P.mat A).N, ParityTable K.f (P.tab ((P.mat A).sym i) ((P.mat A).sym i))) →
      (P.t.flat (K.getD st c))ᴴ = -P.t.flat (K.getD st c) := by
    intro K hK
    ext x y
    rw [Matrix.conjTranspose_apply, Matrix.neg_apply]
    obtain ⟨h1, h2, -⟩ := hfit.numAt x
    obtain ⟨h3, h4, -⟩ := hfit.numAt y
    exact derivative_antihermitian K h hid hno hsm.follow (hsm.pairs k) hK
      (fun i hi => hsm.tables i i (le_refl i) (by rwa [hN] at hi)) (fun n d => hc.col n d) (by rw [hN]; exact h1)
      (by rw [hN]; exact h3) h2 h4
  exact ⟨key .H fun i hi => (hsm.parity i (by rwa [hN] at hi)).1,
    key .S fun i hi => (hsm.parity i (by rwa [hN] at hi)).2⟩

/-! ### Repulsion -/

theorem repForces_net (hsm : Smooth P A σ) {c : Fin 3} (hc : SameInImages A c) :
    ∑ i ∈ Finset.range A.positions.length, repForces (P.geom A) P.V P.rmax i c = 0 := by
  have h := hsm.inverse
  have hs := hsm.repulsion.smoothAt
  have hN : (P.geom A).N = A.positions.length := by simp [ScfIn.geom, Geom.ofAtoms, Atoms.positions]
  have hV : ∀ i < (P.geom A).N, ∀ j < (P.geom A).N,
      cutPot (P.geom A) P.V P.rmax i j = cutPot (P.geom A) P.V P.rmax j i := by
    intro i hi j hj
    funext d
    unfold cutPot
    rw [hsm.symmetric i hi j hj]
  simp only [c31_forces h.idFirst, centralForce_coef, ← hN, Finset.sum_apply]
  have key : ∀ f : ℕ → ℕ → ℝ, (∀ i < (P.geom A).N, ∀ j < (P.geom A).N, f i j = -f j i) →
      ∑ i ∈ Finset.range (P.geom A).N, ∑ j ∈ Finset.range (P.geom A).N, f i j = 0 := by
    intro f hf
    have : ∑ i ∈ Finset.range (P.geom A).N, ∑ j ∈ Finset.range (P.geom A).N, f i j
        = -∑ i ∈ Finset.range (P.geom A).N, ∑ j ∈ Finset.range (P.geom A).N, f i j := by
      conv_lhs => rw [Finset.sum_comm]
      rw [← Finset.sum_neg_distrib]
      refine Finset.sum_congr rfl fun i hi => ?_
      rw [← Finset.sum_neg_distrib]
      exact Finset.sum_congr rfl fun j hj => hf j (Finset.mem_range.mp hj) i (Finset.mem_range.mp hi)
    linarith
  refine key _ fun i hi j hj => ?_
  rw [← Pi.neg_apply, ← map_sum_neg,
    list_sum_perm_inv (P.geom A).ntuples σ h.nodup h.mem h.invol
      (fun n => -(coef (P.geom A) (cutDer (P.geom A) P.V P.rmax) n j i • (P.geom A).rij n j i))]
  have ev : ∀ (l : List Op) (F F' : Op → Vec), (∀ n ∈ l, F n c = F' n c) →
      (l.map F).sum c = (l.map F').sum c := by
    intro l F F' hF
    induction l with
    | nil => rfl
    | cons n l ih =>
      rw [List.map_cons, List.sum_cons, List.map_cons, List.sum_cons, Pi.add_apply, Pi.add_apply,
        hF n (by simp), ih fun n hn => hF n (List.mem_cons_of_mem _ hn)]
  refine ev _ _ _ fun n hn => ?_
  rw [coef_swap h hV hs hn hi hj, h.pos n hn i hi j hj, smul_neg, neg_neg, Pi.smul_apply, Pi.smul_apply,
    show (P.geom A).rot n = A.rawRotation n from rfl, hc.transpose_mulVec]

/-! ### Coulomb forces -/

theorem gammaForces_net (hA : InversionClosed A) {c : Fin 3} (hc : SameInImages A c) (cut : Option ℝ)
    (scc : Bool) (cd : ChargeDensity) (bohr : ℝ) (w : ℕ → ℝ) (q : List ℝ) :
    ∑ i ∈ Finset.range A.positions.length, gammaForces scc A.positions.length
      (corrDMatrix cd bohr w (nbList A cut)) bohr (dcField cut q (some (nbList A cut))) (chg q) i c = 0 := by
  cases scc with
  | false => simp [gammaForces]
  | true =>
  have hi : ∀ e ∈ nbList A cut, e.i < A.positions.length ∧ e.j < A.positions.length :=
    fun e he => nbList_i A cut e he
  let F : Nb → Vec := fun e => (chg q e.i * chg q e.j *
    (corrDG cd (w e.i) (w e.j) (e.d / bohr) + bohr ^ 2 * coulField cut e.d)) • e.n
  have hF : ∀ a, gammaForces true A.positions.length
      (corrDMatrix cd bohr w (nbList A cut)) bohr (dcField cut q (some (nbList A cut))) (chg q) a
      = (((nbList A cut).filter fun e => e.i == a).map F).sum := by
    intro a
    have hdG : ∑ j ∈ Finset.range A.positions.length, chg q j • corrDMatrix cd bohr w (nbList A cut) a j =
        (((nbList A cut).filter fun e => e.i == a).map fun e =>
          (chg q e.j * corrDG cd (w a) (w e.j) (e.d / bohr)) • e.n).sum := by
      rw [← sum_filter_range2 _ (nbList A cut) _ a fun e he => (hi e he).2]
      refine Finset.sum_congr rfl fun j _ => ?_
      rw [corrDMatrix, ← list_sum_smul]
      congr 1
      refine List.map_congr_left fun e he => ?_
      simp only [List.mem_filter, Bool.and_eq_true, beq_iff_eq] at he
      rw [he.2.2, smul_smul]
    simp only [gammaForces, if_true, hdG, dcField, Option.getD_some]
    rw [← list_sum_smul, ← List.sum_map_add, ← list_sum_smul]
    congr 1
    refine List.map_congr_left fun e he => ?_
    simp only [List.mem_filter, beq_iff_eq] at he
    simp only [F, he.2, smul_smul, ← add_smul]
    congr 1
    ring
  simp only [hF]
  rw [← Finset.sum_apply, sum_filter_range A.positions.length (nbList A cut) F fun e he => (hi e he).1]
  have hs : ((nbList A cut).map F).sum c = -((nbList A cut).map F).sum c := by
    conv_lhs => rw [← ((swap_perm A hA cut).map _).sum_eq, List.map_map]
    rw [← Pi.neg_apply, ← map_sum_neg]
    have ev : ∀ (l : List Nb) (F F' : Nb → Vec), (∀ n ∈ l, F n c = F' n c) →
        (l.map F).sum c = (l.map F').sum c := by
      intro l F F' hF
      induction l with
      | nil => rfl
      | cons n l ih =>
        rw [List.map_cons, List.sum_cons, List.map_cons, List.sum_cons, Pi.add_apply, Pi.add_apply,
          hF n (by simp), ih fun n hn => hF n (List.mem_cons_of_mem _ hn)]
    refine ev _ _ _ fun e he => ?_
    have hA2 := hA.commuting.ne_tat
    obtain ⟨-, -, hsc, -, hd, hn⟩ := (mem_nbList A hA2 cut e).1 he
    have hn' : (swapNb A e).n c = -e.n c := by
      show ((e.d)⁻¹ • _ : Vec) c = _
      rw [hn, hd, ← Pi.neg_apply, ← smul_neg, Pi.smul_apply, Pi.smul_apply]
      congr 1
      have e1 := rawTransform_affine A hA2 _ (invOp_cases A hA _ hsc).1.1
        (A.rawTransform (A.pos e.j) e.op) (A.pos e.i)
      rw [invOp_right A hA _ hsc] at e1
      rw [e1, hc.mulVec _ (rawRotation_orth A hA.commuting _)]
      simp
    show (chg q e.j * chg q e.i * (corrDG cd (w e.j) (w e.i) (e.d / bohr) + bohr ^ 2 * coulField cut e.d))
      • (swapNb A e).n c = _
    rw [hn', (c54_symmetric cd (w e.j) (w e.i) _).2, mul_comm (chg q e.j)]
    simp only [F, Pi.neg_apply, Pi.smul_apply, smul_eq_mul]
    ring
  linarith

/-! ### The solution -/

theorem scfLoop_pass {Mx : Type} {T : ScfTools P Mx} {x : Setup P} {N maxiter : ℕ} :
    ∀ (fuel i : ℕ) (st : Option (Pass P)) (m : Mx) (dq : List ℝ) r,
      (∀ p, st = some p → ∃ q, onePass T x N (some q) = .ok p) →
      scfLoop (scfEnv T x N) maxiter fuel i st m dq = .ok r →
      ∀ p, r.states = some p → ∃ q, onePass T x N (some q) = .ok p
  | 0, i, st, m, dq, r, h, hr, p, hp => by
    unfold scfLoop at hr
    cases hr
    exact h p hp
  | fuel + 1, i, st, m, dq, r, h, hr, p, hp => by
    unfold scfLoop at hr
    rcases h1 : onePass T x N (some dq) with e | p1
    · have : (scfEnv T x N).solve (some dq) = .error e := by simp only [scfEnv, h1, Except.map]
      rw [this] at hr
      cases hr
    · have e1 : (scfEnv T x N).solve (some dq) = .ok (some p1) := by simp only [scfEnv, h1, Except.map]
      rw [e1] at hr
      have hst : ∀ p, some p1 = some p → ∃ q, onePass T x N (some q) = .ok p := by
        rintro p ⟨⟩
        exact ⟨dq, h1⟩
      dsimp only at hr
      split at hr
      · cases hr
        exact hst p hp
      · split at hr
        · cases hr
        · exact scfLoop_pass fuel _ _ _ _ r hst hr p hp

/-- The states of the ground state come from one diagonalisation. -/
theorem groundState_pass {Mx : Type} {T : ScfTools P Mx} {x : Setup P} {p : Pass P}
    (h : groundState T A = .ok (x, p)) :
    setupOf P A = .ok x ∧ ∃ dq, (dq.isSome ↔ P.scc = true) ∧ onePass T x A.positions.length dq = .ok p := by
  unfold groundState at h
  simp only [Bind.bind, Except.bind] at h
  rcases hx : setupOf P A with e | x'
  · rw [hx] at h; cases h
  rw [hx] at h
  dsimp only at h
  rcases hr : getStates (scfEnv T x' A.positions.length) P.scc T.maxiter none T.mx T.guess with e | r
  · rw [hr] at h; cases h
  rw [hr] at h
  dsimp only at h
  rcases hs : r.states with _ | p'
  · rw [hs] at h; cases h
  rw [hs] at h
  dsimp only at h
  have hp : x' = x ∧ p' = p := by
    split at h
    · cases h
    · split at h
      · cases h
      · simp only [Pure.pure, Except.pure, Except.ok.injEq, Prod.mk.injEq] at h
        exact h
  obtain ⟨rfl, rfl⟩ := hp
  refine ⟨rfl, ?_⟩
  unfold getStates at hr
  by_cases hscc : P.scc = true
  · rw [if_pos hscc] at hr
    obtain ⟨q, hq⟩ := scfLoop_pass _ _ _ _ _ r (by simp) hr p' hs
    exact ⟨some q, by simp [hscc], hq⟩
  · rw [if_neg hscc] at hr
    split at hr
    · cases hr
      cases hs
    · rcases h1 : onePass T x' A.positions.length none with e | p1
      · have : (scfEnv T x' A.positions.length).solve none = .error e := by
          simp only [scfEnv, h1, Except.map]
        rw [this] at hr
        cases hr
      · have : (scfEnv T x' A.positions.length).solve none = .ok (some p1) := by
          simp only [scfEnv, h1, Except.map]
        rw [this] at hr
        cases hr
        cases hs
        exact ⟨none, by simp [hscc], h1⟩

theorem onePass_h1 {Mx : Type} {T : ScfTools P Mx} {x : Setup P} {N : ℕ} {dq : Option (List ℝ)}
    {p : Pass P} (h : onePass T x N dq = .ok p) :
    p.h1 = dq.map fun q (a b : Fin P.t.norb) => constructH1 P.t N (x.epsilon N q) (fun _ => 0) a b := by
  unfold onePass at h
  simp only [Bind.bind, Except.bind] at h
  split at h
  · cases h
  · split at h
    · cases h
    · split at h
      · rcases hm : mulliken P.wk _ x.S P.t.blocks P.val P.charge P.tol with e | q
        · rw [hm] at h; cases h
        · rw [hm] at h
          simp only [Pure.pure, Except.pure, Except.ok.injEq] at h
          rw [← h]
      · simp only [Pure.pure, Except.pure, Except.ok.injEq] at h
        rw [← h]

theorem setupOf_ok {x : Setup P} (h : setupOf P A = .ok x) :
    (∀ k, getMatrices (P.mat A) (P.kpt k) = .ok (x.st k)) ∧
      (P.scc = true → x.nb = nbList A P.gcut) := by
  unfold setupOf at h
  simp only [Bind.bind, Except.bind] at h
  rcases hl : (List.finRange P.nk).mapM (fun k => getMatrices (P.mat A) (P.kpt k)) with e | l
  · rw [hl] at h; cases h
  rw [hl] at h
  dsimp only at h
  have hx : (x.st = fun k : Fin P.nk => l.getD k.val MatSt.zero) ∧
      (P.scc = true → ∃ nb, getNeighbors A P.gcut = .ok nb ∧ x.nb = nb.getD []) := by
    by_cases hscc : P.scc = true
    · simp only [hscc, if_true] at h
      rcases hn : getNeighbors A P.gcut with e | nb
      · rw [hn] at h; cases h
      · rw [hn] at h
        simp only [Pure.pure, Except.pure, Except.ok.injEq] at h
        rw [← h]
        exact ⟨rfl, fun _ => ⟨nb, rfl, rfl⟩⟩
    · rw [if_neg hscc] at h
      simp only [Pure.pure, Except.pure, Except.ok.injEq] at h
      rw [← h]
      exact ⟨rfl, fun h => absurd h hscc⟩
  refine ⟨fun k => ?_, fun hscc => ?_⟩
  · obtain ⟨hr, hk⟩ := mapM_ok_cases _ _ _ hl k.val (by simp)
    rw [hx.1]
    simp only [List.getElem_finRange] at hk
    dsimp only
    rw [List.getD_eq_getElem?_getD, List.getElem?_eq_getElem hr, Option.getD_some, ← hk]
    rfl
  · obtain ⟨nb, hn, hx⟩ := hx.2 hscc
    have hc : P.gcut.isSome ∨ A.isCluster = true := by
      by_contra hc
      push Not at hc
      unfold getNeighbors at hn
      rw [if_pos (by cases hg : P.gcut <;> simp_all)] at hn
      cases hn
    rw [getNeighbors_eq A P.gcut hc] at hn
    cases hn
    rw [hx]
    split
    · rename_i he
      rw [List.isEmpty_iff.mp he]
      rfl
    · rfl

end Hotbit
