import Verif.Lemmas.ApartRun

/-!
# The converged calculation of structures that are far apart: energy and forces
-/

set_option linter.unusedSimpArgs false

namespace Hotbit

open Matrix

theorem joinM_h1 {m : ℕ} {n : Fin m → ℕ} {n' : ℕ} (g : (Σ c, Fin (n c)) ≃ Fin n') (H S : ∀ c, CMat (n c))
    {h' : Fin n' → Fin n' → ℝ} {h : ∀ c, Fin (n c) → Fin (n c) → ℝ}
    (e : ∀ c x y, h' (g ⟨c, x⟩) (g ⟨c, y⟩) = h c x y) :
    joinM g H + Matrix.of (fun x y => (h' x y : ℂ) * joinM g S x y)
      = joinM g fun c => H c + Matrix.of fun x y => (h c x y : ℂ) * S c x y := by
  refine joinM_ext g (fun c x y => ?_) fun c d hcd x y => ?_
  · rw [Matrix.add_apply, Matrix.of_apply, joinM_same, joinM_same, e, Matrix.add_apply, Matrix.of_apply]
  · rw [Matrix.add_apply, Matrix.of_apply, joinM_ne g H hcd, joinM_ne g S hcd, mul_zero, add_zero]

theorem rhoe_rho {n : ℕ} (wf : CMat n) (f e : Fin n → ℝ) :
    computeRhoe wf f e = computeRho wf fun a => e a * f a := by
  unfold computeRhoe computeRho
  congr 1
  ext a j
  simp only [Matrix.of_apply]
  push_cast
  ring

section Main

variable {m : ℕ} {P : Fin m → ScfIn} {P' : ScfIn} {A : Fin m → Atoms} {B : Atoms} {ix : Fin m → ℕ → ℕ} {e : Op}
  {kf : ∀ c, Fin P'.nk ≃ Fin (P c).nk} {elements : Fin m → String → Option ElementData}
  {elements' : String → Option ElementData}

theorem ApartCalc.sum_k (C : ApartCalc P P' A B ix e kf) (F : ∀ c, Fin (P c).nk → ℝ) :
    ∑ k, P'.wk k * ∑ c, F c (kf c k) = ∑ c, ∑ k, (P c).wk k * F c k := by
  simp only [Finset.mul_sum]
  rw [Finset.sum_comm]
  refine Finset.sum_congr rfl fun c _ => ?_
  rw [← Equiv.sum_comp (kf c)]
  refine Finset.sum_congr rfl fun k _ => ?_
  rw [(C.kpoints c k).2]

theorem ApartCalc.run (C : ApartCalc P P' A B ix e kf) (hA : ∀ c, Fits (P c) (A c) (elements c))
    (hB : Fits P' B elements') {r : ∀ c, ScfRun (P c)} (h : ∀ c, Converged (P c) (A c) (r c)) {mu : ℝ}
    (hmu : ∀ c, (r c).mu = mu) : ∃ r' : ScfRun P', Converged P' B r' ∧ r'.mu = mu ∧
      r'.dq = joinList B.positions.length (fun c => (A c).positions.length) ix (fun c => (r c).dq) ∧
      (∀ k, ∃ τ : Fin P'.t.norb ≃ Σ c, Fin (P c).t.norb, ∀ b,
        r'.e k b = (r (τ b).1).e (kf (τ b).1 k) (τ b).2) ∧
      (∀ En : Fin m → ℝ, 0 < P'.nk → (∀ c, (r c).energy (A c) = .ok (En c)) → r'.energy B = .ok (∑ c, En c)) ∧
      ∃ g : (Σ c, Fin (P c).t.norb) ≃ Fin P'.t.norb, JoinOrbitals P P' ix g ∧ ∀ k,
        r'.rho k = joinM g (fun c => (r c).rho (kf c k)) ∧ r'.rhoe k = joinM g (fun c => (r c).rhoe (kf c k)) := by
  have S := C.fragments
  obtain ⟨g, hg⟩ := C.orbitals hA hB
  choose st' hst' using fun k => C.mats hA hB (k := k) fun c => (h c).mats (kf c k)
  set q' := joinList B.positions.length (fun c => (A c).positions.length) ix (fun c => (r c).dq) with hq'
  obtain ⟨G', dG', s', phi', field', hes⟩ := C.potential q'
  set eps' : ℕ → ℝ := epsilonOf B.positions.length G' P'.bohr (fun i => phi'.getD i 0) (chg q') with heps'
  set H1' : Option (Fin P'.t.norb → Fin P'.t.norb → ℝ) := if P'.scc then
    some fun x y => constructH1 P'.t B.positions.length eps' (fun _ => 0) x y else none with hH1'
  have heps : P'.scc = true → ∀ c, ∀ i < (A c).positions.length,
      eps' (ix c i) = (r c).epsilon (A c).positions.length i := by
    intro hs c i hi
    obtain ⟨h1, h2, -⟩ := (h c).potential (by rw [(C.same c).2.2.1]; exact hs)
    obtain ⟨h1', h2', -⟩ := hes hs
    exact C.epsilon hs (q := fun c => (r c).dq) h1 h2 h1' h2' hi
  have hflat := fun k (K : Comp) => C.flat hA hg (hst' k) (fun c => (h c).mats (kf c k)) K
  have hS : ∀ k, P'.t.flat (st' k).S = joinM g fun c => (r c).S (kf c k) := fun k => hflat k .S
  have hH0 : ∀ k, P'.t.flat (st' k).H0 = joinM g fun c => (r c).H0 (kf c k) := fun k => hflat k .H
  have hH : ∀ k, scfHamiltonian H1' (P'.t.flat (st' k).H0) (P'.t.flat (st' k).S)
      = joinM g fun c => scfHamiltonian ((r c).h1 (A c).positions.length) ((r c).H0 (kf c k)) ((r c).S (kf c k)) := by
    intro k
    rw [hS, hH0]
    by_cases hs : P'.scc = true
    · have e1 : H1' = some fun x y : Fin P'.t.norb => constructH1 P'.t B.positions.length eps' (fun _ => 0) x y := by
        rw [hH1', if_pos hs]
      have e2 : ∀ c, (r c).h1 (A c).positions.length = some fun x y : Fin (P c).t.norb =>
          constructH1 (P c).t (A c).positions.length ((r c).epsilon (A c).positions.length) (fun _ => 0) x y := by
        intro c
        unfold ScfRun.h1
        rw [if_pos (by rw [(C.same c).2.2.1]; exact hs)]
      rw [e1]
      simp only [e2]
      refine joinM_h1 g _ _ (h' := fun x y : Fin P'.t.norb =>
        constructH1 P'.t B.positions.length eps' (fun _ => 0) x y) (h := fun c (x y : Fin (P c).t.norb) =>
          constructH1 (P c).t (A c).positions.length ((r c).epsilon (A c).positions.length) (fun _ => 0) x y)
        fun c x y => ?_
      rw [h1_value hB, h1_value (hA c), (hg c x).1, (hg c y).1, heps hs c _ ((hA c).lay.lt x),
        heps hs c _ ((hA c).lay.lt y)]
    · have e1 : H1' = none := by rw [hH1', if_neg hs]
      have e2 : ∀ c, (r c).h1 (A c).positions.length = none := by
        intro c
        unfold ScfRun.h1
        rw [if_neg (by rw [(C.same c).2.2.1]; exact hs)]
      rw [e1]
      simp only [e2]
      rfl
  choose e' wf' hstates hτ hrho using fun k => join_states g fun c => (h c).states (kf c k)
  set r' : ScfRun P' := ⟨st', e', wf', mu, q', G', dG', s', phi', field'⟩ with hr'
  have hwid : ∀ c, (P c).width = P'.width := fun c => (C.same c).2.2.2.2.2.1
  have hf : ∀ c k a, (r c).f k a = fermi P'.width mu ((r c).e k a) := by
    intro c k a
    rw [← hwid c, ← hmu c]
    rfl
  have hrho' : ∀ k, r'.rho k = joinM g fun c => (r c).rho (kf c k) := by
    intro k
    refine (hrho k (fermi P'.width mu)).trans ?_
    congr 1
    funext c
    rw [← hwid c, ← hmu c]
    rfl
  have hrhoe' : ∀ k, r'.rhoe k = joinM g fun c => (r c).rhoe (kf c k) := by
    intro k
    refine (rhoe_rho _ _ _).trans ((hrho k (fun x => x * fermi P'.width mu x)).trans ?_)
    congr 1
    funext c
    rw [← hwid c, ← hmu c]
    exact (rhoe_rho _ _ _).symm
  have hh1 : r'.h1 B.positions.length = H1' := rfl
  have hherm : ∀ c k, ((r c).H0 (kf c k)).IsHermitian := fun c k =>
    (flatten_hermitian ((h c).mats (kf c k)) (C.goods c k).id (C.goods c k).follow
      (C.goods c k).mirror.toInversePairs (fun i _ => (C.goods c k).tables.parity _) fun x => by
        have := (hA c).numAt x
        rw [matN]
        exact ⟨this.1, this.2.1⟩).1
  have hel : ∑ k, P'.wk k * ∑ a, r'.f k a = P'.nel := by
    have e1 : ∀ k, ∑ a, r'.f k a = ∑ c, ∑ a, (r c).f (kf c k) a := by
      intro k
      obtain ⟨τ, hτk⟩ := hτ k
      simp only [hf]
      rw [← Fintype.sum_sigma' fun c a => fermi P'.width mu ((r c).e (kf c k) a), ← Equiv.sum_comp τ]
      refine Finset.sum_congr rfl fun b _ => ?_
      rw [← hτk b]
      rfl
    simp only [e1]
    rw [C.sum_k fun c k => ∑ a, (r c).f k a, C.count.2.1]
    exact Finset.sum_congr rfl fun c _ => (h c).electrons
  refine ⟨r', ?_, rfl, rfl, hτ, ?_, g, hg, fun k => ⟨hrho' k, hrhoe' k⟩⟩
  · refine ⟨hst', fun k => ?_, hel, fun hs => ?_, hes⟩
    · rw [hh1]
      show AreStates (scfHamiltonian H1' (P'.t.flat (st' k).H0) (P'.t.flat (st' k).S)) (P'.t.flat (st' k).S)
        (e' k) (wf' k)
      rw [hH, hS]
      exact hstates k
    · have hNs : B.symbols.length = B.positions.length := by simp [Atoms.symbols, Atoms.positions]
      have hst2 : ∀ k, AreStates (scfHamiltonian H1' (P'.t.flat (st' k).H0) (P'.t.flat (st' k).S))
          (P'.t.flat (st' k).S) (e' k) (wf' k) := fun k => by
        rw [hH, hS]
        exact hstates k
      obtain ⟨dq', h1, h2, -⟩ := c21_total elements' B.symbols P'.t hB.orbitals P'.wk r'.wf r'.S r'.f
        (fun k a => ((hst2 k).orthonormal a a).trans (if_pos rfl)) P'.val (by rw [hB.valences, hNs]) P'.charge
        P'.tol C.tols.1 (by
          rw [hel, C.count.2.1, C.val_sum hA hB, C.count.2.2.1, ← Finset.sum_sub_distrib]
          exact Finset.sum_congr rfl fun c _ => C.count.1 c)
      refine Eq.trans h1 (congrArg Except.ok ?_)
      show dq' = q'
      have l1 : dq'.length = B.positions.length := by rw [h2, hNs]
      have l2 : q'.length = B.positions.length := by simp [hq', joinList]
      refine List.ext_getElem (by rw [l1, l2]) fun x hx1 hx2 => ?_
      rw [l1] at hx1
      obtain ⟨c, i, hi, rfl⟩ := S.parts.split hx1
      have hNs0 : (A c).symbols.length = (A c).positions.length := by simp [Atoms.symbols, Atoms.positions]
      have g1 : dq'[ix c i] = chg dq' (ix c i) := by
        unfold chg
        rw [List.getD_eq_getElem?_getD, List.getElem?_eq_getElem (by omega), Option.getD_some]
      have g2 : q'[ix c i] = chg (r c).dq i := by
        rw [← joinList_get S.parts (fun c => (r c).dq) hi]
        unfold chg
        rw [List.getD_eq_getElem?_getD, List.getElem?_eq_getElem hx2, Option.getD_some]
      have b1 := blocks_length elements' B.symbols P'.t hB.orbitals
      have b2 := blocks_length (elements c) (A c).symbols (P c).t (hA c).orbitals
      rw [hNs] at b1
      rw [hNs0] at b2
      have val1 : chg dq' (ix c i) = sliceSum (mullikenDiag P'.wk r'.rho r'.S)
          (P'.t.blocks[ix c i]'(by rw [b1]; exact hx1)) - P'.val.getD (ix c i) 0 := by
        unfold chg
        rw [mulliken_list h1, List.getD_eq_getElem?_getD, List.getElem?_eq_getElem (by
          simp [b1, hB.valences, hx1]), Option.getD_some, List.getElem_zipWith,
          List.getElem_map, List.getD_eq_getElem?_getD, List.getElem?_eq_getElem (by
          rw [hB.valences]; exact hx1), Option.getD_some]
        rfl
      have val2 : chg (r c).dq i = sliceSum (mullikenDiag (P c).wk (r c).rho (r c).S)
          ((P c).t.blocks[i]'(by rw [b2]; exact hi)) - (P c).val.getD i 0 := by
        unfold chg
        rw [mulliken_list ((h c).charges (by rw [(C.same c).2.2.1]; exact hs)), List.getD_eq_getElem?_getD,
          List.getElem?_eq_getElem (by simp [b2, (hA c).valences, hi]), Option.getD_some, List.getElem_zipWith,
          List.getElem_map, List.getD_eq_getElem?_getD, List.getElem?_eq_getElem (by
          rw [(hA c).valences]; exact hi), Option.getD_some]
      rw [g1, g2, val1, val2, (C.atoms c i hi).2.2.2.2]
      congr 1
      rw [sliceSum_trace hB _ _ _ (List.getElem?_eq_getElem (by rw [b1]; exact hx1)),
        sliceSum_trace (hA c) _ _ _ (List.getElem?_eq_getElem (by rw [b2]; exact hi)), ← Equiv.sum_comp (kf c)]
      refine Finset.sum_congr rfl fun k _ => ?_
      rw [(C.kpoints c k).2]
      congr 2
      have e1 : r'.rho k * r'.S k = joinM g fun c => (r c).rho (kf c k) * (r c).S (kf c k) := by
        rw [hrho' k]
        show _ * P'.t.flat (st' k).S = _
        rw [hS k, joinM_mul]
      rw [e1]
      exact C.atom_sum hA hg (fun c => (r c).rho (kf c k) * (r c).S (kf c k)) hi
  · intro En hnk hE
    have split : ∀ c, ∃ eb er, bandEnergy (P c).wk (r c).rho (r c).H0 (P c).tolIm = .ok eb ∧
        repEnergy ((P c).geom (A c)) (P c).V (P c).rmax (P c).hartree = .ok er ∧
        En c = eb * (P c).hartree + coulombEnergy (P c).scc (A c).positions.length (chg (r c).dq)
          ((r c).epsilon (A c).positions.length) * (P c).hartree + er - (P c).efree * (P c).hartree := by
      intro c
      have := hE c
      unfold ScfRun.energy at this
      rcases hb : bandEnergy (P c).wk (r c).rho (r c).H0 (P c).tolIm with er | eb
      · rw [hb] at this; cases this
      rcases hp : repEnergy ((P c).geom (A c)) (P c).V (P c).rmax (P c).hartree with er | er
      · rw [hb, hp] at this; cases this
      rw [hb, hp] at this
      simp only [Bind.bind, Except.bind, Except.ok.injEq] at this
      exact ⟨eb, er, rfl, rfl, this.symm⟩
    choose eb er hb hp hEn using split
    unfold ScfRun.energy
    have hb' : bandEnergy P'.wk r'.rho r'.H0 P'.tolIm = .ok (∑ c, eb c) := by
      have t1 : ∀ k, (∑ i, rowDot (r'.rho k) (r'.H0 k) i)
          = ∑ c, ((r c).rho (kf c k) * (r c).H0 (kf c k)).trace := by
        intro k
        rw [rowDot_sum, hrho' k]
        show (_ * P'.t.flat (st' k).H0).trace = _
        rw [hH0 k, joinM_mul, joinM_trace]
      have t2 : ∀ c k, ((r c).rho (kf c k) * (r c).H0 (kf c k)).trace
          = ((((r c).rho (kf c k) * (r c).H0 (kf c k)).trace.re : ℝ) : ℂ) := by
        intro c k
        have := trace_herm_real ((r c).rho (kf c k)) ((r c).H0 (kf c k)) (c20_hermitian _ _ 0).1 (hherm c k)
        refine Complex.ext (by simp) (by simpa using this)
      have hre : ∀ c, eb c = ∑ k, (P c).wk k * ((r c).rho k * (r c).H0 k).trace.re := by
        intro c
        have := hb c
        unfold bandEnergy at this
        dsimp only at this
        split at this
        · rw [← Except.ok.inj this, Complex.re_sum]
          refine Finset.sum_congr rfl fun k _ => ?_
          rw [Complex.re_ofReal_mul, rowDot_sum]
        · cases this
      have tot : (∑ k, (P'.wk k : ℂ) * ∑ i, rowDot (r'.rho k) (r'.H0 k) i) = ((∑ c, eb c : ℝ) : ℂ) := by
        rw [Finset.sum_congr rfl fun c _ => hre c, ← C.sum_k fun c k => ((r c).rho k * (r c).H0 k).trace.re]
        push_cast
        refine Finset.sum_congr rfl fun k _ => ?_
        rw [t1]
        congr 1
        exact Finset.sum_congr rfl fun c _ => t2 c k
      unfold bandEnergy
      dsimp only
      rw [tot, Complex.ofReal_im, Complex.ofReal_re, if_pos C.tols.2]
    have hc' : coulombEnergy P'.scc B.positions.length (chg r'.dq) (r'.epsilon B.positions.length)
        = ∑ c, coulombEnergy (P c).scc (A c).positions.length (chg (r c).dq)
          ((r c).epsilon (A c).positions.length) := by
      unfold coulombEnergy
      simp only [(C.same _).2.2.1]
      split
      · rename_i hs
        rw [S.parts.sum, ← Finset.mul_sum]
        congr 1
        refine Finset.sum_congr rfl fun c _ => Finset.sum_congr rfl fun i hi => ?_
        rw [Finset.mem_range] at hi
        exact congrArg₂ (· * ·) (joinList_get S.parts (fun c => (r c).dq) hi) (heps hs c i hi)
      · simp
    have hr := C.repulsion hA (k := ⟨0, hnk⟩) (fun c => (h c).mats (kf c ⟨0, hnk⟩)) hp
    rw [hb', hr]
    simp only [Bind.bind, Except.bind]
    rw [hc', C.count.2.2.2]
    congr 1
    rw [Finset.sum_mul, Finset.sum_mul, Finset.sum_mul, ← Finset.sum_add_distrib, ← Finset.sum_add_distrib,
      ← Finset.sum_sub_distrib]
    refine Finset.sum_congr rfl fun c _ => ?_
    rw [hEn c, (C.same c).2.1]

/-- Repulsive forces. -/
theorem ApartCalc.rep_force (C : ApartCalc P P' A B ix e kf) {c : Fin m} {i : ℕ} (hi : i < (A c).positions.length) :
    repForces (P'.geom B) P'.V P'.rmax (ix c i) = repForces ((P c).geom (A c)) (P c).V (P c).rmax i := by
  classical
  obtain ⟨-, -, -, -, -, -, -, -, s9, s10⟩ := C.same c
  have hi' : i < ((P c).geom (A c)).N := by rw [geomN]; exact hi
  rw [c31_forces C.inv.idFirst, c31_forces (C.invs c).idFirst, centralForce_coef, centralForce_coef, s9, s10, geomN, geomN,
    C.fragments.parts.sum_one _ c]
  · refine Finset.sum_congr rfl fun j hj => ?_
    rw [Finset.mem_range] at hj
    have hj' : j < ((P c).geom (A c)).N := by rw [geomN]; exact hj
    have H := C.inside c
    obtain ⟨Q, hQ⟩ : ∃ Q : Op → Prop, ∀ n, Q n ↔ ¬ (i = j ∧ n = 0) ∧ norm3 (((P c).geom (A c)).rij n i j) < P'.rmax :=
      ⟨_, fun _ => Iff.rfl⟩
    have key := H.reindex hi' hj' Q (fun n hn => ((hQ n).1 hn).2.le.trans (C.reach c i hi j hj).2.1)
      (fun n => (P'.V (((P c).geom (A c)).sym i) (((P c).geom (A c)).sym j) 1 (norm3 (((P c).geom (A c)).rij n i j))
        / norm3 (((P c).geom (A c)).rij n i j)) • ((P c).geom (A c)).rij n i j)
    have e1 : ∀ n, coef ((P c).geom (A c)) (cutDer ((P c).geom (A c)) P'.V P'.rmax) n i j •
        ((P c).geom (A c)).rij n i j = if Q n then
        (P'.V (((P c).geom (A c)).sym i) (((P c).geom (A c)).sym j) 1 (norm3 (((P c).geom (A c)).rij n i j))
          / norm3 (((P c).geom (A c)).rij n i j)) • ((P c).geom (A c)).rij n i j else 0 := by
      intro n
      unfold coef cutDer
      by_cases h1 : i = j ∧ n = 0
      · rw [if_pos h1, if_neg fun h => ((hQ n).1 h).1 h1, zero_smul]
      · rw [if_neg h1]
        by_cases h2 : norm3 (((P c).geom (A c)).rij n i j) < P'.rmax
        · rw [if_pos h2, if_pos ((hQ n).2 ⟨h1, h2⟩)]
        · rw [if_neg h2, if_neg fun h => h2 ((hQ n).1 h).2, zero_div, zero_smul]
    have e2 : ∀ n, coef (P'.geom B) (cutDer (P'.geom B) P'.V P'.rmax) n (ix c i) (ix c j) •
        (P'.geom B).rij n (ix c i) (ix c j) = if Q n then
        (P'.V (((P c).geom (A c)).sym i) (((P c).geom (A c)).sym j) 1 (norm3 (((P c).geom (A c)).rij n i j))
          / norm3 (((P c).geom (A c)).rij n i j)) • ((P c).geom (A c)).rij n i j else 0 := by
      intro n
      have e3 : ix c i = ix c j ↔ i = j := ⟨H.inj i hi' j hj', fun h => by rw [h]⟩
      unfold coef cutDer
      rw [H.rij n i hi' j hj', H.sym i hi', H.sym j hj']
      by_cases h1 : i = j ∧ n = 0
      · rw [if_pos ⟨e3.2 h1.1, h1.2⟩, if_neg fun h => ((hQ n).1 h).1 h1, zero_smul]
      · rw [if_neg fun h => h1 ⟨e3.1 h.1, h.2⟩]
        by_cases h2 : norm3 (((P c).geom (A c)).rij n i j) < P'.rmax
        · rw [if_pos h2, if_pos ((hQ n).2 ⟨h1, h2⟩)]
        · rw [if_neg h2, if_neg fun h => h2 ((hQ n).1 h).2, zero_div, zero_smul]
    simp only [e1, e2]
    exact key
  · intro d hd j hj
    refine List.sum_eq_zero fun z hz => ?_
    obtain ⟨n, hn, rfl⟩ := List.mem_map.1 hz
    unfold coef cutDer
    rw [if_neg fun h => C.ne hd.symm hi hj h.1, if_neg (not_lt.2 (C.pair_zero hd.symm hi hj hn).le), zero_div,
      zero_smul]

/-- Coulomb forces. -/
theorem ApartCalc.coul_force (C : ApartCalc P P' A B ix e kf) (hs : P'.scc = true) {q : Fin m → List ℝ} {c : Fin m}
    {G G' : ℕ → ℕ → ℝ} {dG dG' : ℕ → ℕ → Vec} {s s' : DC} {field field' : List Vec}
    (h : EsState (P c).cd (P c).bohr (P c).U (P c).w (P c).gcut (A c) (q c) G dG s) (hf : dcGetField s = .ok field)
    (h' : EsState P'.cd P'.bohr P'.U P'.w P'.gcut B
      (joinList B.positions.length (fun c => (A c).positions.length) ix q) G' dG' s')
    (hf' : dcGetField s' = .ok field') {i : ℕ} (hi : i < (A c).positions.length) :
    gammaForces true B.positions.length dG' P'.bohr (fun i => field'.getD i 0)
        (chg (joinList B.positions.length (fun c => (A c).positions.length) ix q)) (ix c i)
      = gammaForces true (A c).positions.length dG (P c).bohr (fun i => field.getD i 0) (chg (q c)) i := by
  have S := C.fragments
  obtain ⟨s1, -, -, -, -, -, s7, s8, -⟩ := C.same c
  rw [gammaForces_state h hf hi, gammaForces_state h' hf' (S.parts.lt c i hi), gammaForces_pairs, gammaForces_pairs,
    S.parts.sum_one _ c]
  · refine Finset.sum_congr rfl fun j hj => ?_
    rw [Finset.mem_range] at hj
    rw [joinList_get S.parts q hi, joinList_get S.parts q hj, (C.atoms c i hi).2.2.2.1, (C.atoms c j hj).2.2.2.1,
      s1, s7, s8, S.near_vec hi hj fun x =>
        corrDG P'.cd ((P c).w i) ((P c).w j) (x / P'.bohr) + P'.bohr ^ 2 * coulField P'.gcut x]
  · intro d hd j hj
    rw [(far_sum S.comm (S.parts.lt c i hi) (S.parts.lt d j hj)
      (fun n hn => C.not_near hs hd.symm hi hj hn) fun x =>
        corrDG P'.cd (P'.w (ix c i)) (P'.w (ix d j)) (x / P'.bohr) + P'.bohr ^ 2 * coulField P'.gcut x).2, smul_zero]

/-- Band-structure forces. -/
theorem ApartCalc.band_force (C : ApartCalc P P' A B ix e kf) (hA : ∀ c, Fits (P c) (A c) (elements c))
    (hB : Fits P' B elements') (T : MutualDerivatives P'.tab) {r : ∀ c, ScfRun (P c)} {r' : ScfRun P'}
    (h : ∀ c, Converged (P c) (A c) (r c)) (h' : Converged P' B r')
    (hdq : r'.dq = joinList B.positions.length (fun c => (A c).positions.length) ix fun c => (r c).dq)
    {g : (Σ c, Fin (P c).t.norb) ≃ Fin P'.t.norb} (hg : JoinOrbitals P P' ix g)
    (hrho : ∀ k, r'.rho k = joinM g (fun c => (r c).rho (kf c k)) ∧
      r'.rhoe k = joinM g (fun c => (r c).rhoe (kf c k)))
    {c : Fin m} {i : ℕ} (hi : i < (A c).positions.length) (a : Fin 3) :
    (bandForces P'.wk (fun k => dHfull (r'.dH0 a k) (r'.dS a k) (r'.h1 B.positions.length)) (r'.dS a) r'.rho
        r'.rhoe P'.t.blocks).getD (ix c i) 0
      = (bandForces (P c).wk (fun k => dHfull ((r c).dH0 a k) ((r c).dS a k) ((r c).h1 (A c).positions.length))
        ((r c).dS a) (r c).rho (r c).rhoe (P c).t.blocks).getD i 0 := by
  have S := C.fragments
  have hflat := fun k (K : Comp) => C.flatD T hA hB hg (h'.mats k) (fun c => (h c).mats (kf c k)) K a
  have hS : ∀ k, r'.dS a k = joinM g fun c => (r c).dS a (kf c k) := fun k => hflat k .S
  have hH0 : ∀ k, r'.dH0 a k = joinM g fun c => (r c).dH0 a (kf c k) := fun k => hflat k .H
  have hH : ∀ k, dHfull (r'.dH0 a k) (r'.dS a k) (r'.h1 B.positions.length)
      = joinM g fun c => dHfull ((r c).dH0 a (kf c k)) ((r c).dS a (kf c k)) ((r c).h1 (A c).positions.length) := by
    intro k
    rw [hS, hH0]
    by_cases hs : P'.scc = true
    · have heps : ∀ c, ∀ i < (A c).positions.length,
          r'.epsilon B.positions.length (ix c i) = (r c).epsilon (A c).positions.length i := by
        intro c i hi
        obtain ⟨h1, h2, -⟩ := (h c).potential (by rw [(C.same c).2.2.1]; exact hs)
        obtain ⟨h1', h2', -⟩ := h'.potential hs
        unfold ScfRun.epsilon
        rw [hdq] at h1' ⊢
        exact C.epsilon hs (q := fun c => (r c).dq) h1 h2 h1' h2' hi
      have e1 : r'.h1 B.positions.length = some fun x y : Fin P'.t.norb =>
          constructH1 P'.t B.positions.length (r'.epsilon B.positions.length) (fun _ => 0) x y := by
        unfold ScfRun.h1
        rw [if_pos hs]
      have e2 : ∀ c, (r c).h1 (A c).positions.length = some fun x y : Fin (P c).t.norb =>
          constructH1 (P c).t (A c).positions.length ((r c).epsilon (A c).positions.length) (fun _ => 0) x y := by
        intro c
        unfold ScfRun.h1
        rw [if_pos (by rw [(C.same c).2.2.1]; exact hs)]
      rw [e1]
      simp only [e2]
      refine joinM_h1 g _ _ (h' := fun x y : Fin P'.t.norb =>
        constructH1 P'.t B.positions.length (r'.epsilon B.positions.length) (fun _ => 0) x y)
        (h := fun c (x y : Fin (P c).t.norb) =>
          constructH1 (P c).t (A c).positions.length ((r c).epsilon (A c).positions.length) (fun _ => 0) x y)
        fun c x y => ?_
      rw [h1_value hB, h1_value (hA c), (hg c x).1, (hg c y).1, heps c _ ((hA c).lay.lt x),
        heps c _ ((hA c).lay.lt y)]
    · have e1 : r'.h1 B.positions.length = none := by
        unfold ScfRun.h1
        rw [if_neg hs]
      have e2 : ∀ c, (r c).h1 (A c).positions.length = none := by
        intro c
        unfold ScfRun.h1
        rw [if_neg (by rw [(C.same c).2.2.1]; exact hs)]
      rw [e1]
      simp only [e2]
      rfl
  rw [bandForces_entry hB _ _ _ _ (S.parts.lt c i hi), bandForces_entry (hA c) _ _ _ _ hi,
    ← Equiv.sum_comp (kf c)]
  refine Finset.sum_congr rfl fun k _ => ?_
  rw [(C.kpoints c k).2, hH k, hS k, (hrho k).1, (hrho k).2, joinM_mul, joinM_mul, joinM_sub]
  congr 3
  exact C.atom_sum hA hg (fun c => dHfull ((r c).dH0 a (kf c k)) ((r c).dS a (kf c k))
    ((r c).h1 (A c).positions.length) * (r c).rho (kf c k) - (r c).dS a (kf c k) * (r c).rhoe (kf c k)) hi

/-- The forces on the atoms of a structure are its own. -/
theorem ApartCalc.force (C : ApartCalc P P' A B ix e kf) (hA : ∀ c, Fits (P c) (A c) (elements c))
    (hB : Fits P' B elements') (T : MutualDerivatives P'.tab) {r : ∀ c, ScfRun (P c)} {r' : ScfRun P'}
    (h : ∀ c, Converged (P c) (A c) (r c)) (h' : Converged P' B r')
    (hdq : r'.dq = joinList B.positions.length (fun c => (A c).positions.length) ix fun c => (r c).dq)
    {g : (Σ c, Fin (P c).t.norb) ≃ Fin P'.t.norb} (hg : JoinOrbitals P P' ix g)
    (hrho : ∀ k, r'.rho k = joinM g (fun c => (r c).rho (kf c k)) ∧
      r'.rhoe k = joinM g (fun c => (r c).rhoe (kf c k)))
    {c : Fin m} {i : ℕ} (hi : i < (A c).positions.length) : r'.force B (ix c i) = (r c).force (A c) i := by
  funext a
  have e1 := C.band_force hA hB T h h' hdq hg hrho hi a
  have e2 := congrFun (C.rep_force (c := c) hi) a
  have e3 : gammaForces P'.scc B.positions.length r'.dG P'.bohr (fun i => r'.field.getD i 0) (chg r'.dq) (ix c i) a
      = gammaForces (P c).scc (A c).positions.length (r c).dG (P c).bohr (fun i => (r c).field.getD i 0)
        (chg (r c).dq) i a := by
    have hsc := (C.same c).2.2.1
    by_cases hs : P'.scc = true
    · obtain ⟨h1, -, h2⟩ := (h c).potential (by rw [hsc]; exact hs)
      obtain ⟨h1', -, h2'⟩ := h'.potential hs
      rw [hdq] at h1' ⊢
      rw [hsc, hs]
      exact congrFun (C.coul_force hs (q := fun c => (r c).dq) h1 h2 h1' h2' hi) a
    · have hs' : P'.scc = false := by simpa using hs
      rw [hsc, hs']
      simp [gammaForces]
  unfold ScfRun.force
  dsimp only
  rw [e1, e2, e3, (C.same c).1, (C.same c).2.1]

end Main

end Hotbit
