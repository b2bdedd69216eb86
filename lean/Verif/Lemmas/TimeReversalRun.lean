import Verif.Lemmas.TimeReversal
import Verif.Lemmas.HellmannFeynman

/-!
# Runs with k-points that represent others
-/

set_option linter.unusedSimpArgs false

namespace Hotbit

open Matrix
open scoped ComplexOrder

variable {P : ScfIn} {A : Atoms} {K K' : KSet} {κ : Fin K'.nk → Fin K.nk}

theorem Represents.sum (R : Represents K K' κ) (F : Fin K.nk → ℝ) :
    ∑ k, K'.wk k * F (κ k) = ∑ l, K.wk l * F l := by
  have : ∀ l, K.wk l * F l = ∑ k, if κ k = l then K'.wk k * F (κ k) else 0 := by
    intro l
    rw [R.weight, Finset.sum_mul]
    refine Finset.sum_congr rfl fun k _ => ?_
    by_cases h : κ k = l
    · rw [if_pos h, if_pos h, h]
    · rw [if_neg h, if_neg h, zero_mul]
  rw [Finset.sum_congr rfl fun l _ => this l, Finset.sum_comm]
  refine Finset.sum_congr rfl fun k _ => ?_
  rw [Finset.sum_ite_eq]
  simp

/-- The two runs have the same states at the k-points that represent each other. -/
structure RunPair (r : ScfRun (P.sampled K)) (r' : ScfRun (P.sampled K')) (κ : Fin K'.nk → Fin K.nk)
    (b : Fin K'.nk → Bool) : Prop where
  st : ∀ k, r'.st k = (r.st (κ k)).cj (b k)
  e : ∀ k, r'.e k = r.e (κ k)
  rho : ∀ k, r'.rho k = cjM (b k) (r.rho (κ k))
  rhoe : ∀ k, r'.rhoe k = cjM (b k) (r.rhoe (κ k))
  mu : r'.mu = r.mu
  dq : r'.dq = r.dq
  G : r'.G = r.G
  dG : r'.dG = r.dG
  s : r'.s = r.s
  phi : r'.phi = r.phi
  field : r'.field = r.field

namespace RunPair

variable {r : ScfRun (P.sampled K)} {r' : ScfRun (P.sampled K')} {b : Fin K'.nk → Bool}

theorem epsilon (h : RunPair r r' κ b) (N : ℕ) : r'.epsilon N = r.epsilon N := by
  unfold ScfRun.epsilon
  rw [h.G, h.phi, h.dq]

theorem h1 (h : RunPair r r' κ b) (N : ℕ) : r'.h1 N = r.h1 N := by
  unfold ScfRun.h1
  rw [h.epsilon]

theorem H0 (h : RunPair r r' κ b) (k : Fin K'.nk) : r'.H0 k = cjM (b k) (r.H0 (κ k)) := by
  unfold ScfRun.H0
  rw [h.st]
  rfl

theorem S (h : RunPair r r' κ b) (k : Fin K'.nk) : r'.S k = cjM (b k) (r.S (κ k)) := by
  unfold ScfRun.S
  rw [h.st]
  rfl

theorem f (h : RunPair r r' κ b) (k : Fin K'.nk) : r'.f k = r.f (κ k) := by
  unfold ScfRun.f
  rw [h.e, h.mu]

theorem diag (h : RunPair r r' κ b) (R : Represents K K' κ) :
    mullikenDiag K'.wk r'.rho r'.S = mullikenDiag K.wk r.rho r.S := by
  funext i
  unfold mullikenDiag
  rw [← R.sum fun l => (rowDot (r.rho l) (r.S l) i).re]
  refine Finset.sum_congr rfl fun k _ => ?_
  rw [h.rho, h.S, rowDot_cj, cj_re]

theorem mulliken (h : RunPair r r' κ b) (R : Represents K K' κ) :
    Hotbit.mulliken K'.wk r'.rho r'.S P.t.blocks P.val P.charge P.tol
      = Hotbit.mulliken K.wk r.rho r.S P.t.blocks P.val P.charge P.tol := by
  unfold Hotbit.mulliken
  rw [h.diag R]

theorem electrons (h : RunPair r r' κ b) (R : Represents K K' κ) :
    ∑ k, K'.wk k * ∑ a, r'.f k a = ∑ l, K.wk l * ∑ a, r.f l a := by
  rw [← R.sum fun l => ∑ a, r.f l a]
  exact Finset.sum_congr rfl fun k _ => by rw [h.f]

theorem _root_.Hotbit.sliceSum_re {n : ℕ} (v : Fin n → ℂ) (c : ℕ × ℕ) :
    (sliceSum v c).re = sliceSum (fun i => (v i).re) c := by
  unfold sliceSum
  have := map_list_sum Complex.reAddGroupHom (((List.ofFn v).drop c.1).take c.2)
  rw [show (((List.ofFn v).drop c.1).take c.2).sum.re
    = Complex.reAddGroupHom (((List.ofFn v).drop c.1).take c.2).sum from rfl, this,
    List.map_take, List.map_drop, List.map_ofFn]
  rfl

theorem _root_.Hotbit.re_cj {n : ℕ} (b : Bool) (D E M N : CMat n) (x : Fin n) :
    (∑ j, (cjM b D x j * (cjM b M)ᵀ x j - cjM b E x j * (cjM b N)ᵀ x j)).re
      = (∑ j, (D x j * Mᵀ x j - E x j * Nᵀ x j)).re := by
  rw [← cj_re b (∑ j, (D x j * Mᵀ x j - E x j * Nᵀ x j)), map_sum]
  congr 1
  refine Finset.sum_congr rfl fun j _ => ?_
  simp only [Matrix.transpose_apply, cjM_apply, map_sub, map_mul]

theorem force (h : RunPair r r' κ b) (R : Represents K K' κ) (i : ℕ) : r'.force A i = r.force A i := by
  have key : ∀ (c : Fin 3) (x : Fin P.t.norb),
      (forceDiag K'.wk (fun k => dHfull (r'.dH0 c k) (r'.dS c k) (r'.h1 A.positions.length)) (r'.dS c) r'.rho
        r'.rhoe x).re
      = (forceDiag K.wk (fun k => dHfull (r.dH0 c k) (r.dS c k) (r.h1 A.positions.length)) (r.dS c) r.rho
        r.rhoe x).re := by
    intro c x
    have re : ∀ {nk : ℕ} (w : Fin nk → ℝ) (X : Fin nk → ℂ), (∑ k, -((w k : ℂ) * X k)).re = -∑ k, w k * (X k).re := by
      intro nk w X
      rw [Complex.re_sum, ← Finset.sum_neg_distrib]
      exact Finset.sum_congr rfl fun k _ => by rw [Complex.neg_re, Complex.re_ofReal_mul]
    unfold forceDiag
    rw [re K'.wk, re K.wk]
    congr 1
    refine Eq.trans ?_ (R.sum fun l => (∑ j, (dHfull (r.dH0 c l) (r.dS c l) (r.h1 A.positions.length) x j
      * (r.rho l)ᵀ x j - r.dS c l x j * (r.rhoe l)ᵀ x j)).re)
    refine Finset.sum_congr rfl fun k _ => ?_
    congr 1
    have e1 : r'.dH0 c k = cjM (b k) (r.dH0 c (κ k)) := by
      unfold ScfRun.dH0; rw [h.st]; rfl
    have e2 : r'.dS c k = cjM (b k) (r.dS c (κ k)) := by
      unfold ScfRun.dS; rw [h.st]; rfl
    have e3 : dHfull (r'.dH0 c k) (r'.dS c k) (r'.h1 A.positions.length)
        = cjM (b k) (dHfull (r.dH0 c (κ k)) (r.dS c (κ k)) (r.h1 A.positions.length)) := by
      rw [e1, e2, h.h1, dHfull_cj]
    have q := re_cj (b k) (dHfull (r.dH0 c (κ k)) (r.dS c (κ k)) (r.h1 A.positions.length)) (r.dS c (κ k))
      (r.rho (κ k)) (r.rhoe (κ k)) x
    rw [← e3, ← e2, ← h.rho, ← h.rhoe] at q
    exact q
  funext c
  have hb : bandForces K'.wk (fun k => dHfull (r'.dH0 c k) (r'.dS c k) (r'.h1 A.positions.length)) (r'.dS c) r'.rho
        r'.rhoe P.t.blocks
      = bandForces K.wk (fun k => dHfull (r.dH0 c k) (r.dS c k) (r.h1 A.positions.length)) (r.dS c) r.rho
        r.rhoe P.t.blocks := by
    unfold bandForces
    refine List.map_congr_left fun q _ => ?_
    rw [sliceSum_re, sliceSum_re, funext (key c)]
  unfold ScfRun.force
  dsimp only
  have e : ∀ x y u v w z : ℝ, x = y → u = v → w = z → (x + u + w) * (P.hartree / P.bohr)
      = (y + v + z) * (P.hartree / P.bohr) := by rintro x y u v w z rfl rfl rfl; rfl
  refine e _ _ _ _ _ _ ?_ rfl ?_
  · exact congrArg (fun l : List ℝ => l.getD i 0) hb
  · rw [h.dG, h.field, h.dq]

end RunPair

/-- The matrices of a self-consistent solution are Hermitian. -/
theorem Converged.hermitian {P : ScfIn} {r : ScfRun P} (h : Converged P A r) (k : Fin P.nk) :
    (scfHamiltonian (r.h1 A.positions.length) (r.H0 k) (r.S k)).IsHermitian ∧ (r.H0 k).IsHermitian ∧
      (r.S k).IsHermitian := by
  obtain ⟨h1, h2⟩ := (h.states k).herm
  refine ⟨h1, ?_, h2⟩
  revert h1
  unfold ScfRun.h1
  by_cases hs : P.scc = true
  · rw [if_pos hs]
    intro h1
    ext i j
    have a := congrFun (congrFun h1 i) j
    have c := congrFun (congrFun h2 i) j
    simp only [Matrix.conjTranspose_apply, scfHamiltonian, Matrix.add_apply, Matrix.of_apply, star_add, star_mul']
      at a c ⊢
    rw [c, c28_symmetric _ _ _ _ (j : ℕ) (i : ℕ)] at a
    have e : ∀ x : ℝ, star (x : ℂ) = x := fun x => Complex.conj_ofReal x
    rw [e] at a
    exact add_right_cancel a
  · rw [if_neg hs]
    exact fun h1 => h1

theorem trace_real {n : ℕ} {M N : CMat n} (hM : M.IsHermitian) (hN : N.IsHermitian) :
    (∑ i, rowDot M N i).im = 0 := by
  have e : ∑ i, rowDot M N i = (M * N).trace := by
    unfold Matrix.trace
    exact Finset.sum_congr rfl fun i _ => rowDot_eq M N i
  rw [e, ← Complex.conj_eq_iff_im, starRingEnd_apply, ← Matrix.trace_conjTranspose, conjTranspose_mul, hM, hN,
    Matrix.trace_mul_comm]

theorem RunPair.energy {r : ScfRun (P.sampled K)} {r' : ScfRun (P.sampled K')} {b : Fin K'.nk → Bool}
    (h : RunPair r r' κ b) (R : Represents K K' κ) (hr : Converged (P.sampled K) A r) :
    r'.energy A = r.energy A := by
  have hT : ∀ l, (∑ i, rowDot (r.rho l) (r.H0 l) i).im = 0 := fun l =>
    trace_real (c20_hermitian _ _ 0).1 (hr.hermitian l).2.1
  have hb : bandEnergy K'.wk r'.rho r'.H0 P.tolIm = bandEnergy K.wk r.rho r.H0 P.tolIm := by
    unfold bandEnergy
    have e : (∑ k, (K'.wk k : ℂ) * ∑ i, rowDot (r'.rho k) (r'.H0 k) i)
        = ∑ l, (K.wk l : ℂ) * ∑ i, rowDot (r.rho l) (r.H0 l) i := by
      have e1 : ∀ l, (∑ i, rowDot (r.rho l) (r.H0 l) i) = (((∑ i, rowDot (r.rho l) (r.H0 l) i).re : ℝ) : ℂ) :=
        fun l => Complex.ext rfl (hT l)
      have e2 : ∀ k, (∑ i, rowDot (r'.rho k) (r'.H0 k) i)
          = (((∑ i, rowDot (r.rho (κ k)) (r.H0 (κ k)) i).re : ℝ) : ℂ) := by
        intro k
        rw [← cj_real (b k), ← e1, map_sum]
        exact Finset.sum_congr rfl fun i _ => by rw [h.rho, h.H0, rowDot_cj]
      have := congrArg Complex.ofReal (R.sum fun l => (∑ i, rowDot (r.rho l) (r.H0 l) i).re)
      rw [Complex.ofReal_sum, Complex.ofReal_sum] at this
      simp only [Complex.ofReal_mul] at this
      refine Eq.trans ?_ (this.trans ?_)
      · exact Finset.sum_congr rfl fun k _ => by rw [e2 k]
      · exact Finset.sum_congr rfl fun l _ => by rw [← e1 l]
    rw [e]
  have hc : coulombEnergy P.scc A.positions.length (chg r'.dq) (r'.epsilon A.positions.length)
      = coulombEnergy P.scc A.positions.length (chg r.dq) (r.epsilon A.positions.length) := by
    rw [h.dq, h.epsilon]
  unfold ScfRun.energy
  show (do
    let ebs ← bandEnergy K'.wk r'.rho r'.H0 P.tolIm
    let ecoul := coulombEnergy P.scc A.positions.length (chg r'.dq) (r'.epsilon A.positions.length)
    let erep ← repEnergy (P.geom A) P.V P.rmax P.hartree
    .ok (ebs * P.hartree + ecoul * P.hartree + erep - P.efree * P.hartree) : Except Exn ℝ) = _
  rw [hb, hc]
  rfl

/-- From the representatives to all k-points. -/
theorem Represents.forward (R : Represents K K' κ) {r : ScfRun (P.sampled K)}
    (h : Converged (P.sampled K) A r) : ∃ r' : ScfRun (P.sampled K'), ∃ b,
      Converged (P.sampled K') A r' ∧ RunPair r r' κ b := by
  choose b hb using fun k => sameOrInverse_phase (R.same k)
  let r' : ScfRun (P.sampled K') :=
    ⟨fun k => (r.st (κ k)).cj (b k), fun k => r.e (κ k), fun k => cjM (b k) (r.wf (κ k)), r.mu, r.dq, r.G, r.dG,
      r.s, r.phi, r.field⟩
  have hp : RunPair r r' κ b :=
    ⟨fun _ => rfl, fun _ => rfl, fun k => computeRho_cj _ _, fun k => computeRhoe_cj _ _ _, rfl, rfl, rfl, rfl, rfl,
      rfl, rfl⟩
  refine ⟨r', b, ⟨fun k => ?_, fun k => ?_, ?_, fun hs => ?_, h.potential⟩, hp⟩
  · have := h.mats (κ k)
    have e := getMatrices_cj (I := P.mat A) (hb k)
    show getMatrices (P.mat A) (K'.kpt k) = _
    rw [e, show getMatrices (P.mat A) (K.kpt (κ k)) = _ from this]
    rfl
  · rw [hp.h1, hp.H0, hp.S]
    have := areStates_cj (b := b k) (h.states (κ k))
    rw [← scfHamiltonian_cj] at this
    exact this
  · exact (hp.electrons R).trans h.electrons
  · exact (hp.mulliken R).trans (h.charges hs)

/-- From all k-points to the representatives. -/
theorem Represents.backward (R : Represents K K' κ) {r' : ScfRun (P.sampled K')}
    (h : Converged (P.sampled K') A r') : ∃ r : ScfRun (P.sampled K), ∃ b,
      Converged (P.sampled K) A r ∧ RunPair r r' κ b := by
  choose b hb using fun k => sameOrInverse_phase (R.same k)
  choose g hg using R.onto
  let r : ScfRun (P.sampled K) :=
    ⟨fun l => (r'.st (g l)).cj (b (g l)), fun l => r'.e (g l), fun l => cjM (b (g l)) (r'.wf (g l)), r'.mu, r'.dq,
      r'.G, r'.dG, r'.s, r'.phi, r'.field⟩
  have hm : ∀ l, getMatrices (P.mat A) (K.kpt l) = .ok (r.st l) := by
    intro l
    have e := getMatrices_cj (I := P.mat A) (k' := K.kpt l) (k := K'.kpt (g l)) (b := b (g l)) fun n => by
      rw [hb, cj_cj, hg]
    rw [e, show getMatrices (P.mat A) (K'.kpt (g l)) = _ from h.mats (g l)]
    rfl
  have hst : ∀ k, r'.st k = (r.st (κ k)).cj (b k) := by
    intro k
    have e := getMatrices_cj (I := P.mat A) (hb k)
    rw [hm, show getMatrices (P.mat A) (K'.kpt k) = _ from h.mats k] at e
    exact Except.ok.inj e
  have hh1 : r'.h1 A.positions.length = r.h1 A.positions.length := rfl
  have hs : ∀ l, AreStates (scfHamiltonian (r.h1 A.positions.length) (r.H0 l) (r.S l)) (r.S l) (r.e l) (r.wf l) := by
    intro l
    have := areStates_cj (b := b (g l)) (h.states (g l))
    rw [← scfHamiltonian_cj] at this
    exact this
  have hs' : ∀ k, AreStates (scfHamiltonian (r'.h1 A.positions.length) (r'.H0 k) (r'.S k)) (r'.S k)
      (r.e (κ k)) (cjM (b k) (r.wf (κ k))) := by
    intro k
    have := areStates_cj (b := b k) (hs (κ k))
    rw [← scfHamiltonian_cj] at this
    have e1 : r'.H0 k = cjM (b k) (r.H0 (κ k)) := by unfold ScfRun.H0; rw [hst]; rfl
    have e2 : r'.S k = cjM (b k) (r.S (κ k)) := by unfold ScfRun.S; rw [hst]; rfl
    rw [hh1, e1, e2]
    exact this
  have he : ∀ k, r'.e k = r.e (κ k) := fun k => c121_unique _ _ _ _ _ _ (h.states k) (hs' k)
  have hu : ∀ (F : ℝ → ℝ) (k : Fin K'.nk), computeRho (r'.wf k) (fun a => F (r'.e k a))
      = cjM (b k) (computeRho (r.wf (κ k)) fun a => F (r.e (κ k) a)) := by
    intro F k
    rw [← computeRho_cj]
    exact rho_unique (h.hermitian k).1 (h.hermitian k).2.2 (h.states k).solved_by (hs' k).solved_by F
  have hp : RunPair r r' κ b := by
    refine ⟨hst, he, fun k => ?_, fun k => ?_, rfl, rfl, rfl, rfl, rfl, rfl, rfl⟩
    · exact hu (fermi P.width r'.mu) k
    · have := hu (fun x => x * fermi P.width r'.mu x) k
      unfold ScfRun.rhoe
      rw [computeRhoe_eq, computeRhoe_eq]
      exact this
  refine ⟨r, b, ⟨hm, hs, ?_, fun hsc => ?_, h.potential⟩, hp⟩
  · exact (hp.electrons R).symm.trans h.electrons
  · exact (hp.mulliken R).symm.trans (h.charges hsc)

end Hotbit
