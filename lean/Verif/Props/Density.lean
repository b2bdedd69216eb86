import Mathlib.Tactic.IntervalCases
import Verif.Model.Density
import Verif.Lemmas.Elements
import Verif.Props.Occupations
import Mathlib.Algebra.BigOperators.Field
import Mathlib.Algebra.BigOperators.Fin
import Mathlib.Analysis.Complex.Order

/-!
# C20, C21, C22, C59, C65: density matrix, Mulliken charges, band energy and forces
-/

set_option linter.unusedSimpArgs false

namespace Hotbit

open Matrix
open scoped ComplexOrder

variable {nk n : ℕ}

/-! ## C20 -/

/-- Eigenvectors (rows of `wf`) are normalized with respect to the overlap `S`. -/
def SNormalized (wf S : CMat n) : Prop :=
  ∀ a, ∑ i, ∑ j, (starRingEnd ℂ) (wf a i) * S i j * wf a j = 1

/-- Generalized eigenvalue equation `H c_a = e_a S c_a` for every row `a` of `wf`. -/
def Eigen (H S wf : CMat n) (e : Fin n → ℝ) : Prop :=
  ∀ a i, ∑ j, H i j * wf a j = e a * ∑ j, S i j * wf a j

theorem computeRho_apply (wf : CMat n) (occ : Fin n → ℝ) (i j : Fin n) :
    computeRho wf occ i j = ∑ a, wf a i * ((occ a : ℂ) * (starRingEnd ℂ) (wf a j)) := by
  simp [computeRho, Matrix.mul_apply]

theorem computeRhoe_eq (wf : CMat n) (occ e : Fin n → ℝ) :
    computeRhoe wf occ e = computeRho wf (fun a => e a * occ a) := by
  ext i j
  simp [computeRho, computeRhoe, Matrix.mul_apply]

/-- C20: the density matrix and the energy-weighted one are Hermitian. -/
theorem c20_hermitian (wf : CMat n) (occ e : Fin n → ℝ) :
    (computeRho wf occ).IsHermitian ∧ (computeRhoe wf occ e).IsHermitian := by
  have h : ∀ occ : Fin n → ℝ, (computeRho wf occ).IsHermitian := by
    intro occ
    ext i j
    rw [Matrix.conjTranspose_apply, computeRho_apply, computeRho_apply, star_sum]
    refine Finset.sum_congr rfl fun a _ => ?_
    simp
    ring
  exact ⟨h occ, by rw [computeRhoe_eq]; exact h _⟩

/-- C20: for non-negative occupations the density matrix is positive semidefinite. -/
theorem c20_posSemidef (wf : CMat n) (occ : Fin n → ℝ) (h : ∀ a, 0 ≤ occ a) :
    (computeRho wf occ).PosSemidef := by
  have e : computeRho wf occ = (Matrix.of fun a j => ((Real.sqrt (occ a) : ℝ) : ℂ) *
      (starRingEnd ℂ) (wf a j) : CMat n)ᴴ *
      (Matrix.of fun a j => ((Real.sqrt (occ a) : ℝ) : ℂ) * (starRingEnd ℂ) (wf a j) : CMat n) := by
    ext i j
    rw [computeRho_apply, Matrix.mul_apply]
    refine Finset.sum_congr rfl fun a _ => ?_
    rw [Matrix.conjTranspose_apply]
    simp only [Matrix.of_apply, star_mul', Complex.star_def, Complex.conj_conj, Complex.conj_ofReal]
    have : ((Real.sqrt (occ a) : ℝ) : ℂ) * ((Real.sqrt (occ a) : ℝ) : ℂ) = (occ a : ℂ) := by
      rw [← Complex.ofReal_mul, Real.mul_self_sqrt (h a)]
    rw [← this]
    ring
  rw [e]
  exact Matrix.posSemidef_conjTranspose_mul_self _

theorem trace_rho_mul (wf A : CMat n) (occ : Fin n → ℝ) :
    (computeRho wf occ * A).trace
      = ∑ a, (occ a : ℂ) * ∑ i, ∑ j, (starRingEnd ℂ) (wf a i) * A i j * wf a j := by
  rw [Matrix.trace]
  simp only [Matrix.diag_apply, Matrix.mul_apply, computeRho_apply, Finset.sum_mul, Finset.mul_sum]
  rw [Finset.sum_congr rfl fun i _ => Finset.sum_comm]
  rw [Finset.sum_comm]
  refine Finset.sum_congr rfl fun a _ => ?_
  rw [Finset.sum_comm]
  refine Finset.sum_congr rfl fun i _ => Finset.sum_congr rfl fun j _ => ?_
  ring

/-- C20: with eigenvectors normalized with respect to the overlap, `trace(rho S)` is the sum of the
occupations and `trace(rhoe S)` the sum of occupation times energy. -/
theorem c20_trace (wf S : CMat n) (occ e : Fin n → ℝ) (h : SNormalized wf S) :
    (computeRho wf occ * S).trace = ((∑ a, occ a : ℝ) : ℂ) ∧
    (computeRhoe wf occ e * S).trace = ((∑ a, e a * occ a : ℝ) : ℂ) := by
  have key : ∀ occ : Fin n → ℝ, (computeRho wf occ * S).trace = ((∑ a, occ a : ℝ) : ℂ) := by
    intro occ
    rw [trace_rho_mul]
    push_cast
    refine Finset.sum_congr rfl fun a _ => ?_
    rw [h a, mul_one]
  exact ⟨key occ, by rw [computeRhoe_eq]; exact key _⟩

/-- A two-orbital example with non-trivial overlap-normalized (diagonal) eigenvectors. -/
example : SNormalized (!![Complex.I, 0; 0, 2] : CMat 2) !![1, 0; 0, 1 / 4] := by
  intro a
  fin_cases a <;> simp [Fin.sum_univ_two]
  rw [show (starRingEnd ℂ) 2 = 2 from Complex.conj_ofNat 2]; norm_num

/-! ## C21 -/

/-- Starts of consecutive blocks. -/
def startsFrom : ℕ → List ℕ → List ℕ
  | _, [] => []
  | s, m :: ns => s :: startsFrom (s + m) ns

theorem startsFrom_get : ∀ (ns : List ℕ) (s a : ℕ), a < ns.length →
    (startsFrom s ns)[a]? = some (s + blockStart ns a) := by
  intro ns
  induction ns with
  | nil => intro s a h; simp at h
  | cons m ns ih =>
    intro s a h
    cases a with
    | zero => simp [startsFrom, blockStart]
    | succ a =>
      simp only [startsFrom, List.getElem?_cons_succ]
      rw [ih _ _ (by simpa using h)]
      simp [blockStart]; omega

theorem startsFrom_length (ns : List ℕ) : ∀ s, (startsFrom s ns).length = ns.length := by
  induction ns with
  | nil => intro s; rfl
  | cons m ns ih => intro s; simp [startsFrom, ih]

theorem slices_sum {M : Type} [AddCommMonoid M] (L : List M) : ∀ (ns : List ℕ) (s : ℕ),
    (((startsFrom s ns).zip ns).map fun b => ((L.drop b.1).take b.2).sum).sum
      = ((L.drop s).take ns.sum).sum := by
  intro ns
  induction ns with
  | nil => intro s; simp [startsFrom]
  | cons m ns ih =>
    intro s
    simp only [startsFrom, List.zip_cons_cons, List.map_cons, List.sum_cons]
    rw [ih, List.take_add, List.sum_append, List.drop_drop]

/-- The sums over the atoms' blocks add up to the sum over all orbitals. -/
theorem blocks_sum {M : Type} [AddCommMonoid M] (elements : String → Option ElementData)
    (symbols : List String) (t : OrbTables) (h : orbInit elements symbols = .ok t)
    (v : Fin t.norb → M) : (t.blocks.map (sliceSum v)).sum = ∑ i, v i := by
  obtain ⟨atoms, inv, -, -⟩ := orbInit_inv _ _ _ h
  have hnl : t.nrOrbitals.length = atoms.length := by rw [inv.nr, List.length_map, inv.len]
  have hf : t.firstOrbitals = startsFrom 0 t.nrOrbitals := by
    apply List.ext_getElem?
    intro a
    by_cases ha : a < atoms.length
    · rw [inv.first a ha, startsFrom_get _ _ _ (by omega), Nat.zero_add]
    · rw [List.getElem?_eq_none (by rw [inv.flen]; omega),
        List.getElem?_eq_none (by rw [startsFrom_length]; omega)]
  have : (t.blocks.map (sliceSum v)).sum
      = (((startsFrom 0 t.nrOrbitals).zip t.nrOrbitals).map
          fun b => (((List.ofFn v).drop b.1).take b.2).sum).sum := by
    unfold OrbTables.blocks
    rw [hf]; rfl
  rw [this, slices_sum, List.drop_zero, ← inv.norb, List.take_of_length_le (by simp),
    List.sum_ofFn]

theorem rowDot_sum (A B : CMat n) : ∑ i, rowDot A B i = (A * B).trace := by
  simp [rowDot, Matrix.trace, Matrix.mul_apply]

theorem mullikenDiag_sum (wk : Fin nk → ℝ) (wf S : Fin nk → CMat n) (f : Fin nk → Fin n → ℝ)
    (hS : ∀ k, SNormalized (wf k) (S k)) :
    ∑ i, mullikenDiag wk (fun k => computeRho (wf k) (f k)) S i = ∑ k, wk k * ∑ a, f k a := by
  unfold mullikenDiag
  rw [Finset.sum_comm]
  refine Finset.sum_congr rfl fun k _ => ?_
  rw [← Finset.mul_sum, ← Complex.re_sum, rowDot_sum, (c20_trace _ _ _ 0 (hS k)).1]
  simp

theorem zipWith_sub_sum : ∀ (q val : List ℝ), q.length = val.length →
    ((List.zipWith (· - ·) q val).map fun x => -x).sum = val.sum - q.sum := by
  intro q
  induction q with
  | nil => intro val h; cases val with | nil => simp | cons a l => simp at h
  | cons a q ih =>
    intro val h
    cases val with
    | nil => simp at h
    | cons b val =>
      simp only [List.zipWith_cons_cons, List.map_cons, List.sum_cons]
      rw [ih val (by simpa using h)]
      ring

theorem blocks_length (elements : String → Option ElementData)
    (symbols : List String) (t : OrbTables) (h : orbInit elements symbols = .ok t) :
    t.blocks.length = symbols.length := by
  obtain ⟨atoms, inv, -, hf⟩ := orbInit_inv _ _ _ h
  have hnl : t.nrOrbitals.length = atoms.length := by rw [inv.nr, List.length_map, inv.len]
  simp [OrbTables.blocks, inv.flen, hnl, hf.length_eq]

/-- C21: for states normalized with respect to the overlap and occupied by `sum(valences)-charge`
electrons, the excess Mulliken populations are computed without error, one for each atom, and add
up to minus the charge. -/
theorem c21_total (elements : String → Option ElementData) (symbols : List String)
    (t : OrbTables) (h : orbInit elements symbols = .ok t) (wk : Fin nk → ℝ)
    (wf S : Fin nk → CMat t.norb) (f : Fin nk → Fin t.norb → ℝ)
    (hS : ∀ k, SNormalized (wf k) (S k)) (val : List ℝ) (hv : val.length = symbols.length)
    (charge tol : ℝ) (htol : 0 ≤ tol) (hocc : ∑ k, wk k * ∑ a, f k a = val.sum - charge) :
    ∃ dq, mulliken wk (fun k => computeRho (wf k) (f k)) S t.blocks val charge tol = .ok dq ∧
      dq.length = symbols.length ∧ dq.sum = -charge := by
  have hq : (t.blocks.map (sliceSum (mullikenDiag wk (fun k => computeRho (wf k) (f k)) S))).sum
      = val.sum - charge := by
    rw [blocks_sum elements symbols t h, mullikenDiag_sum _ _ _ _ hS, hocc]
  have hbl := blocks_length _ _ _ h
  have htot := zipWith_sub_sum (t.blocks.map (sliceSum
    (mullikenDiag wk (fun k => computeRho (wf k) (f k)) S))) val (by simp [hbl, hv])
  rw [hq] at htot
  refine ⟨List.zipWith (· - ·) (t.blocks.map (sliceSum
      (mullikenDiag wk (fun k => computeRho (wf k) (f k)) S))) val, ?_, ?_, ?_⟩
  · unfold mulliken
    simp only
    rw [htot]
    simp [not_lt.2 htol]
  · simp [hbl, hv]
  · have e : ∀ l : List ℝ, (l.map fun x => -x).sum = -l.sum := by
      intro l
      induction l with
      | nil => simp
      | cons a l ih => simp [ih]; ring
    rw [e] at htot
    linarith

/-- C21: whatever the wave functions, an error is raised exactly when the populations fail to add up
to the charge by more than the tolerance; it is always `RuntimeError`; and a returned result adds
up within the tolerance. -/
theorem c21_guard (wk : Fin nk → ℝ) (rho S : Fin nk → CMat n) (blocks : List (ℕ × ℕ))
    (val : List ℝ) (hv : val.length = blocks.length) (charge tol : ℝ) :
    (∀ x, mulliken wk rho S blocks val charge tol = .error x ↔ x = .runtimeError ∧
      tol < |(val.sum - (blocks.map (sliceSum (mullikenDiag wk rho S))).sum) - charge|) ∧
    (∀ dq, mulliken wk rho S blocks val charge tol = .ok dq → |-dq.sum - charge| ≤ tol) := by
  have htot := zipWith_sub_sum (blocks.map (sliceSum (mullikenDiag wk rho S))) val (by simp [hv])
  have e : ∀ l : List ℝ, (l.map fun x => -x).sum = -l.sum := by
    intro l
    induction l with
    | nil => simp
    | cons a l ih => simp [ih]; ring
  constructor
  · intro x
    unfold mulliken
    simp only
    rw [htot]
    split
    · rename_i hlt
      simp [hlt, eq_comm]
    · rename_i hlt
      simp [hlt]
  · intro dq hdq
    unfold mulliken at hdq
    simp only at hdq
    split at hdq
    · simp at hdq
    · rename_i hlt
      simp only [Except.ok.injEq] at hdq
      rw [hdq, e] at hlt
      exact not_lt.1 hlt

/-- C21 for the occupations the code computes: whatever the root finder returned, occupations of
`sum(valences)-charge` electrons pass the check with any tolerance of at least 1e-10 (the default is
1e-5), and the excess populations add up to minus the charge within 1e-10. -/
theorem c21_occupied (elements : String → Option ElementData) (symbols : List String)
    (t : OrbTables) (h : orbInit elements symbols = .ok t) (o : Occ nk t.norb)
    (brentq : (ℝ → ℝ) → ℝ → ℝ → Except Exn ℝ) (mu : ℝ) (f : Fin nk → Fin t.norb → ℝ)
    (ho : o.occupy brentq = .ok (mu, f)) (wf S : Fin nk → CMat t.norb)
    (hS : ∀ k, SNormalized (wf k) (S k)) (val : List ℝ) (hv : val.length = symbols.length)
    (charge tol : ℝ) (htol : 1e-10 ≤ tol) (hnel : o.nel = val.sum - charge) :
    ∃ dq, mulliken o.wk (fun k => computeRho (wf k) (f k)) S t.blocks val charge tol = .ok dq ∧
      |-dq.sum - charge| ≤ 1e-10 := by
  have hc := (c14_conserves o brentq mu f ho).1
  simp only [← Finset.mul_sum] at hc
  have hbl : val.length = t.blocks.length := by rw [hv, blocks_length _ _ _ h]
  have hsum : (t.blocks.map (sliceSum (mullikenDiag o.wk (fun k => computeRho (wf k) (f k)) S))).sum
      = ∑ k, o.wk k * ∑ a, f k a := by
    rw [blocks_sum elements symbols t h, mullikenDiag_sum _ _ _ _ hS]
  have hsmall : |(val.sum - (t.blocks.map (sliceSum (mullikenDiag o.wk
      (fun k => computeRho (wf k) (f k)) S))).sum) - charge| ≤ 1e-10 := by
    rw [hsum, abs_sub_comm] at *
    rw [hnel] at hc
    rw [show charge - (val.sum - ∑ k, o.wk k * ∑ a, f k a)
      = -((val.sum - charge) - ∑ k, o.wk k * ∑ a, f k a) by ring, abs_neg]
    exact hc
  have key : ∀ tol : ℝ, 1e-10 ≤ tol → ∃ dq, mulliken o.wk (fun k => computeRho (wf k) (f k)) S
      t.blocks val charge tol = .ok dq := by
    intro tol htol
    cases hm : mulliken o.wk (fun k => computeRho (wf k) (f k)) S t.blocks val charge tol with
    | ok dq => exact ⟨dq, rfl⟩
    | error x =>
      have := ((c21_guard _ _ _ _ _ hbl _ _).1 x).1 hm
      exact absurd (hsmall.trans htol) (not_le.2 this.2)
  obtain ⟨dq, hdq⟩ := key tol htol
  obtain ⟨dq', hdq'⟩ := key 1e-10 le_rfl
  have e : dq' = dq := by
    unfold mulliken at hdq hdq'
    simp only at hdq hdq'
    split at hdq
    · simp at hdq
    · split at hdq'
      · simp at hdq'
      · simp only [Except.ok.injEq] at hdq hdq'
        rw [← hdq, ← hdq']
  exact ⟨dq, hdq, e ▸ (c21_guard _ _ _ _ _ hbl _ _).2 dq' hdq'⟩

/-- Consequence for `calc.set('charge',c)` after initialization (which neither changes the number of
electrons nor marks results as outdated): every later Mulliken evaluation raises. -/
theorem c21_recharge_fails (elements : String → Option ElementData) (symbols : List String)
    (t : OrbTables) (h : orbInit elements symbols = .ok t) (wk : Fin nk → ℝ)
    (wf S : Fin nk → CMat t.norb) (f : Fin nk → Fin t.norb → ℝ)
    (hS : ∀ k, SNormalized (wf k) (S k)) (val : List ℝ) (hv : val.length = symbols.length)
    (charge charge' tol : ℝ) (hc : tol < |charge - charge'|)
    (hocc : ∑ k, wk k * ∑ a, f k a = val.sum - charge) :
    mulliken wk (fun k => computeRho (wf k) (f k)) S t.blocks val charge' tol
      = .error .runtimeError := by
  rw [(c21_guard _ _ _ _ _ (by rw [hv, blocks_length _ _ _ h]) _ _).1]
  refine ⟨rfl, ?_⟩
  rw [blocks_sum elements symbols t h, mullikenDiag_sum _ _ _ _ hS, hocc]
  rwa [sub_sub_cancel]

/-- Hypotheses of `c21_total` met by a hydrogen molecule with two electrons, one k-point. -/
example : ∃ t, orbInit (fun s => if s = "H" then some ⟨["s"], [-0.238], 1, 1, -0.238⟩ else none)
    ["H", "H"] = .ok t ∧ t.norb = 2 ∧
    ∑ k : Fin 1, (![1] : Fin 1 → ℝ) k * ∑ a : Fin 2, (![![2, 0]] : Fin 1 → Fin 2 → ℝ) k a
      = ([1, 1] : List ℝ).sum - 0 := by
  refine ⟨_, rfl, rfl, ?_⟩
  simp; norm_num

/-! ## C22 -/

theorem trace_rho_H (wf H S : CMat n) (f e : Fin n → ℝ) (hS : SNormalized wf S)
    (hH : Eigen H S wf e) :
    (computeRho wf f * H).trace = ((∑ a, f a * e a : ℝ) : ℂ) := by
  rw [trace_rho_mul]
  push_cast
  refine Finset.sum_congr rfl fun a _ => ?_
  congr 1
  have : ∀ i, ∑ j, (starRingEnd ℂ) (wf a i) * H i j * wf a j
      = e a * ∑ j, (starRingEnd ℂ) (wf a i) * S i j * wf a j := by
    intro i
    simp only [mul_assoc]
    rw [← Finset.mul_sum, hH a i, ← Finset.mul_sum]
    ring
  simp only [this]
  rw [← Finset.mul_sum, hS a, mul_one]

/-- C22 without self-consistency: the band-structure energy is the occupation- and k-weighted sum of
the eigenvalues (and the built-in check on the imaginary part passes). -/
theorem c22_nonscc (wk : Fin nk → ℝ) (wf H0 S : Fin nk → CMat n) (f e : Fin nk → Fin n → ℝ)
    (hS : ∀ k, SNormalized (wf k) (S k)) (hH : ∀ k, Eigen (fullH (H0 k) (S k) none) (S k) (wf k) (e k))
    (tol : ℝ) (htol : 0 < tol) :
    bandEnergy wk (fun k => computeRho (wf k) (f k)) H0 tol
      = .ok (∑ k, wk k * ∑ a, f k a * e k a) := by
  have key : (∑ k, (wk k : ℂ) * ∑ i, rowDot (computeRho (wf k) (f k)) (H0 k) i)
      = ((∑ k, wk k * ∑ a, f k a * e k a : ℝ) : ℂ) := by
    push_cast
    refine Finset.sum_congr rfl fun k _ => ?_
    rw [rowDot_sum, trace_rho_H _ (H0 k) _ _ _ (hS k) (hH k)]
    push_cast; rfl
  unfold bandEnergy
  simp only
  rw [key]
  simp only [Complex.ofReal_im, Complex.ofReal_re, htol, if_true]

/-- Trace of a product of Hermitian matrices is real. -/
theorem trace_herm_real (A B : CMat n) (hA : A.IsHermitian) (hB : B.IsHermitian) :
    (A * B).trace.im = 0 := by
  have : star (A * B).trace = (A * B).trace := by
    rw [← Matrix.trace_conjTranspose, Matrix.conjTranspose_mul, hA, hB, Matrix.trace_mul_comm]
  have h := congrArg Complex.im this
  rw [Complex.star_def, Complex.conj_im] at h
  linarith

/-- C22 with self-consistency: the eigenvalue sum minus the electrostatic part; for Hermitian
`H0` it is real, so the built-in check passes. -/
theorem c22_scc (wk : Fin nk → ℝ) (wf H0 S : Fin nk → CMat n) (f e : Fin nk → Fin n → ℝ)
    (h1 : Fin n → Fin n → ℝ)
    (hS : ∀ k, SNormalized (wf k) (S k))
    (hH : ∀ k, Eigen (fullH (H0 k) (S k) (some h1)) (S k) (wf k) (e k))
    (hherm : ∀ k, (H0 k).IsHermitian) (tol : ℝ) (htol : 0 < tol) :
    bandEnergy wk (fun k => computeRho (wf k) (f k)) H0 tol
      = .ok (∑ k, wk k * ∑ a, f k a * e k a - ∑ k, wk k *
          (∑ i, ∑ j, computeRho (wf k) (f k) i j * ((h1 j i : ℂ) * S k j i)).re) := by
  have hk : ∀ k, (computeRho (wf k) (f k) * H0 k).trace
      = ((∑ a, f k a * e k a : ℝ) : ℂ)
        - ∑ i, ∑ j, computeRho (wf k) (f k) i j * ((h1 j i : ℂ) * S k j i) := by
    intro k
    rw [← trace_rho_H _ _ _ (f k) _ (hS k) (hH k)]
    simp only [Matrix.trace, Matrix.diag_apply, Matrix.mul_apply, fullH, Matrix.of_apply,
      mul_add, Finset.sum_add_distrib]
    ring
  have him : ∀ k, (computeRho (wf k) (f k) * H0 k).trace.im = 0 := fun k =>
    trace_herm_real _ _ (c20_hermitian _ _ 0).1 (hherm k)
  have key : (∑ k, (wk k : ℂ) * ∑ i, rowDot (computeRho (wf k) (f k)) (H0 k) i)
      = ((∑ k, wk k * ∑ a, f k a * e k a - ∑ k, wk k *
          (∑ i, ∑ j, computeRho (wf k) (f k) i j * ((h1 j i : ℂ) * S k j i)).re : ℝ) : ℂ) := by
    rw [← Finset.sum_sub_distrib, Complex.ofReal_sum]
    refine Finset.sum_congr rfl fun k _ => ?_
    rw [rowDot_sum]
    have : (computeRho (wf k) (f k) * H0 k).trace
        = (((computeRho (wf k) (f k) * H0 k).trace.re : ℝ) : ℂ) := by
      apply Complex.ext
      · simp
      · simp [him k]
    rw [this, ← Complex.ofReal_mul]
    congr 1
    rw [hk k, Complex.sub_re, Complex.ofReal_re]
    ring
  unfold bandEnergy
  simp only
  rw [key]
  simp only [Complex.ofReal_im, Complex.ofReal_re, htol, if_true]

/-- C22: with `h1` the mean of the two orbitals' potentials (see C28), the electrostatic part in
`c22_scc` at each k-point is the sum over orbitals of potential times Mulliken population. -/
theorem c22_electrostatic_part (wf S : CMat n) (f : Fin n → ℝ) (hS : S.IsHermitian)
    (phi : Fin n → ℝ) :
    (∑ i, ∑ j, computeRho wf f i j * ((((phi j + phi i) / 2 : ℝ) : ℂ) * S j i)).re
      = ∑ i, phi i * (rowDot (computeRho wf f) S i).re := by
  set R := computeRho wf f with hR
  have hRh : R.IsHermitian := (c20_hermitian wf f 0).1
  have c : ∀ i j, (R i j * S j i).re = (R j i * S i j).re := by
    intro i j
    have h1 : R i j = star (R j i) := (hRh.apply i j).symm
    have h2 : S j i = star (S i j) := (hS.apply j i).symm
    rw [h1, h2]
    simp
  have e1 : ∀ i j, (R i j * ((((phi j + phi i) / 2 : ℝ) : ℂ) * S j i)).re
      = phi j / 2 * (R i j * S j i).re + phi i / 2 * (R i j * S j i).re := by
    intro i j
    have : R i j * ((((phi j + phi i) / 2 : ℝ) : ℂ) * S j i)
        = (((phi j + phi i) / 2 : ℝ) : ℂ) * (R i j * S j i) := by ring
    rw [this, Complex.re_ofReal_mul]; ring
  simp only [Complex.re_sum, e1, Finset.sum_add_distrib]
  rw [Finset.sum_comm (f := fun i j => phi j / 2 * (R i j * S j i).re)]
  rw [← Finset.sum_add_distrib]
  refine Finset.sum_congr rfl fun i _ => ?_
  simp only [rowDot, Matrix.transpose_apply, Complex.re_sum, Finset.mul_sum]
  rw [← Finset.sum_add_distrib]
  refine Finset.sum_congr rfl fun j _ => ?_
  rw [c j i]; ring

/-- A non-trivial eigenproblem meeting the hypotheses of C22 (`H0 = diag(-4,1)`, `S = diag(4,1)`). -/
example : Eigen (fullH !![-4, 0; 0, 1] !![4, 0; 0, 1] none) !![4, 0; 0, 1]
    (!![1 / 2, 0; 0, 1] : CMat 2) ![-1, 1] := by
  intro a i
  fin_cases a <;> fin_cases i <;> simp [fullH, Fin.sum_univ_two]

/-! ## C65 -/

theorem trace_antiherm_re (A B : CMat n) (hA : Aᴴ = -A) (hB : B.IsHermitian) :
    (A * B).trace.re = 0 := by
  have : star (A * B).trace = -(A * B).trace := by
    rw [← Matrix.trace_conjTranspose, Matrix.conjTranspose_mul, hA, hB, Matrix.trace_mul_comm,
      Matrix.neg_mul, Matrix.trace_neg]
  have h := congrArg Complex.re this
  rw [Complex.star_def, Complex.conj_re, Complex.neg_re] at h
  linarith

/-- C65: when the derivative matrices are antihermitian (as those of translation-invariant systems
are), the band-structure forces on all atoms add up to zero in every direction, with or without the
electrostatic Hamiltonian. -/
theorem c65_total_force (elements : String → Option ElementData) (symbols : List String)
    (t : OrbTables) (h : orbInit elements symbols = .ok t) (wk : Fin nk → ℝ)
    (wf dH0 dS : Fin nk → CMat t.norb) (f e : Fin nk → Fin t.norb → ℝ)
    (h1 : Option (Fin t.norb → Fin t.norb → ℝ)) (hsym : ∀ g, h1 = some g → ∀ i j, g i j = g j i)
    (hdH : ∀ k, (dH0 k)ᴴ = -dH0 k) (hdS : ∀ k, (dS k)ᴴ = -dS k) :
    (bandForces wk (fun k => dHfull (dH0 k) (dS k) h1) dS (fun k => computeRho (wf k) (f k))
      (fun k => computeRhoe (wf k) (f k) (e k)) t.blocks).sum = 0 := by
  have hfull : ∀ k, (dHfull (dH0 k) (dS k) h1)ᴴ = -dHfull (dH0 k) (dS k) h1 := by
    intro k
    cases h1 with
    | none => exact hdH k
    | some g =>
      ext i j
      have a := congrFun (congrFun (hdH k) i) j
      have b := congrFun (congrFun (hdS k) i) j
      simp only [Matrix.conjTranspose_apply, Matrix.neg_apply] at a b
      simp only [dHfull, Matrix.conjTranspose_apply, Matrix.of_apply, Matrix.neg_apply, star_add,
        star_mul', a, b, Complex.star_def, Complex.conj_ofReal, hsym g rfl j i]
      ring
  have hsum : (bandForces wk (fun k => dHfull (dH0 k) (dS k) h1) dS
      (fun k => computeRho (wf k) (f k)) (fun k => computeRhoe (wf k) (f k) (e k)) t.blocks).sum
      = 2 * (∑ i, forceDiag wk (fun k => dHfull (dH0 k) (dS k) h1) dS
          (fun k => computeRho (wf k) (f k)) (fun k => computeRhoe (wf k) (f k) (e k)) i).re := by
    rw [← blocks_sum elements symbols t h]
    unfold bandForces
    generalize t.blocks = bs
    induction bs with
    | nil => simp
    | cons b bs ih => simp [ih, mul_add]
  rw [hsum]
  unfold forceDiag
  rw [Finset.sum_comm, Complex.re_sum, Finset.sum_eq_zero, mul_zero]
  intro k _
  rw [Finset.sum_neg_distrib, Complex.neg_re, neg_eq_zero, ← Finset.mul_sum, Complex.re_ofReal_mul]
  have : (∑ i, ∑ j, (dHfull (dH0 k) (dS k) h1 i j * (computeRho (wf k) (f k))ᵀ i j
      - dS k i j * (computeRhoe (wf k) (f k) (e k))ᵀ i j))
      = (dHfull (dH0 k) (dS k) h1 * computeRho (wf k) (f k)).trace
        - (dS k * computeRhoe (wf k) (f k) (e k)).trace := by
    simp [Matrix.trace, Matrix.mul_apply, Finset.sum_sub_distrib]
  rw [this, Complex.sub_re, trace_antiherm_re _ _ (hfull k) (c20_hermitian _ _ 0).1,
    trace_antiherm_re _ _ (hdS k) (c20_hermitian _ _ _).2]
  ring

example : (!![0, 1; -1, 0] : CMat 2)ᴴ = -!![0, 1; -1, 0] := by
  ext i j; fin_cases i <;> fin_cases j <;> simp [Matrix.conjTranspose_apply]

/-! ## C59 -/

/-- Number of solves and stored charges after solves that converged to `dqs` (oldest first). -/
def afterSolves {m : ℕ} (dqs : List (Fin m → ℝ)) : ℕ × ((Fin m → ℝ) × (Fin m → ℝ)) :=
  dqs.foldl (fun s dq => (s.1 + 1, (dq, s.2.1))) (0, (0, 0))

/-- C59: after any number of solves that all conserved the charge, the charges the next solve starts
from add up to minus the charge as well. -/
theorem c59_total {m : ℕ} (hm : 0 < m) (charge : ℝ) (dqs : List (Fin m → ℝ))
    (h : ∀ dq ∈ dqs, ∑ i, dq i = -charge) :
    ∑ i, guessDq true charge (afterSolves dqs).1 (afterSolves dqs).2 i = -charge := by
  have key : (afterSolves dqs).1 = dqs.length ∧
      (1 ≤ dqs.length → ∑ i, (afterSolves dqs).2.1 i = -charge) ∧
      (2 ≤ dqs.length → ∑ i, (afterSolves dqs).2.2 i = -charge) := by
    induction dqs using List.reverseRecOn with
    | nil => simp [afterSolves]
    | append_singleton l a ih =>
      have ih' := ih fun dq hdq => h dq (by simp [hdq])
      have e : afterSolves (l ++ [a]) = ((afterSolves l).1 + 1, (a, (afterSolves l).2.1)) := by
        simp [afterSolves]
      rw [e]
      refine ⟨by simp [ih'.1], fun _ => h a (by simp), fun h2 => ?_⟩
      exact ih'.2.1 (by simpa using h2)
  have hm' : (m : ℝ) ≠ 0 := by positivity
  unfold guessDq
  rw [key.1]
  simp only [Bool.not_true, Bool.false_eq_true, if_false]
  split
  · simp [Finset.sum_const]
    field_simp
  · rename_i h0
    split
    · exact key.2.1 (by omega)
    · rename_i h1
      simp only [Pi.add_apply, Pi.sub_apply, Finset.sum_add_distrib, Finset.sum_sub_distrib]
      rw [key.2.1 (by omega), key.2.2 (by omega)]
      ring

/-- C59: without self-consistency the guess is zero. -/
theorem c59_nonscc {m : ℕ} (charge : ℝ) (count : ℕ) (prev : (Fin m → ℝ) × (Fin m → ℝ)) :
    guessDq false charge count prev = 0 := rfl

example : ∀ dq ∈ ([![0.5, 0.5], ![0.25, 0.75]] : List (Fin 2 → ℝ)), ∑ i, dq i = -(-1) := by
  intro dq h
  simp only [List.mem_cons, List.not_mem_nil, or_false] at h
  rcases h with rfl | rfl <;> simp [Fin.sum_univ_two] <;> norm_num

/-! ## C76 -/

/-- **C76.** The check after solving accepts the Mulliken charges exactly if the excess of electrons on
every atom lies between minus and plus its atomic number. -/
theorem c76_check (dQ : List ℝ) (Z : List ℕ) (h : dQ.length = Z.length) :
    (checkMulliken dQ Z = .ok () ↔ ∀ i (hi : i < dQ.length), |dQ[i]| ≤ Z[i]'(h ▸ hi)) ∧
    (checkMulliken dQ Z ≠ .ok () → checkMulliken dQ Z = .error .exception) := by
  unfold checkMulliken
  constructor
  · constructor
    · intro hok i hi
      by_contra hc
      have hany : (dQ.zip Z).any (fun p => decide (p.1 < -(p.2 : ℝ)) || decide (p.1 > (p.2 : ℝ))) = true := by
        rw [List.any_eq_true]
        refine ⟨(dQ[i], Z[i]'(h ▸ hi)), ?_, ?_⟩
        · rw [List.mem_iff_getElem]
          exact ⟨i, by simp [h, h ▸ hi], by simp⟩
        · rw [abs_le, not_and_or, not_le, not_le] at hc
          simpa using hc
      rw [if_pos hany] at hok
      cases hok
    · intro hall
      rw [if_neg]
      rw [List.any_eq_true]
      rintro ⟨⟨q, z⟩, hm, hp⟩
      obtain ⟨i, hi, he⟩ := List.getElem_of_mem hm
      have hi' : i < dQ.length := by
        rw [List.length_zip] at hi; omega
      have := hall i hi'
      rw [List.getElem_zip] at he
      cases he
      rw [abs_le] at this
      simp only [Bool.or_eq_true, decide_eq_true_eq] at hp
      rcases hp with hp | hp
      · linarith [this.1]
      · linarith [this.2]
  · split <;> simp

example : checkMulliken [0.4, -0.2, -0.2] [8, 1, 1] = .ok () := by
  rw [(c76_check _ _ rfl).1]
  intro i hi
  have : i < 3 := hi
  interval_cases i <;> norm_num [abs_le]

end Hotbit
