import Verif.Props.Analysis
import Verif.Model.Electrostatics
import Verif.Lemmas.Coulomb

/-!
# C86: atom and bond energies add up to the energy; Mayer bond orders
-/

namespace Hotbit

open Matrix

variable {nk n : ℕ}

theorem orbBlockSum_eq {M : Type} [AddCommMonoid M] (A : Fin n → Fin n → M) (bi bj : ℕ × ℕ) :
    orbBlockSum A bi bj = ∑ i : Fin n, ∑ j : Fin n, if (bi.1 ≤ i.val ∧ i.val < bi.1 + bi.2) ∧
      (bj.1 ≤ j.val ∧ j.val < bj.1 + bj.2) then A i j else 0 := by
  unfold orbBlockSum
  rw [sliceSum_eq]
  apply Finset.sum_congr rfl
  intro i _
  by_cases h : bi.1 ≤ i.val ∧ i.val < bi.1 + bi.2
  · rw [if_pos h, sliceSum_eq]
    apply Finset.sum_congr rfl
    intro j _
    simp [h]
  · rw [if_neg h]
    symm
    apply Finset.sum_eq_zero
    intro j _
    simp [h]

theorem orbBlockSum_swap {M : Type} [AddCommMonoid M] (A : Fin n → Fin n → M) (bi bj : ℕ × ℕ) :
    orbBlockSum A bi bj = orbBlockSum (fun i j => A j i) bj bi := by
  rw [orbBlockSum_eq, orbBlockSum_eq, Finset.sum_comm]
  apply Finset.sum_congr rfl; intro i _
  apply Finset.sum_congr rfl; intro j _
  simp only [and_comm]

theorem orbBlockSum_map {M N : Type} [AddCommMonoid M] [AddCommMonoid N] (φ : M →+ N) (A : Fin n → Fin n → M)
    (bi bj : ℕ × ℕ) : orbBlockSum (fun i j => φ (A i j)) bi bj = φ (orbBlockSum A bi bj) := by
  simp only [orbBlockSum_eq, map_sum]
  apply Finset.sum_congr rfl; intro i _
  apply Finset.sum_congr rfl; intro j _
  split_ifs <;> simp

/-- Sum over all pairs of atoms. -/
theorem orbBlockSum_total {M : Type} [AddCommMonoid M] (elements : String → Option ElementData)
    (symbols : List String) (t : OrbTables) (h : orbInit elements symbols = .ok t) (A : Fin t.norb → Fin t.norb → M) :
    ∑ I ∈ Finset.range symbols.length, ∑ J ∈ Finset.range symbols.length,
      orbBlockSum A (t.blocks.getD I (0, 0)) (t.blocks.getD J (0, 0)) = ∑ i, ∑ j, A i j := by
  have hb := blocks_length _ _ _ h
  unfold orbBlockSum
  simp only [sliceSum_finset]
  have e1 : ∀ i, ∑ J ∈ Finset.range symbols.length, sliceSum (A i) (t.blocks.getD J (0, 0)) = ∑ j, A i j := by
    intro i
    rw [← list_range_sum, ← hb, range_blocks_sum t (sliceSum (A i)), blocks_sum elements symbols t h]
  simp only [e1]
  rw [← list_range_sum, ← hb, range_blocks_sum t (sliceSum _), blocks_sum elements symbols t h]

theorem blockOf_eq (t : OrbTables) (I : ℕ) (h : I < t.blocks.length) :
    blockOf t I = .ok (t.blocks.getD I (0, 0)) := by
  unfold blockOf
  rw [List.getD_eq_getElem?_getD, List.getElem?_eq_getElem h]
  rfl

/-- Hermitian density matrix, Hamiltonian and overlap. -/
def BondData.Herm (B : BondData nk n) : Prop :=
  ∀ k, (B.rho k).IsHermitian ∧ (B.H0 k).IsHermitian ∧ (B.S k).IsHermitian

theorem rhoM_conj (B : BondData nk n) (hB : B.Herm) (k : Fin nk) (i j : Fin n) :
    (starRingEnd ℂ) (B.rhoM k i j) = B.rhoM k j i := by
  obtain ⟨h1, h2, h3⟩ := hB k
  have e1 : (starRingEnd ℂ) (B.rho k i j) = B.rho k j i := h1.apply j i
  have e2 : (starRingEnd ℂ) (B.H0 k j i) = B.H0 k i j := h2.apply i j
  have e3 : (starRingEnd ℂ) (B.S k j i) = B.S k i j := h3.apply i j
  simp only [BondData.rhoM, BondData.HS, Matrix.transpose_apply, Matrix.of_apply, map_mul, map_sub, e1, e2, e3,
    Complex.conj_ofReal]
  rw [add_comm (B.eps j)]

theorem block_im (B : BondData nk n) (hB : B.Herm) (k : Fin nk) (b : ℕ × ℕ) : (orbBlockSum (B.rhoM k) b b).im = 0 := by
  have e : (starRingEnd ℂ) (orbBlockSum (B.rhoM k) b b) = orbBlockSum (B.rhoM k) b b := by
    conv_rhs => rw [orbBlockSum_swap]
    have := orbBlockSum_map (starRingEnd ℂ).toAddMonoidHom (B.rhoM k) b b
    simp only [RingHom.toAddMonoidHom_eq_coe, AddMonoidHom.coe_coe] at this
    rw [← this]
    congr 1
    funext i j
    exact rhoM_conj B hB k i j
  exact Complex.conj_eq_iff_im.1 e

theorem block_re (B : BondData nk n) (k : Fin nk) (b b' : ℕ × ℕ) :
    orbBlockSum (fun i j => (B.rhoM k i j).re) b b' = (orbBlockSum (B.rhoM k) b b').re :=
  orbBlockSum_map Complex.reAddGroupHom (B.rhoM k) b b'

theorem promotion_eq (elements : String → Option ElementData) (symbols : List String) (t : OrbTables)
    (h : orbInit elements symbols = .ok t) (B : BondData nk t.norb) (hBt : B.t = t) (I : ℕ) (hI : I < symbols.length) :
    B.promotion I = .ok (sliceSum (fun mu => (B.diag mu - B.q0 mu) * B.eps mu) (t.blocks.getD I (0, 0))
      * B.hartree) := by
  have hI' : I < t.blocks.length := by rw [blocks_length _ _ _ h]; exact hI
  obtain ⟨o, m, hab⟩ := block_of_lt t I hI'
  obtain ⟨h1, h2⟩ := pick_block _ _ _ h (fun mu => (B.diag mu - B.q0 mu) * B.eps mu) I o m hab
  have e : (fun mu : ℕ => (do
        let q ← atIdx B.diag mu
        let q0 ← atIdx B.q0 mu
        let e ← atIdx B.eps mu
        return (q - q0) * e : Except Exn ℝ))
      = atIdx fun mu => (B.diag mu - B.q0 mu) * B.eps mu := by
    funext mu
    by_cases hmu : mu < t.norb
    · simp only [atIdx_of_lt _ hmu]; rfl
    · simp only [atIdx, hmu, dif_neg, not_false_eq_true]; rfl
  unfold BondData.promotion
  rw [hBt, h1, e]
  simp only [bind, Except.bind, pure, Except.pure]
  rw [h2]
  simp only [List.getD_eq_getElem?_getD, hab, Option.getD_some, sliceSum]

/-- The energy of an atom. -/
noncomputable def BondData.atomE (B : BondData nk n) (I : ℕ) : ℝ :=
  ((if B.scc then 0.5 * B.G I I * B.dq I ^ 2 + 0.5 * B.dq I * B.phi I * B.bohr else 0) + B.rep I I + B.pp I I
    + ∑ k, B.wk k * (orbBlockSum (B.rhoM k) (B.t.blocks.getD I (0, 0)) (B.t.blocks.getD I (0, 0))).re) * B.hartree
  + sliceSum (fun mu => (B.diag mu - B.q0 mu) * B.eps mu) (B.t.blocks.getD I (0, 0)) * B.hartree

/-- The energy of a bond. -/
noncomputable def BondData.bondE (B : BondData nk n) (I J : ℕ) : ℝ :=
  (B.rep I J + B.pp I J + (if B.scc then B.G I J * B.dq I * B.dq J else 0)
    + 2 * ∑ k, B.wk k * (orbBlockSum (B.rhoM k) (B.t.blocks.getD I (0, 0)) (B.t.blocks.getD J (0, 0))).re) * B.hartree

/-- C86: for Hermitian matrices the energy of an atom is computed without error: the assertion on its imaginary
part never fails. -/
theorem c86_atom (elements : String → Option ElementData) (symbols : List String) (t : OrbTables)
    (h : orbInit elements symbols = .ok t) (B : BondData nk t.norb) (hBt : B.t = t) (hB : B.Herm) (I : ℕ)
    (hI : I < symbols.length) : B.atomEnergy I = .ok (B.atomE I) := by
  have hI' : I < t.blocks.length := by rw [blocks_length _ _ _ h]; exact hI
  unfold BondData.atomEnergy
  simp only
  rw [promotion_eq _ _ _ h B hBt I hI, hBt, blockOf_eq t I hI']
  simp only [bind, Except.bind, pure, Except.pure]
  have him : ∀ k, orbBlockSum (B.rhoM k) (t.blocks.getD I (0, 0)) (t.blocks.getD I (0, 0))
      = (((orbBlockSum (B.rhoM k) (t.blocks.getD I (0, 0)) (t.blocks.getD I (0, 0))).re : ℝ) : ℂ) := by
    intro k
    apply Complex.ext
    · simp
    · rw [block_im B hB k]; simp
  have hA : ((((if B.scc then 0.5 * B.G I I * B.dq I ^ 2 + 0.5 * B.dq I * B.phi I * B.bohr else 0) + B.rep I I
        + B.pp I I : ℝ) : ℂ) + ∑ k, (B.wk k : ℂ) * orbBlockSum (B.rhoM k) (t.blocks.getD I (0, 0))
        (t.blocks.getD I (0, 0))) * (B.hartree : ℂ)
      + ((sliceSum (fun mu => (B.diag mu - B.q0 mu) * B.eps mu) (t.blocks.getD I (0, 0)) * B.hartree : ℝ) : ℂ)
      = ((B.atomE I : ℝ) : ℂ) := by
    unfold BondData.atomE
    rw [hBt]
    rw [Finset.sum_congr rfl fun k _ => by rw [him k]]
    push_cast
    ring
  rw [hA]
  simp only [Complex.ofReal_im, abs_zero, Complex.ofReal_re]
  rw [if_pos (by norm_num)]

/-- C86: the energy of a bond, symmetric in the two atoms. -/
theorem c86_bond (elements : String → Option ElementData) (symbols : List String) (t : OrbTables)
    (h : orbInit elements symbols = .ok t) (B : BondData nk t.norb) (hBt : B.t = t) (I J : ℕ)
    (hI : I < symbols.length) (hJ : J < symbols.length) :
    B.bondEnergy I J = .ok (B.bondE I J) ∧
    (B.Herm → B.rep I J = B.rep J I → B.pp I J = B.pp J I → B.G I J = B.G J I →
      B.bondEnergy I J = B.bondEnergy J I) := by
  have hb := blocks_length _ _ _ h
  have key : ∀ I J, I < symbols.length → J < symbols.length → B.bondEnergy I J = .ok (B.bondE I J) := by
    intro I J hI hJ
    unfold BondData.bondEnergy BondData.bondE
    rw [hBt, blockOf_eq t I (by omega), blockOf_eq t J (by omega)]
    simp only [bind, Except.bind, pure, Except.pure, block_re]
    rw [Finset.mul_sum]
    simp only [mul_assoc]
  refine ⟨key I J hI hJ, ?_⟩
  intro hB e1 e2 e3
  rw [key I J hI hJ, key J I hJ hI]
  congr 1
  unfold BondData.bondE
  have : ∀ k, (orbBlockSum (B.rhoM k) (B.t.blocks.getD I (0, 0)) (B.t.blocks.getD J (0, 0))).re
      = (orbBlockSum (B.rhoM k) (B.t.blocks.getD J (0, 0)) (B.t.blocks.getD I (0, 0))).re := by
    intro k
    rw [← block_re, ← block_re, orbBlockSum_swap]
    congr 1
    funext i j
    rw [← rhoM_conj B hB k i j, Complex.conj_re]
  simp only [this, e1, e2, e3]
  split_ifs <;> ring

theorem half_offdiag (N : ℕ) (r : ℕ → ℕ → ℝ) (hr : ∀ i < N, ∀ j < N, r i j = r j i) :
    ∑ i ∈ Finset.range N, (r i i + ∑ j ∈ Finset.range N, if j ≠ i then 0.5 * r i j else 0)
      = ∑ i ∈ Finset.range N, ∑ j ∈ Finset.Ico i N, r i j := by
  have e1 : ∀ i ∈ Finset.range N, ∑ j ∈ Finset.Ico i N, r i j
      = ∑ j ∈ Finset.range N, if i ≤ j then r i j else 0 := by
    intro i hi
    rw [← Finset.sum_filter]
    apply Finset.sum_congr _ fun _ _ => rfl
    ext j
    simp [and_comm]
  rw [Finset.sum_congr rfl e1]
  have e2 : ∀ i ∈ Finset.range N, r i i = ∑ j ∈ Finset.range N, if j = i then r i j else 0 := by
    intro i hi
    rw [Finset.sum_ite_eq' (Finset.range N) i, if_pos hi]
  rw [Finset.sum_congr rfl fun i hi => by rw [e2 i hi, ← Finset.sum_add_distrib]]
  have e3 : ∑ i ∈ Finset.range N, ∑ j ∈ Finset.range N, (if i < j then r i j else 0)
      = ∑ i ∈ Finset.range N, ∑ j ∈ Finset.range N, (if j < i then r i j else 0) := by
    rw [Finset.sum_comm]
    apply Finset.sum_congr rfl; intro i hi
    apply Finset.sum_congr rfl; intro j hj
    rw [hr i (Finset.mem_range.1 hi) j (Finset.mem_range.1 hj)]
  have e4 : ∀ i j, ((if j = i then r i j else 0) + if j ≠ i then 0.5 * r i j else 0)
      = (if i ≤ j then r i j else 0) - 0.5 * (if i < j then r i j else 0) + 0.5 * (if j < i then r i j else 0) := by
    intro i j
    rcases lt_trichotomy i j with hh | hh | hh
    · simp [hh, hh.le, hh.ne', not_lt.2 hh.le]; norm_num; ring
    · simp [hh]
    · simp [hh, hh.ne, not_lt.2 hh.le, not_le.2 hh]
  simp only [e4, Finset.sum_add_distrib, Finset.sum_sub_distrib, ← Finset.mul_sum]
  rw [e3]
  ring

/-- The weighted trace of `rho HS`: the band energy minus the orbital energies weighted with the populations. -/
theorem trace_HS (B : BondData nk n) (hB : B.Herm) :
    ∑ k, B.wk k * (∑ i, ∑ j, B.rhoM k i j).re
      = ∑ k, B.wk k * (B.rho k * B.H0 k).trace.re - ∑ mu, B.diag mu * B.eps mu := by
  have hk : ∀ k, (∑ i, ∑ j, B.rhoM k i j).re
      = (B.rho k * B.H0 k).trace.re - ∑ mu, (rowDot (B.rho k) (B.S k) mu).re * B.eps mu := by
    intro k
    obtain ⟨h1, h2, h3⟩ := hB k
    have e1 : ∑ i, ∑ j, B.rhoM k i j = (B.rho k * B.H0 k).trace
        - ∑ i, ∑ j, B.rho k i j * B.S k j i * ((0.5 * (B.eps j + B.eps i) : ℝ) : ℂ) := by
      simp only [BondData.rhoM, BondData.HS, Matrix.transpose_apply, Matrix.of_apply, Matrix.trace,
        Matrix.diag_apply, Matrix.mul_apply, mul_sub, Finset.sum_sub_distrib, mul_assoc]
    rw [e1, Complex.sub_re]
    congr 1
    have e2 : ∀ i j, (B.rho k i j * B.S k j i).re = (B.rho k j i * B.S k i j).re := by
      intro i j
      have a1 : (starRingEnd ℂ) (B.rho k i j) = B.rho k j i := h1.apply j i
      have a3 : (starRingEnd ℂ) (B.S k j i) = B.S k i j := h3.apply i j
      rw [← a1, ← a3, ← map_mul, Complex.conj_re]
    have e3 : ∀ i j, (B.rho k i j * B.S k j i * ((0.5 * (B.eps j + B.eps i) : ℝ) : ℂ)).re
        = 0.5 * ((B.rho k i j * B.S k j i).re * B.eps i) + 0.5 * ((B.rho k i j * B.S k j i).re * B.eps j) := by
      intro i j
      rw [Complex.re_mul_ofReal]; ring
    simp only [Complex.re_sum, e3, Finset.sum_add_distrib]
    have e4 : ∑ i, ∑ j, 0.5 * ((B.rho k i j * B.S k j i).re * B.eps j)
        = ∑ i, ∑ j, 0.5 * ((B.rho k i j * B.S k j i).re * B.eps i) := by
      rw [Finset.sum_comm]
      apply Finset.sum_congr rfl; intro i _
      apply Finset.sum_congr rfl; intro j _
      rw [e2]
    rw [e4, ← Finset.sum_add_distrib]
    apply Finset.sum_congr rfl; intro i _
    unfold rowDot
    simp only [Complex.re_sum, Matrix.transpose_apply]
    rw [← Finset.sum_add_distrib, Finset.sum_mul]
    apply Finset.sum_congr rfl; intro j _
    ring
  simp only [hk, mul_sub, Finset.sum_sub_distrib]
  congr 1
  unfold BondData.diag mullikenDiag
  simp only [Finset.mul_sum, Finset.sum_mul]
  rw [Finset.sum_comm]
  apply Finset.sum_congr rfl; intro i _
  apply Finset.sum_congr rfl; intro j _
  ring

/-- C86: for Hermitian matrices and symmetric pair energies the contributions of the atoms add up to the band
structure energy plus the electrostatic energy plus the repulsion and pair potentials (each pair once) minus the
orbital energies weighted with the free populations, that is, to the total energy with respect to the free atoms.
The electrostatic energy is the one of the matrix `G` and the potential `phi`, which is the one made by
`DirectCoulomb`. -/
theorem c86_decomposition (elements : String → Option ElementData) (symbols : List String) (t : OrbTables)
    (h : orbInit elements symbols = .ok t) (B : BondData nk t.norb) (hBt : B.t = t) (hB : B.Herm)
    (hrep : ∀ i < symbols.length, ∀ j < symbols.length, B.rep i j = B.rep j i)
    (hpp : ∀ i < symbols.length, ∀ j < symbols.length, B.pp i j = B.pp j i) (tol ebs : ℝ)
    (hebs : bandEnergy B.wk B.rho B.H0 tol = .ok ebs) :
    ∃ es, (List.range symbols.length).mapM B.atomAndBond = .ok es ∧
      es.sum = (ebs
        + coulombEnergy B.scc symbols.length B.dq (epsilonOf symbols.length B.G B.bohr B.phi B.dq)
        + (∑ i ∈ Finset.range symbols.length, ∑ j ∈ Finset.Ico i symbols.length, B.rep i j)
        + (∑ i ∈ Finset.range symbols.length, ∑ j ∈ Finset.Ico i symbols.length, B.pp i j)
        - ∑ mu, B.q0 mu * B.eps mu) * B.hartree := by
  have hb := blocks_length _ _ _ h
  have hone : ∀ I < symbols.length, B.atomAndBond I = .ok (B.atomE I + ∑ J ∈ Finset.range symbols.length,
      if J ≠ I then 0.5 * B.bondE I J else 0) := by
    intro I hI
    unfold BondData.atomAndBond
    rw [c86_atom _ _ _ h B hBt hB I hI]
    simp only [bind, Except.bind]
    rw [mapM_ok_of_forall _ (fun J => B.bondE I J)]
    · simp only [pure, Except.pure, List.map_map, Function.comp_def]
      congr 2
      rw [hBt, hb, ← list_range_sum]
      induction (List.range symbols.length) with
      | nil => rfl
      | cons J L ih => by_cases hJ : J = I <;> simp_all
    · intro J hJ
      have := (List.mem_filter.1 hJ).1
      rw [hBt, hb, List.mem_range] at this
      exact (c86_bond _ _ _ h B hBt I J hI this).1
  refine ⟨_, mapM_ok_of_forall _ _ _ (fun I hI => hone I (List.mem_range.1 hI)), ?_⟩
  rw [list_range_sum]
  have hebs' : ebs = ∑ k, B.wk k * (B.rho k * B.H0 k).trace.re := by
    unfold bandEnergy at hebs
    simp only at hebs
    split at hebs
    · simp only [Except.ok.injEq] at hebs
      rw [← hebs, Complex.re_sum]
      apply Finset.sum_congr rfl; intro k _
      rw [Complex.re_ofReal_mul, rowDot_sum]
    · simp at hebs
  set N := symbols.length with hN
  set bl := fun I => B.t.blocks.getD I (0, 0) with hbl
  set O := fun I J => ∑ k, B.wk k * (orbBlockSum (B.rhoM k) (bl I) (bl J)).re with hO
  -- orbital part
  have horb : ∑ I ∈ Finset.range N, (O I I + ∑ J ∈ Finset.range N, if J ≠ I then O I J else 0)
      = ∑ k, B.wk k * (∑ i, ∑ j, B.rhoM k i j).re := by
    have e2 : ∀ I ∈ Finset.range N, O I I + ∑ J ∈ Finset.range N, (if J ≠ I then O I J else 0)
        = ∑ J ∈ Finset.range N, O I J := by
      intro I hI
      have : O I I = ∑ J ∈ Finset.range N, if J = I then O I J else 0 := by
        rw [Finset.sum_ite_eq' (Finset.range N) I, if_pos hI]
      rw [this, ← Finset.sum_add_distrib]
      apply Finset.sum_congr rfl; intro J _
      by_cases hJ : J = I <;> simp [hJ]
    rw [Finset.sum_congr rfl e2]
    simp only [hO]
    rw [Finset.sum_congr rfl fun I _ => Finset.sum_comm]
    rw [Finset.sum_comm]
    apply Finset.sum_congr rfl; intro k _
    simp only [← Finset.mul_sum]
    congr 1
    rw [← orbBlockSum_total _ _ _ h (B.rhoM k), Complex.re_sum]
    apply Finset.sum_congr rfl; intro I _
    rw [Complex.re_sum]
    apply Finset.sum_congr rfl; intro J _
    simp only [hbl, hBt]
  -- promotion
  have hprom : ∑ I ∈ Finset.range N, sliceSum (fun mu => (B.diag mu - B.q0 mu) * B.eps mu) (bl I)
      = ∑ mu, B.diag mu * B.eps mu - ∑ mu, B.q0 mu * B.eps mu := by
    rw [← list_range_sum, ← hb]
    simp only [hbl, hBt]
    rw [range_blocks_sum t (sliceSum _), blocks_sum elements symbols t h]
    simp only [sub_mul, Finset.sum_sub_distrib]
  -- Coulomb
  have hcoul : ∑ I ∈ Finset.range N, ((if B.scc then 0.5 * B.G I I * B.dq I ^ 2 + 0.5 * B.dq I * B.phi I * B.bohr
        else 0) + ∑ J ∈ Finset.range N, if J ≠ I then 0.5 * (if B.scc then B.G I J * B.dq I * B.dq J else 0) else 0)
      = coulombEnergy B.scc N B.dq (epsilonOf N B.G B.bohr B.phi B.dq) := by
    unfold coulombEnergy epsilonOf
    by_cases hs : B.scc
    · simp only [hs, if_true]
      rw [Finset.mul_sum]
      apply Finset.sum_congr rfl; intro I hI
      have : 0.5 * B.G I I * B.dq I ^ 2
          = ∑ J ∈ Finset.range N, if J = I then 0.5 * (B.G I J * B.dq I * B.dq J) else 0 := by
        rw [Finset.sum_ite_eq' (Finset.range N) I, if_pos hI]; ring
      rw [this, add_right_comm, ← Finset.sum_add_distrib, mul_add, mul_add, Finset.mul_sum, Finset.mul_sum]
      congr 1
      · apply Finset.sum_congr rfl; intro J _
        by_cases hJ : J = I
        · rw [if_pos hJ, if_neg (not_not.2 hJ)]; ring
        · rw [if_neg hJ, if_pos hJ]; ring
      · ring
    · simp [hs]
  have hr := half_offdiag N B.rep hrep
  have hp := half_offdiag N B.pp hpp
  have expand : ∀ I ∈ Finset.range N, B.atomE I + ∑ J ∈ Finset.range N, (if J ≠ I then 0.5 * B.bondE I J else 0)
      = (((if B.scc then 0.5 * B.G I I * B.dq I ^ 2 + 0.5 * B.dq I * B.phi I * B.bohr
        else 0) + ∑ J ∈ Finset.range N, if J ≠ I then 0.5 * (if B.scc then B.G I J * B.dq I * B.dq J else 0) else 0)
      + (B.rep I I + ∑ J ∈ Finset.range N, if J ≠ I then 0.5 * B.rep I J else 0)
      + (B.pp I I + ∑ J ∈ Finset.range N, if J ≠ I then 0.5 * B.pp I J else 0)
      + (O I I + ∑ J ∈ Finset.range N, if J ≠ I then O I J else 0)
      + sliceSum (fun mu => (B.diag mu - B.q0 mu) * B.eps mu) (bl I)) * B.hartree := by
    intro I _
    have : ∑ J ∈ Finset.range N, (if J ≠ I then 0.5 * B.bondE I J else 0)
        = ((∑ J ∈ Finset.range N, if J ≠ I then 0.5 * (if B.scc then B.G I J * B.dq I * B.dq J else 0) else 0)
          + (∑ J ∈ Finset.range N, if J ≠ I then 0.5 * B.rep I J else 0)
          + (∑ J ∈ Finset.range N, if J ≠ I then 0.5 * B.pp I J else 0)
          + ∑ J ∈ Finset.range N, if J ≠ I then O I J else 0) * B.hartree := by
      rw [← Finset.sum_add_distrib, ← Finset.sum_add_distrib, ← Finset.sum_add_distrib, Finset.sum_mul]
      apply Finset.sum_congr rfl; intro J _
      by_cases hJ : J = I
      · simp [hJ]
      · simp only [ne_eq, hJ, not_false_eq_true, if_true, BondData.bondE, hO, hbl]
        ring
    rw [this]
    unfold BondData.atomE
    simp only [hO, hbl]
    ring
  rw [Finset.sum_congr rfl expand, ← Finset.sum_mul, Finset.sum_add_distrib, Finset.sum_add_distrib,
    Finset.sum_add_distrib, Finset.sum_add_distrib, hcoul, hr, hp, horb, hprom, trace_HS B hB, hebs']
  ring

/-! ### Mayer bond orders -/

/-- The weighted sum over the orbitals of two atoms of `(rho S)_{mu nu} (rho S)_{nu mu}`. -/
noncomputable def BondData.mayerSum (B : BondData nk n) (bi bj : ℕ × ℕ) : ℂ :=
  ∑ k, (B.wk k : ℂ) * orbBlockSum (fun mu nu => B.rhoS k mu nu * B.rhoS k nu mu) bi bj

open Classical in
theorem mayer_eq (elements : String → Option ElementData) (symbols : List String) (t : OrbTables)
    (h : orbInit elements symbols = .ok t) (B : BondData nk t.norb) (hBt : B.t = t) (I J : ℕ)
    (hI : I < symbols.length) (hJ : J < symbols.length) :
    B.mayer I J = if |(B.mayerSum (t.blocks.getD I (0, 0)) (t.blocks.getD J (0, 0))).im| < 1e-12
      then .ok (B.mayerSum (t.blocks.getD I (0, 0)) (t.blocks.getD J (0, 0))).re else .error .assertionError := by
  have hb := blocks_length _ _ _ h
  obtain ⟨oi, mi, hi⟩ := block_of_lt t I (by omega)
  obtain ⟨oj, mj, hj⟩ := block_of_lt t J (by omega)
  have hi1 := (c23_indices _ _ _ h I oi mi hi).1
  have hj1 := (c23_indices _ _ _ h J oj mj hj).1
  have hi2 := block_le _ _ _ h I oi mi hi
  have hj2 := block_le _ _ _ h J oj mj hj
  have inner : ∀ (k : Fin nk) (mu : ℕ) (hmu : mu < t.norb), ((List.range' oj mj).mapM fun nu => (do
        let x ← atIdx (B.rhoS k) mu
        let y ← atIdx (B.rhoS k) nu
        let a ← atIdx x nu
        let b ← atIdx y mu
        return (B.wk k : ℂ) * a * b : Except Exn ℂ))
      = .ok (((List.ofFn fun nu => (B.wk k : ℂ) * B.rhoS k ⟨mu, hmu⟩ nu
          * B.rhoS k nu ⟨mu, hmu⟩).drop oj).take mj) := by
    intro k mu hmu
    rw [← mapM_atIdx _ oj mj hj2]
    have e : (fun nu : ℕ => (do
        let x ← atIdx (B.rhoS k) mu
        let y ← atIdx (B.rhoS k) nu
        let a ← atIdx x nu
        let b ← atIdx y mu
        return (B.wk k : ℂ) * a * b : Except Exn ℂ))
        = atIdx fun nu => (B.wk k : ℂ) * B.rhoS k ⟨mu, hmu⟩ nu * B.rhoS k nu ⟨mu, hmu⟩ := by
      funext nu
      rw [atIdx_of_lt _ hmu]
      by_cases hnu : nu < t.norb
      · simp only [atIdx_of_lt _ hnu, atIdx_of_lt _ hmu, bind, Except.bind]; rfl
      · simp only [atIdx, hnu, dif_neg, not_false_eq_true]; rfl
    rw [e]
  have outer : ∀ k : Fin nk, ((List.range' oi mi).mapM fun mu => (List.range' oj mj).mapM fun nu => (do
        let x ← atIdx (B.rhoS k) mu
        let y ← atIdx (B.rhoS k) nu
        let a ← atIdx x nu
        let b ← atIdx y mu
        return (B.wk k : ℂ) * a * b : Except Exn ℂ))
      = .ok (((List.ofFn fun mu => ((List.ofFn fun nu => (B.wk k : ℂ) * B.rhoS k mu nu
          * B.rhoS k nu mu).drop oj).take mj).drop oi).take mi) := by
    intro k
    rw [← mapM_atIdx _ oi mi hi2]
    have cong : ∀ (l : List ℕ) (f g : ℕ → Except Exn (List ℂ)), (∀ x ∈ l, f x = g x) → l.mapM f = l.mapM g := by
      intro l f g hfg
      induction l with
      | nil => rfl
      | cons x l ih =>
        rw [List.mapM_cons, List.mapM_cons, hfg x (by simp), ih fun y hy => hfg y (by simp [hy])]
    apply cong
    intro mu hmu
    rw [List.mem_range'_1] at hmu
    rw [inner k mu (by omega), atIdx_of_lt _ (by omega)]
  unfold BondData.mayer
  rw [hBt, hi1, hj1]
  simp only [bind, Except.bind] at outer ⊢
  rw [mapM_ok_of_forall _ _ _ fun k _ => outer k]
  simp only [List.map_map, Function.comp_def, pure, Except.pure]
  have hsum : ((List.finRange nk).map fun k => ((((List.ofFn fun mu => ((List.ofFn fun nu => (B.wk k : ℂ)
      * B.rhoS k mu nu * B.rhoS k nu mu).drop oj).take mj).drop oi).take mi).map List.sum).sum).sum
      = B.mayerSum (t.blocks.getD I (0, 0)) (t.blocks.getD J (0, 0)) := by
    unfold BondData.mayerSum
    rw [Fin.sum_univ_def]
    congr 1
    apply List.map_congr_left
    intro k _
    rw [List.map_take, List.map_drop, List.map_ofFn]
    simp only [List.getD_eq_getElem?_getD, hi, hj, Option.getD_some]
    unfold orbBlockSum
    have : ∀ mu, (List.sum ∘ fun mu => ((List.ofFn fun nu => (B.wk k : ℂ) * B.rhoS k mu nu
          * B.rhoS k nu mu).drop oj).take mj) mu
        = (B.wk k : ℂ) * sliceSum (fun nu => B.rhoS k mu nu * B.rhoS k nu mu) (oj, mj) := by
      intro mu
      rw [← sliceSum_mul]
      simp only [sliceSum, Function.comp_def, mul_assoc]
    rw [funext this, ← sliceSum_mul]
    rfl
  rw [hsum]
  rfl

/-- C86: Mayer bond orders are symmetric, and for real density matrices and overlaps (for example at the
Gamma point) the assertion on the imaginary part never fails. -/
theorem c86_mayer (elements : String → Option ElementData) (symbols : List String) (t : OrbTables)
    (h : orbInit elements symbols = .ok t) (B : BondData nk t.norb) (hBt : B.t = t) (I J : ℕ)
    (hI : I < symbols.length) (hJ : J < symbols.length) :
    B.mayer I J = B.mayer J I ∧
    ((∀ k i j, (B.rho k i j).im = 0 ∧ (B.S k i j).im = 0) → ∃ m, B.mayer I J = .ok m) := by
  have hs : B.mayerSum (t.blocks.getD I (0, 0)) (t.blocks.getD J (0, 0))
      = B.mayerSum (t.blocks.getD J (0, 0)) (t.blocks.getD I (0, 0)) := by
    unfold BondData.mayerSum
    apply Finset.sum_congr rfl; intro k _
    rw [orbBlockSum_swap]
    congr 2
    funext i j
    ring
  constructor
  · rw [mayer_eq _ _ _ h B hBt I J hI hJ, mayer_eq _ _ _ h B hBt J I hJ hI, hs]
  · intro hr
    refine ⟨(B.mayerSum (t.blocks.getD I (0, 0)) (t.blocks.getD J (0, 0))).re, ?_⟩
    rw [mayer_eq _ _ _ h B hBt I J hI hJ, if_pos]
    have hR : ∀ k i j, (B.rhoS k i j).im = 0 := by
      intro k i j
      rw [BondData.rhoS, Matrix.mul_apply, Complex.im_sum]
      apply Finset.sum_eq_zero; intro l _
      rw [Complex.mul_im, (hr k i l).1, (hr k l j).2]; simp
    have : (B.mayerSum (t.blocks.getD I (0, 0)) (t.blocks.getD J (0, 0))).im = 0 := by
      unfold BondData.mayerSum
      rw [Complex.im_sum]
      apply Finset.sum_eq_zero; intro k _
      rw [Complex.im_ofReal_mul, orbBlockSum_eq, Complex.im_sum]
      rw [Finset.sum_eq_zero, mul_zero]
      intro i _
      rw [Complex.im_sum]
      apply Finset.sum_eq_zero; intro j _
      split_ifs
      · rw [Complex.mul_im, hR, hR]; simp
      · simp
    rw [this]
    norm_num

/-- Orthonormal states with respect to the overlap. -/
def SOrthonormal (wf S : CMat n) : Prop :=
  ∀ a b, ∑ i, ∑ j, (starRingEnd ℂ) (wf a i) * S i j * wf b j = if a = b then 1 else 0

theorem rho_S_rho (wf S : CMat n) (hS : SOrthonormal wf S) (f : Fin n → ℝ) (hf : ∀ a, f a = 0 ∨ f a = 2) :
    computeRho wf f * S * computeRho wf f = (2 : ℂ) • computeRho wf f := by
  set V : CMat n := Matrix.of fun a j => (starRingEnd ℂ) (wf a j) with hV
  set F : CMat n := Matrix.diagonal fun a => (f a : ℂ) with hF
  have hrho : computeRho wf f = wfᵀ * (F * V) := by
    unfold computeRho
    congr 1
    ext a j
    simp [hF, hV, Matrix.diagonal_mul]
  have hone : V * S * wfᵀ = 1 := by
    ext a b
    have := hS a b
    rw [Matrix.one_apply, ← this, Matrix.mul_apply]
    simp only [Matrix.mul_apply, hV, Matrix.of_apply, Matrix.transpose_apply, Finset.sum_mul]
    rw [Finset.sum_comm]
  have hFF : F * F = (2 : ℂ) • F := by
    rw [hF, Matrix.diagonal_mul_diagonal, ← Matrix.diagonal_smul]
    congr 1
    funext a
    rcases hf a with h | h <;> simp [h]
  calc computeRho wf f * S * computeRho wf f = wfᵀ * F * (V * S * wfᵀ) * F * V := by
        rw [hrho]; simp only [Matrix.mul_assoc]
    _ = wfᵀ * (F * F) * V := by rw [hone]; simp only [Matrix.mul_assoc, Matrix.one_mul]
    _ = _ := by rw [hFF, hrho]; simp only [Matrix.mul_smul, Matrix.smul_mul, Matrix.mul_assoc]

/-- C86: for real matrices and doubly occupied or empty orthonormal states, the Mayer bond orders of an atom with
all atoms, itself included, add up to twice its Mulliken population. -/
theorem c86_mayer_sum (elements : String → Option ElementData) (symbols : List String) (t : OrbTables)
    (h : orbInit elements symbols = .ok t) (B : BondData nk t.norb) (hBt : B.t = t)
    (hr : ∀ k i j, (B.rho k i j).im = 0 ∧ (B.S k i j).im = 0) (f : Fin nk → Fin t.norb → ℝ)
    (hf : ∀ k a, f k a = 0 ∨ f k a = 2) (hrho : ∀ k, B.rho k = computeRho (B.wf k) (f k))
    (hS : ∀ k, SOrthonormal (B.wf k) (B.S k)) (I : ℕ) (hI : I < symbols.length) :
    ∃ ms, (List.range symbols.length).mapM (B.mayer I) = .ok ms ∧ ms.sum = 2 * atomPart t I B.diag := by
  have hb := blocks_length _ _ _ h
  have hone : ∀ J < symbols.length,
      B.mayer I J = .ok (B.mayerSum (t.blocks.getD I (0, 0)) (t.blocks.getD J (0, 0))).re := by
    intro J hJ
    obtain ⟨m, hm⟩ := (c86_mayer _ _ _ h B hBt I J hI hJ).2 hr
    have := mayer_eq _ _ _ h B hBt I J hI hJ
    split at this
    · exact this
    · rw [hm] at this; simp at this
  refine ⟨_, mapM_ok_of_forall _ _ _ fun J hJ => hone J (List.mem_range.1 hJ), ?_⟩
  rw [list_range_sum, ← Complex.re_sum]
  have hsum : ∑ J ∈ Finset.range symbols.length, B.mayerSum (t.blocks.getD I (0, 0)) (t.blocks.getD J (0, 0))
      = ∑ k, (B.wk k : ℂ) * sliceSum (fun mu => ∑ nu, B.rhoS k mu nu * B.rhoS k nu mu) (t.blocks.getD I (0, 0)) := by
    unfold BondData.mayerSum
    rw [Finset.sum_comm]
    apply Finset.sum_congr rfl; intro k _
    rw [← Finset.mul_sum]
    congr 1
    unfold orbBlockSum
    rw [sliceSum_finset]
    congr 1
    funext mu
    rw [← list_range_sum, ← hb, range_blocks_sum t (sliceSum _), blocks_sum elements symbols t h]
  have hk : ∀ k mu, ∑ nu, B.rhoS k mu nu * B.rhoS k nu mu = 2 * rowDot (B.rho k) (B.S k) mu := by
    intro k mu
    have e1 : ∑ nu, B.rhoS k mu nu * B.rhoS k nu mu = (B.rho k * B.S k * B.rho k * B.S k) mu mu := by
      rw [Matrix.mul_assoc (B.rho k * B.S k), Matrix.mul_apply]
      rfl
    rw [e1, hrho, rho_S_rho _ _ (hS k) _ (hf k), Matrix.smul_mul, Matrix.smul_apply, Matrix.mul_apply]
    rfl
  rw [hsum, ← sliceSum_atomPart _ _ _ h I (by omega)]
  simp only [hk]
  rw [Complex.re_sum]
  unfold BondData.diag mullikenDiag
  rw [← sliceSum_finset, Finset.mul_sum]
  apply Finset.sum_congr rfl; intro k _
  rw [Complex.re_ofReal_mul, sliceSum_mul, sliceSum_mul]
  have : sliceSum (fun i => (rowDot (B.rho k) (B.S k) i).re) (t.blocks.getD I (0, 0))
      = (sliceSum (rowDot (B.rho k) (B.S k)) (t.blocks.getD I (0, 0))).re :=
    sliceSum_map Complex.reAddGroupHom _ _
  rw [this]
  have : ((2 : ℂ) * sliceSum (rowDot (B.rho k) (B.S k)) (t.blocks.getD I (0, 0))).re
      = 2 * (sliceSum (rowDot (B.rho k) (B.S k)) (t.blocks.getD I (0, 0))).re := by
    simp
  rw [this]
  ring

/-- Orthonormal states with overlap 3/5. -/
noncomputable def exWf : CMat 2 := !![3 / 5, 4 / 5 * Complex.I; 9 / 20 - Complex.I, -(3 / 4) + 3 / 5 * Complex.I]

noncomputable def exS : CMat 2 := !![1, 3 / 5; 3 / 5, 1]

theorem exWf_orthonormal : SOrthonormal exWf exS := by
  intro a b
  fin_cases a <;> fin_cases b <;>
    simp [exWf, exS, Fin.sum_univ_two, Complex.ext_iff, Complex.conj_ofNat] <;> norm_num

/-- C86 refuted for complex wave functions: with the two states above (orthonormal, the first doubly occupied)
at a single k-point the bond order of two hydrogen atoms raises `AssertionError`. -/
theorem c86_mayer_fails : ∃ (elements : String → Option ElementData) (symbols : List String) (t : OrbTables)
    (B : BondData 1 t.norb) (f : Fin t.norb → ℝ), orbInit elements symbols = .ok t ∧ B.t = t ∧ B.wk 0 = 1 ∧
    B.rho 0 = computeRho (B.wf 0) f ∧ (∀ a, f a = 0 ∨ f a = 2) ∧ SOrthonormal (B.wf 0) (B.S 0) ∧
    (B.S 0).IsHermitian ∧ B.mayer 0 1 = .error .assertionError := by
  let t : OrbTables := { orb := [⟨0, "H", "s", 0, 0, -0.238, 0⟩, ⟨1, "H", "s", 0, 1, -0.238, 0⟩], atomorb := [[⟨0, "H", "s", 0, 0, -0.238, 0⟩], [⟨1, "H", "s", 0, 1, -0.238, 0⟩]], nrOrbitals := [1, 1], firstOrbitals := [0, 1], orbitalAtoms := [0, 1], norb := 2 }
  have ht : orbInit exElements ["H", "H"] = .ok t := rfl
  let f : Fin 2 → ℝ := ![2, 0]
  let B : BondData 1 2 := ⟨t, fun _ => 1, fun _ => computeRho exWf f, fun _ => exS, fun _ => 0, fun _ => exWf,
    fun _ => 0, fun _ => 0, false, fun _ _ => 0, fun _ => 0, fun _ => 0, fun _ _ => 0, fun _ _ => 0, 1, 1⟩
  refine ⟨exElements, ["H", "H"], t, B, f, ht, rfl, rfl, rfl, ?_, exWf_orthonormal, ?_, ?_⟩
  · intro a
    fin_cases a
    · right; rfl
    · left; rfl
  · ext i j
    fin_cases i <;> fin_cases j <;> simp [B, exS]
  · have h1 := mayer_eq exElements ["H", "H"] t ht B rfl 0 1 (by simp) (by simp)
    have h2 : B.mayerSum (t.blocks.getD 0 (0, 0)) (t.blocks.getD 1 (0, 0)) = B.rhoS 0 0 1 * B.rhoS 0 1 0 := by
      have e : ∀ g : Fin 2 → Fin 2 → ℂ, orbBlockSum g (t.blocks.getD 0 (0, 0)) (t.blocks.getD 1 (0, 0)) = g 0 1 := by
        intro g
        show orbBlockSum g (0, 1) (1, 1) = g 0 1
        unfold orbBlockSum sliceSum
        simp
      unfold BondData.mayerSum
      rw [Fin.sum_univ_one]
      refine (congrArg _ (e _)).trans ?_
      simp [B]
    rw [h1, h2, if_neg]
    have hr : B.rho 0 = !![18 / 25, -(24 / 25) * Complex.I; 24 / 25 * Complex.I, 32 / 25] := by
      show computeRho exWf f = _
      ext i j
      fin_cases i <;> fin_cases j <;>
        simp [computeRho, exWf, f, Matrix.mul_apply, Fin.sum_univ_two, Complex.ext_iff, Complex.conj_ofNat] <;> norm_num
    have hS : B.S 0 = !![1, 3 / 5; 3 / 5, 1] := rfl
    have h01 : B.rhoS 0 0 1 = 54 / 125 - 24 / 25 * Complex.I := by
      unfold BondData.rhoS
      rw [hr, hS]
      simp [Matrix.mul_apply, Fin.sum_univ_two]
      ring
    have h10 : B.rhoS 0 1 0 = 96 / 125 + 24 / 25 * Complex.I := by
      unfold BondData.rhoS
      rw [hr, hS]
      simp [Matrix.mul_apply, Fin.sum_univ_two]
      ring
    rw [h01, h10]
    simp
    norm_num [abs_lt]

end Hotbit
