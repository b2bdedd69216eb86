import Verif.Model.LinearResponse
import Verif.Props.Analysis
import Verif.Lemmas.Coulomb
import Mathlib.Analysis.Matrix.Spectrum

/-!
# C47: linear response
-/

namespace Hotbit

open Matrix

variable {n : ℕ}

/-- The overlap of two states. -/
def LRData.overlap (D : LRData n) (k l : Fin n) : ℝ := ∑ i, ∑ j, D.wf k i * D.S i j * D.wf l j

theorem sliceSum_div (v : Fin n → ℝ) (c : ℝ) (b : ℕ × ℕ) : sliceSum v b / c = sliceSum (fun i => v i / c) b := by
  simp only [sliceSum_eq, Finset.sum_div]
  apply Finset.sum_congr rfl
  intro i _
  split_ifs <;> simp

/-- C47: there is one transfer charge per atom, made of the basis functions of that atom; it does not depend on the
order of the states, and for a symmetric overlap the charges add up to the overlap of the two states (zero for
orthogonal states). -/
theorem c47_transfer (elements : String → Option ElementData) (symbols : List String) (t : OrbTables)
    (h : orbInit elements symbols = .ok t) (D : LRData t.norb) (hD : D.t = t) (k l : Fin t.norb) :
    D.transfer k l = D.transfer l k ∧ (D.transfer k l).length = symbols.length ∧
    (∀ I < symbols.length, (D.transfer k l)[I]? = some (atomPart t I fun a =>
      (∑ b, D.wf k a * D.S a b * D.wf l b + ∑ b, D.wf l a * D.S a b * D.wf k b) / 2)) ∧
    ((∀ i j, D.S i j = D.S j i) → (D.transfer k l).sum = D.overlap k l) := by
  have hb := blocks_length _ _ _ h
  have hv : ∀ k l (a : Fin t.norb), D.wf k a * D.Swf a l + D.wf l a * D.Swf a k
      = ∑ b, D.wf k a * D.S a b * D.wf l b + ∑ b, D.wf l a * D.S a b * D.wf k b := by
    intro k l a
    unfold LRData.Swf
    rw [Finset.mul_sum, Finset.mul_sum]
    congr 1 <;> · apply Finset.sum_congr rfl; intro b _; ring
  refine ⟨?_, ?_, ?_, ?_⟩
  · unfold LRData.transfer
    apply List.map_congr_left
    intro b _
    congr 2
    funext a
    ring
  · unfold LRData.transfer
    rw [List.length_map, hD, hb]
  · intro I hI
    have hI' : I < t.blocks.length := by omega
    unfold LRData.transfer
    rw [List.getElem?_map, hD, List.getElem?_eq_getElem hI', Option.map_some, sliceSum_div]
    have := sliceSum_atomPart _ _ _ h I hI' fun a => (D.wf k a * D.Swf a l + D.wf l a * D.Swf a k) / 2
    rw [List.getD_eq_getElem?_getD, List.getElem?_eq_getElem hI', Option.getD_some] at this
    rw [this]
    simp only [hv]
  · intro hS
    unfold LRData.transfer
    simp only [sliceSum_div]
    rw [hD]
    rw [blocks_sum elements symbols t h]
    simp only [hv, add_div, Finset.sum_add_distrib, ← Finset.sum_div]
    have : ∑ a, ∑ b, D.wf l a * D.S a b * D.wf k b = D.overlap k l := by
      unfold LRData.overlap
      rw [Finset.sum_comm]
      apply Finset.sum_congr rfl; intro i _
      apply Finset.sum_congr rfl; intro j _
      rw [hS j i]; ring
    rw [this]
    unfold LRData.overlap
    ring

/-! ### Particle-hole pairs -/

/-- The pairs that should enter: a lower, more occupied state and a higher, less occupied one within the cutoff. -/
def LRData.Allowed (D : LRData n) (i j : Fin n) : Prop :=
  0 < D.e j - D.e i ∧ D.e j - D.e i < D.cut ∧ (D.f i - D.f j) / 2 > 1e-6

theorem mem_statePairs (i j : Fin n) : (i, j) ∈ statePairs n ↔ i < j := by
  unfold statePairs
  simp only [List.mem_flatMap, List.mem_finRange, List.mem_map, List.mem_filter, true_and, Prod.mk.injEq,
    decide_eq_true_eq]
  constructor
  · rintro ⟨a, b, hab, rfl, rfl⟩; exact hab
  · intro h; exact ⟨i, j, h, rfl, rfl⟩

theorem statePairs_nodup : (statePairs n).Nodup := by
  unfold statePairs
  rw [List.nodup_flatMap]
  refine ⟨fun i _ => ((List.nodup_finRange n).filter _).map fun a b h => by simpa using h, ?_⟩
  refine (List.nodup_finRange n).imp ?_
  intro a b hab
  simp only [Function.onFun, List.disjoint_left, List.mem_map]
  rintro x ⟨j, -, rfl⟩ ⟨j', -, h⟩
  exact hab (by simpa using (congrArg Prod.fst h).symm)

open Classical in
theorem select_ok (D : LRData n) : ∀ l : List (Fin n × Fin n),
    (∀ p ∈ l, D.e p.2 - D.e p.1 < D.cut → (D.f p.1 - D.f p.2) / 2 > 1e-6 → 0 < D.e p.2 - D.e p.1) →
    D.select l = .ok ((l.filter fun p => D.Allowed p.1 p.2).map fun p =>
      ⟨p.1, p.2, D.e p.2 - D.e p.1, (D.f p.1 - D.f p.2) / 2⟩)
  | [], _ => rfl
  | (i, j) :: l, hl => by
    have ih := select_ok D l fun p hp => hl p (by simp [hp])
    have h0 := hl (i, j) (by simp)
    simp only at h0
    unfold LRData.select
    by_cases hc : D.e j - D.e i < D.cut ∧ (D.f i - D.f j) / 2 > 1e-6
    · have hpos := h0 hc.1 hc.2
      have hA : D.Allowed i j := ⟨hpos, hc.1, hc.2⟩
      rw [List.filter_cons_of_pos (by simpa using hA)]
      simp only [if_pos hc]
      rw [if_pos ⟨hpos, lt_trans (by norm_num) hc.2⟩, ih]
      rfl
    · have hA : ¬ D.Allowed i j := fun h => hc h.2
      rw [List.filter_cons_of_neg (by simpa using hA)]
      simp only [if_neg hc]
      exact ih

/-- C47: if the energies are in ascending order and equal energies have equal occupations, the selection never fails;
the pairs that enter are exactly those with positive excitation energy below the cutoff and falling occupation,
each once, with their energy and half occupation difference. -/
theorem c47_pairs (D : LRData n) (he : ∀ i j, i < j → D.e i ≤ D.e j) (hf : ∀ i j, D.e i = D.e j → D.f i = D.f j) :
    ∃ ph, D.select (statePairs n) = .ok ph ∧ (ph.map fun p => (p.i, p.j)).Nodup ∧
      (∀ i j, (∃ p ∈ ph, p.i = i ∧ p.j = j) ↔ D.Allowed i j) ∧
      ∀ p ∈ ph, p.de = D.e p.j - D.e p.i ∧ p.df = (D.f p.i - D.f p.j) / 2 ∧ 0 < p.de ∧ 0 < p.df ∧ p.i < p.j := by
  classical
  refine ⟨_, select_ok D _ ?_, ?_, ?_, ?_⟩
  · rintro ⟨i, j⟩ hp hc ho
    rw [mem_statePairs] at hp
    rcases (he i j hp).lt_or_eq with h | h
    · linarith
    · exfalso
      have := hf i j h
      rw [this] at ho
      norm_num at ho
  · rw [List.map_map]
    have : (fun p : PH n => (p.i, p.j)) ∘ (fun p : Fin n × Fin n => (⟨p.1, p.2, D.e p.2 - D.e p.1,
        (D.f p.1 - D.f p.2) / 2⟩ : PH n)) = id := by
      funext p; rfl
    rw [this, List.map_id]
    exact statePairs_nodup.filter _
  · intro i j
    constructor
    · rintro ⟨p, hp, rfl, rfl⟩
      obtain ⟨q, hq, rfl⟩ := List.mem_map.1 hp
      simpa using (List.mem_filter.1 hq).2
    · intro hA
      refine ⟨_, List.mem_map.2 ⟨(i, j), ?_, rfl⟩, rfl, rfl⟩
      rw [List.mem_filter, mem_statePairs]
      refine ⟨?_, by simpa using hA⟩
      by_contra hij
      rcases (not_lt.1 hij).lt_or_eq with h | h
      · have := he j i h
        have := hA.1
        linarith
      · subst h
        have := hA.1
        linarith
  · intro p hp
    obtain ⟨q, hq, rfl⟩ := List.mem_map.1 hp
    obtain ⟨h1, h2⟩ := List.mem_filter.1 hq
    have hA : D.Allowed q.1 q.2 := by simpa using h2
    refine ⟨rfl, rfl, hA.1, lt_trans (by norm_num) hA.2.2, (mem_statePairs q.1 q.2).1 h1⟩

/-! ### The coupling matrix -/

theorem dotList_gamma (gamma : ℕ → ℕ → ℝ) (a b : List ℝ) (hab : a.length = b.length) :
    dotList a (gammaDot gamma b)
      = ∑ I ∈ Finset.range b.length, ∑ J ∈ Finset.range b.length, a.getD I 0 * gamma I J * b.getD J 0 := by
  unfold dotList gammaDot
  have : a = (List.range b.length).map fun I => a.getD I 0 := by
    apply List.ext_getElem
    · simp [hab]
    · intro i h1 h2
      simp [h1]
  conv_lhs => rw [this]
  rw [List.zipWith_map, List.zipWith_self, list_range_sum]
  apply Finset.sum_congr rfl; intro I _
  rw [list_range_sum, Finset.mul_sum]
  apply Finset.sum_congr rfl; intro J _
  ring

/-- The transfer charge on atom `I`. -/
noncomputable def LRData.q (D : LRData n) (p : PH n) (I : ℕ) : ℝ := (D.transfer p.i p.j).getD I 0

theorem transfer_length (D : LRData n) (k l : Fin n) : (D.transfer k l).length = D.t.blocks.length := by
  unfold LRData.transfer; rw [List.length_map]

theorem matrix_apply (D : LRData n) (ph : List (PH n)) (k1 k2 : Fin ph.length) :
    D.matrix ph k1 k2 = (if k1 = k2 then ph[k1].de ^ 2 else 0) + (if D.scc then
      2 * √(ph[k1].df * ph[k1].de * ph[k2].de * ph[k2].df) * ∑ I ∈ Finset.range D.t.blocks.length,
        ∑ J ∈ Finset.range D.t.blocks.length, D.q ph[k1] I * D.gamma I J * D.q ph[k2] J else 0) := by
  unfold LRData.matrix
  rw [Matrix.of_apply]
  simp only
  rw [dotList_gamma _ _ _ (by rw [transfer_length, transfer_length]), transfer_length]
  rfl

/-- C47: the coupling matrix is symmetric if the electrostatic matrix is; without self-consistency it is diagonal with
the squared excitation energies. -/
theorem c47_matrix (D : LRData n) (ph : List (PH n)) :
    ((∀ I < D.t.blocks.length, ∀ J < D.t.blocks.length, D.gamma I J = D.gamma J I) →
      (D.matrix ph).IsSymm) ∧
    (D.scc = false → D.matrix ph = Matrix.diagonal fun k => ph[k].de ^ 2) := by
  constructor
  · intro hg
    ext k1 k2
    rw [Matrix.transpose_apply, matrix_apply, matrix_apply]
    congr 1
    · by_cases h : k1 = k2
      · subst h; rfl
      · rw [if_neg h, if_neg (Ne.symm h)]
    · split_ifs
      · congr 1
        · congr 2; ring
        · rw [Finset.sum_comm]
          apply Finset.sum_congr rfl; intro I hI
          apply Finset.sum_congr rfl; intro J hJ
          rw [hg J (Finset.mem_range.1 hJ) I (Finset.mem_range.1 hI)]; ring
      · rfl
  · intro hs
    ext k1 k2
    rw [matrix_apply, hs, Matrix.diagonal_apply]
    simp

/-- The electrostatic matrix of the atoms has no negative direction. -/
def LRData.GammaPos (D : LRData n) : Prop :=
  ∀ x : ℕ → ℝ, 0 ≤ ∑ I ∈ Finset.range D.t.blocks.length, ∑ J ∈ Finset.range D.t.blocks.length, x I * D.gamma I J * x J

/-- C47: with a positive semidefinite electrostatic matrix (or without self-consistency) no eigenvalue lies below the
smallest squared excitation energy, so all frequencies are real and positive. -/
theorem c47_stable (D : LRData n) (ph : List (PH n)) (hpos : ∀ p ∈ ph, 0 < p.de ∧ 0 < p.df)
    (hg : D.scc = true → D.GammaPos) (lam : ℝ) (v : Fin ph.length → ℝ) (hv : v ≠ 0)
    (hlam : D.matrix ph *ᵥ v = lam • v) : 0 < lam ∧ ∃ p ∈ ph, p.de ^ 2 ≤ lam := by
  have hp : ∀ k : Fin ph.length, 0 < ph[k].de ∧ 0 < ph[k].df := fun k => hpos _ (List.getElem_mem k.2)
  have hne : ∃ k, v k ≠ 0 := by
    by_contra hcon
    push Not at hcon
    exact hv (funext hcon)
  obtain ⟨k0, hk0⟩ := hne
  have hvv : 0 < ∑ k, v k ^ 2 :=
    Finset.sum_pos' (fun k _ => sq_nonneg _) ⟨k0, Finset.mem_univ _, by positivity⟩
  have hquad : ∑ k1, v k1 * (D.matrix ph *ᵥ v) k1 = lam * ∑ k, v k ^ 2 := by
    rw [hlam, Finset.mul_sum]
    apply Finset.sum_congr rfl; intro k _
    rw [Pi.smul_apply, smul_eq_mul]; ring
  have hge : ∑ k, ph[k].de ^ 2 * v k ^ 2 ≤ ∑ k1, v k1 * (D.matrix ph *ᵥ v) k1 := by
    have hsplit : ∑ k1, v k1 * (D.matrix ph *ᵥ v) k1 = ∑ k, ph[k].de ^ 2 * v k ^ 2
        + ∑ k1, ∑ k2, v k1 * (if D.scc then
      2 * √(ph[k1].df * ph[k1].de * ph[k2].de * ph[k2].df) * ∑ I ∈ Finset.range D.t.blocks.length,
        ∑ J ∈ Finset.range D.t.blocks.length, D.q ph[k1] I * D.gamma I J * D.q ph[k2] J else 0) * v k2 := by
      rw [← Finset.sum_add_distrib]
      apply Finset.sum_congr rfl; intro k1 _
      simp only [Matrix.mulVec, dotProduct, matrix_apply, add_mul, Finset.sum_add_distrib, ite_mul, zero_mul,
        Finset.sum_ite_eq, Finset.mem_univ, if_true, mul_add]
      congr 1
      · ring
      · rw [Finset.mul_sum]
        apply Finset.sum_congr rfl; intro k2 _
        split_ifs
        · ring
        · ring
    rw [hsplit]
    apply le_add_of_nonneg_right
    by_cases hs : D.scc = true
    · have hx := hg hs fun I => ∑ k, √(ph[k].df * ph[k].de) * v k * D.q ph[k] I
      have e : ∑ k1, ∑ k2, v k1 * (if D.scc then
          2 * √(ph[k1].df * ph[k1].de * ph[k2].de * ph[k2].df) * ∑ I ∈ Finset.range D.t.blocks.length,
          ∑ J ∈ Finset.range D.t.blocks.length, D.q ph[k1] I * D.gamma I J * D.q ph[k2] J else 0) * v k2
          = 2 * ∑ I ∈ Finset.range D.t.blocks.length, ∑ J ∈ Finset.range D.t.blocks.length,
            (∑ k, √(ph[k].df * ph[k].de) * v k * D.q ph[k] I) * D.gamma I J
              * (∑ k, √(ph[k].df * ph[k].de) * v k * D.q ph[k] J) := by
        have hsq : ∀ k1 k2 : Fin ph.length, √(ph[k1].df * ph[k1].de * ph[k2].de * ph[k2].df)
            = √(ph[k1].df * ph[k1].de) * √(ph[k2].df * ph[k2].de) := by
          intro k1 k2
          rw [← Real.sqrt_mul (mul_pos (hp k1).2 (hp k1).1).le]
          congr 1; ring
        simp only [hs, if_true, hsq]
        simp only [Finset.sum_mul, Finset.mul_sum]
        have swap : ∀ g : Fin ph.length → Fin ph.length → ℕ → ℕ → ℝ,
            ∑ k1, ∑ k2, ∑ I ∈ Finset.range D.t.blocks.length, ∑ J ∈ Finset.range D.t.blocks.length, g k1 k2 I J
            = ∑ I ∈ Finset.range D.t.blocks.length, ∑ J ∈ Finset.range D.t.blocks.length, ∑ k2, ∑ k1, g k1 k2 I J := by
          intro g
          rw [Finset.sum_comm]
          simp only [Finset.sum_comm (s := Finset.univ) (t := Finset.range D.t.blocks.length)]
        rw [swap]
        apply Finset.sum_congr rfl; intro I _
        apply Finset.sum_congr rfl; intro J _
        rw [Finset.sum_congr rfl]; intro k2 _
        rw [Finset.sum_congr rfl]; intro k1 _
        ring
      rw [e]
      linarith
    · simp [hs]
  rw [hquad] at hge
  have hex : ∃ p ∈ ph, p.de ^ 2 ≤ lam := by
    by_contra hcon
    push Not at hcon
    have : lam * ∑ k, v k ^ 2 < ∑ k, ph[k].de ^ 2 * v k ^ 2 := by
      rw [Finset.mul_sum]
      apply Finset.sum_lt_sum
      · intro k _
        exact mul_le_mul_of_nonneg_right (hcon _ (List.getElem_mem k.2)).le (sq_nonneg _)
      · refine ⟨k0, Finset.mem_univ _, ?_⟩
        exact mul_lt_mul_of_pos_right (hcon _ (List.getElem_mem k0.2)) (by positivity)
    linarith
  obtain ⟨p, hpm, hple⟩ := hex
  exact ⟨lt_of_lt_of_le (pow_pos (hpos p hpm).1 2) hple, p, hpm, hple⟩

/-! ### Running -/

/-- What numpy's `eigh` promises for symmetric matrices: orthonormal eigenvectors. -/
def IsEigh {d : ℕ} (M : Matrix (Fin d) (Fin d) ℝ) (s : (Fin d → ℝ) × (Fin d → Fin d → ℝ)) : Prop :=
  (∀ ex, M *ᵥ (fun p => s.2 p ex) = s.1 ex • fun p => s.2 p ex) ∧
  ∀ ex ex', ∑ p, s.2 p ex * s.2 p ex' = if ex = ex' then 1 else 0

theorem eigh_rows {d : ℕ} (M : Matrix (Fin d) (Fin d) ℝ) (s : (Fin d → ℝ) × (Fin d → Fin d → ℝ)) (h : IsEigh M s)
    (p p' : Fin d) : ∑ ex, s.2 p ex * s.2 p' ex = if p = p' then 1 else 0 := by
  set U : Matrix (Fin d) (Fin d) ℝ := Matrix.of s.2
  have h1 : Uᵀ * U = 1 := by
    ext a b
    rw [Matrix.mul_apply, Matrix.one_apply, ← h.2 a b]
    rfl
  have h2 : U * Uᵀ = 1 := mul_eq_one_comm.1 h1
  have h3 := congrFun (congrFun h2 p) p'
  rw [Matrix.mul_apply, Matrix.one_apply] at h3
  exact h3

/-- The strength written without the frequency. -/
theorem strength_eq (D : LRData n) (ph : List (PH n)) (omega2 : Fin ph.length → ℝ)
    (eigv : Fin ph.length → Fin ph.length → ℝ) (ex : Fin ph.length) (h : 0 < omega2 ex) :
    D.strength ph omega2 eigv ex
      = (8 / 3 : ℝ) * ∑ i, (∑ p, D.rv ph[p] i * √(ph[p].df * ph[p].de) * eigv p ex) ^ 2 := by
  unfold LRData.strength LRData.vComp
  have h1 : 0 < √(omega2 ex) := Real.sqrt_pos.2 h
  have h2 : √√(omega2 ex) * √√(omega2 ex) = √(omega2 ex) := Real.mul_self_sqrt h1.le
  have h3 : √√(omega2 ex) ≠ 0 := (Real.sqrt_pos.2 h1).ne'
  have e : ∀ x : ℝ, x / √√(omega2 ex) * 2 * (x / √√(omega2 ex) * 2) = 4 * x ^ 2 / √(omega2 ex) := by
    intro x
    generalize √√(omega2 ex) = y at h2 h3
    rw [← h2]
    field_simp
    ring
  simp only [e]
  rw [← Finset.sum_div, ← Finset.mul_sum]
  field_simp
  ring

/-- C47: a successful run.  If the energies are ascending, occupations are a function of the energy, the electrostatic
matrix is symmetric and positive semidefinite, and there is at least one and less than 100000 pairs, then the run
succeeds; all frequencies are positive, there are as many excitations as pairs, all oscillator strengths are nonnegative and add
up to `8/3 sum df de |r|^2`, which depends neither on the electrostatics nor on the eigenvectors. -/
theorem c47_run (D : LRData n) (he : ∀ i j, i < j → D.e i ≤ D.e j) (hf : ∀ i j, D.e i = D.e j → D.f i = D.f j)
    (hg : D.scc = true → D.GammaPos ∧
      ∀ I < D.t.blocks.length, ∀ J < D.t.blocks.length, D.gamma I J = D.gamma J I)
    (eigh : ∀ d : ℕ, Matrix (Fin d) (Fin d) ℝ → (Fin d → ℝ) × (Fin d → Fin d → ℝ))
    (hE : ∀ d M, M.IsSymm → IsEigh M (eigh d M)) (ph : List (PH n)) (hph : D.select (statePairs n) = .ok ph)
    (h0 : 0 < ph.length) (h1 : ph.length < 100000) :
    ∃ R, D.run eigh false = .ok R ∧ R.ph = ph ∧ R.omega.length = ph.length ∧ R.F.length = ph.length ∧
      (∀ om ∈ R.omega, 0 < om ∧ ∃ p ∈ ph, p.de ≤ om) ∧ (∀ F ∈ R.F, 0 ≤ F) ∧
      R.F.sum = (8 / 3 : ℝ) * (ph.map fun p => p.df * p.de * ∑ i, D.rv p i ^ 2).sum := by
  obtain ⟨ph', hph', -, -, hall⟩ := c47_pairs D he hf
  rw [hph] at hph'
  obtain rfl : ph = ph' := by simpa using hph'
  have hsym : (D.matrix ph).IsSymm := by
    by_cases hs : D.scc = true
    · exact (c47_matrix D ph).1 (hg hs).2
    · rw [(c47_matrix D ph).2 (by simpa using hs)]
      exact Matrix.isSymm_diagonal _
  have hs := hE _ _ hsym
  set s := eigh ph.length (D.matrix ph) with hsdef
  have hpos : ∀ p ∈ ph, 0 < p.de ∧ 0 < p.df := fun p hp => ⟨(hall p hp).2.2.1, (hall p hp).2.2.2.1⟩
  have hlam : ∀ ex, 0 < s.1 ex ∧ ∃ p ∈ ph, p.de ^ 2 ≤ s.1 ex := by
    intro ex
    refine c47_stable D ph hpos (fun h => (hg h).1) (s.1 ex) (fun p => s.2 p ex) ?_ (hs.1 ex)
    intro h
    have := hs.2 ex ex
    rw [if_pos rfl] at this
    simp only [funext_iff, Pi.zero_apply] at h
    simp [h] at this
  have hstr := fun ex => strength_eq D ph s.1 s.2 ex (hlam ex).1
  refine ⟨⟨ph, List.ofFn fun ex => √(s.1 ex), List.ofFn fun ex => D.strength ph s.1 s.2 ex,
    List.ofFn fun ex => 1 / ∑ p, s.2 p ex ^ 4⟩, ?_, rfl, by simp, by simp, ?_, ?_, ?_⟩
  · unfold LRData.run
    rw [hph]
    simp only [Bool.false_eq_true, if_false, bind, Except.bind, pure, Except.pure]
    rw [if_neg (by rw [not_not]; exact ⟨h0, h1⟩)]
  · intro om hom
    obtain ⟨ex, rfl⟩ := (List.mem_ofFn' _ _).1 hom
    obtain ⟨h2, p, hp, hle⟩ := hlam ex
    refine ⟨Real.sqrt_pos.2 h2, p, hp, Real.le_sqrt_of_sq_le hle⟩
  · intro F hF
    obtain ⟨ex, rfl⟩ := (List.mem_ofFn' _ _).1 hF
    show 0 ≤ D.strength ph s.1 s.2 ex
    rw [hstr]
    positivity
  · rw [List.sum_ofFn]
    simp only [hstr]
    rw [← Finset.mul_sum]
    congr 1
    rw [Finset.sum_comm]
    have hlist : (ph.map fun p => p.df * p.de * ∑ i, D.rv p i ^ 2).sum
        = ∑ k : Fin ph.length, ph[k].df * ph[k].de * ∑ i, D.rv ph[k] i ^ 2 := by
      rw [← Fin.sum_univ_fun_getElem]
      rfl
    rw [hlist]
    simp only [Finset.mul_sum]
    rw [Finset.sum_comm]
    rw [Finset.sum_comm (f := fun (k : Fin ph.length) (i : Fin 3) => ph[k].df * ph[k].de * D.rv ph[k] i ^ 2)]
    rw [Finset.sum_comm]
    apply Finset.sum_congr rfl; intro i _
    calc ∑ ex, (∑ p : Fin ph.length, D.rv ph[p] i * √(ph[p].df * ph[p].de) * s.2 p ex) ^ 2
        = ∑ p : Fin ph.length, ∑ p' : Fin ph.length, (D.rv ph[p] i * √(ph[p].df * ph[p].de)) * (D.rv ph[p'] i * √(ph[p'].df * ph[p'].de))
            * ∑ ex, s.2 p ex * s.2 p' ex := by
          simp only [sq, Finset.sum_mul_sum]
          rw [Finset.sum_comm]
          apply Finset.sum_congr rfl; intro p _
          rw [Finset.sum_comm]
          apply Finset.sum_congr rfl; intro p' _
          rw [Finset.mul_sum]
          apply Finset.sum_congr rfl; intro ex _
          ring
      _ = ∑ p : Fin ph.length, ph[p].df * ph[p].de * D.rv ph[p] i ^ 2 := by
          simp only [eigh_rows _ _ hs, mul_ite, mul_one, mul_zero, Finset.sum_ite_eq, Finset.mem_univ, if_true]
          apply Finset.sum_congr rfl; intro p _
          have hp := hpos ph[p] (List.getElem_mem p.2)
          have := Real.mul_self_sqrt (mul_pos hp.2 hp.1).le
          linear_combination (D.rv ph[p] i) ^ 2 * this

/-- C47: the charge neutral transitions do not see the origin: for a symmetric overlap and orthogonal states,
displacing all atoms by the same vector changes nothing. -/
theorem c47_origin (elements : String → Option ElementData) (symbols : List String) (t : OrbTables)
    (h : orbInit elements symbols = .ok t) (D : LRData t.norb) (hD : D.t = t) (hS : ∀ i j, D.S i j = D.S j i)
    (ho : ∀ k l, k ≠ l → D.overlap k l = 0) (d : Vec)
    (eigh : ∀ d : ℕ, Matrix (Fin d) (Fin d) ℝ → (Fin d → ℝ) × (Fin d → Fin d → ℝ)) (done : Bool) :
    ({ D with r := fun I => D.r I + d } : LRData t.norb).run eigh done = D.run eigh done := by
  set D' : LRData t.norb := { D with r := fun I => D.r I + d }
  have hsel : ∀ l, D'.select l = D.select l := by
    intro l
    induction l with
    | nil => rfl
    | cons p l ih => obtain ⟨i, j⟩ := p; unfold LRData.select; rw [ih]
  have hne : ∀ l, (∀ p ∈ l, p.1 ≠ p.2) → ∀ ph, D.select l = .ok ph → ∀ p ∈ ph, p.i ≠ p.j := by
    intro l
    induction l with
    | nil => intro _ ph hph; cases hph; simp
    | cons p l ih =>
      obtain ⟨i, j⟩ := p
      intro hl ph hph
      unfold LRData.select at hph
      simp only at hph
      split at hph
      · split at hph
        · cases hr : D.select l with
          | error e => rw [hr] at hph; simp [bind, Except.bind] at hph
          | ok rest =>
            rw [hr] at hph
            simp only [bind, Except.bind, pure, Except.pure, Except.ok.injEq] at hph
            subst hph
            intro p hp
            rcases List.mem_cons.1 hp with rfl | hp
            · exact hl (i, j) (by simp)
            · exact ih (fun q hq => hl q (by simp [hq])) rest hr p hp
        · simp at hph
      · exact ih (fun q hq => hl q (by simp [hq])) ph hph
  have hrv : ∀ p : PH t.norb, p.i ≠ p.j → ∀ i, D'.rv p i = D.rv p i := by
    intro p hp i
    have h1 : D'.transfer p.i p.j = D.transfer p.i p.j := rfl
    unfold LRData.rv
    rw [h1]
    have h2 : ∀ I, (D.transfer p.i p.j).getD I 0 * D'.r I i
        = (D.transfer p.i p.j).getD I 0 * D.r I i + (D.transfer p.i p.j).getD I 0 * d i := by
      intro I
      show _ * (D.r I + d) i = _
      rw [Pi.add_apply]; ring
    simp only [h2]
    rw [List.sum_map_add, List.sum_map_mul_right]
    have h3 : ((List.range (D.transfer p.i p.j).length).map fun I => (D.transfer p.i p.j).getD I 0)
        = D.transfer p.i p.j := by
      apply List.ext_getElem
      · simp
      · intro i h1 h2
        simp at h1
        simp [h1]
    rw [h3, (c47_transfer _ _ _ h D hD p.i p.j).2.2.2 hS, ho _ _ hp]
    ring
  unfold LRData.run
  rw [hsel]
  cases done with
  | true => rfl
  | false =>
    simp only [Bool.false_eq_true, if_false, bind, Except.bind, pure, Except.pure]
    cases hr : D.select (statePairs t.norb) with
    | error e => rfl
    | ok ph =>
      simp only
      have hpn := hne _ (by rintro ⟨i, j⟩ hp; exact ((mem_statePairs i j).1 hp).ne) ph hr
      have hm : D'.matrix ph = D.matrix ph := rfl
      have hst : ∀ o e ex, D'.strength ph o e ex = D.strength ph o e ex := by
        intro o e ex
        unfold LRData.strength LRData.vComp
        have : ∀ (q : Fin ph.length) i, D'.rv ph[q] i = D.rv ph[q] i := fun q i => hrv _ (hpn _ (List.getElem_mem q.2)) i
        simp only [this]
      simp only [hm, hst]

/-- C47: errors.  Complex wave functions and periodic systems are refused, a second run raises `AssertionError`, no pair
(or too many) `RuntimeError`, and before a run there is no spectrum. -/
theorem c47_errors (D : LRData n)
    (eigh : ∀ d : ℕ, Matrix (Fin d) (Fin d) ℝ → (Fin d → ℝ) × (Fin d → Fin d → ℝ)) (hartree : ℝ) :
    D.run eigh true = .error .assertionError ∧
    (∀ ph, D.select (statePairs n) = .ok ph → ph.length = 0 ∨ 100000 ≤ ph.length →
      D.run eigh false = .error .runtimeError) ∧
    lrSpectrum (n := n) hartree none = .error .attributeError ∧
    ∀ (nk : ℕ) (hk : 0 < nk) (t : OrbTables) (e f : Fin nk → Fin n → ℝ) (wfs S : Fin nk → CMat n) (r : ℕ → Vec)
      (gamma : ℕ → ℕ → ℝ) (scc pbc : Bool) (cut : ℝ),
      ((∃ k a i, |(wfs k a i).im| > 1e-10) →
        lrInit hk t e f wfs S r gamma scc pbc cut hartree = .error .valueError) ∧
      ((∀ k a i, (wfs k a i).im = 0) → pbc = true →
        lrInit hk t e f wfs S r gamma scc pbc cut hartree = .error .assertionError) ∧
      ((∀ k a i, (wfs k a i).im = 0) → pbc = false →
        ∃ D', lrInit hk t e f wfs S r gamma scc pbc cut hartree = .ok D' ∧ D'.cut * hartree = cut * (hartree / hartree) ∧
          ∀ a i, (D'.wf a i : ℂ) = wfs ⟨0, hk⟩ a i) := by
  refine ⟨rfl, ?_, rfl, ?_⟩
  · intro ph hph hl
    unfold LRData.run
    rw [hph]
    simp only [Bool.false_eq_true, if_false, bind, Except.bind]
    rw [if_pos (by omega)]
    rfl
  · intro nk hk t e f wfs S r gamma scc pbc cut
    unfold lrInit
    have hno : (∀ k a i, (wfs k a i).im = 0) → ¬ ∃ k a i, |(wfs k a i).im| > 1e-10 := by
      rintro h ⟨k, a, i, hi⟩
      rw [h, abs_zero] at hi
      norm_num at hi
    refine ⟨fun h => if_pos h, ?_, ?_⟩
    · intro h hp
      rw [if_neg (hno h), if_pos hp]
    · intro h hp
      rw [if_neg (hno h), hp]
      refine ⟨_, rfl, ?_, ?_⟩
      · simp only; ring
      · intro a i
        apply Complex.ext
        · simp
        · simp [h]

/-! ### The excitations -/

/-- C47: `get_excitation(i)` with `i ≥ 0` is the energy (eV) and strength of the i-th excitation whose strength reaches the
limit, counted from zero; `None` if there are fewer. -/
theorem c47_excitation (hartree cut : ℝ) (R : LRResult n) (i : ℕ) :
    getExcitation hartree cut R i
      = (((R.omega.zip R.F).filter fun x => decide (cut ≤ x.2))[i]?).map fun x => (x.1 * hartree, x.2) := by
  classical
  unfold getExcitation
  have key : ∀ (l : List (ℝ × ℝ)) (i : ℕ) (p : ℤ), p < i →
      findExcitation hartree cut i p l
        = ((l.filter fun x => decide (cut ≤ x.2))[((i : ℤ) - p - 1).toNat]?).map fun x => (x.1 * hartree, x.2) := by
    intro l
    induction l with
    | nil => intro i p _; simp [findExcitation]
    | cons x l ih =>
      obtain ⟨om, F⟩ := x
      intro i p hp
      unfold findExcitation
      by_cases hF : F ≥ cut
      · rw [List.filter_cons_of_pos (by simpa using hF)]
        simp only [if_pos hF]
        by_cases hi : p + 1 = i
        · rw [if_pos hi]
          have : ((i : ℤ) - p - 1).toNat = 0 := by omega
          rw [this]
          rfl
        · rw [if_neg hi, ih i (p + 1) (by omega)]
          have : ((i : ℤ) - p - 1).toNat = ((i : ℤ) - (p + 1) - 1).toNat + 1 := by omega
          rw [this]
          rfl
      · rw [List.filter_cons_of_neg (by simpa using hF)]
        simp only [if_neg hF]
        rw [if_neg (by omega), ih i p hp]
  rw [key _ i (-1) (by omega)]
  congr 2
  omega

/-- C47 refuted for spectra read from a file: the file holds energies in eV, which are taken for Hartree.  One excitation of
1/4 Hartree comes back as `27^2/4` instead of `27/4` for a conversion factor of 27. -/
theorem c47_reread_fails : ∃ (R : LRResult 2) (e e' : List ℝ) (F F' : List ℝ),
    lrSpectrum 27 (some R) = .ok (e, F) ∧
    lrSpectrum 27 (some { R with omega := (rereadSpectrum 27 R).1, F := (rereadSpectrum 27 R).2 }) = .ok (e', F') ∧
    F' = F ∧ e = [27 / 4] ∧ e' = [27 * 27 / 4] := by
  refine ⟨⟨[], [1 / 4], [1], []⟩, _, _, _, _, rfl, rfl, ?_, ?_, ?_⟩
  · simp [rereadSpectrum, fmt5]
  · simp; norm_num
  · have : round ((4 : ℝ)⁻¹ * 27 * 100000) = 675000 := by
      rw [show (4 : ℝ)⁻¹ * 27 * 100000 = ((675000 : ℤ) : ℝ) by norm_num, round_intCast]
    simp [rereadSpectrum, fmt5, this]; norm_num

/-! ### A case -/

/-- A hydrogen molecule along x (compare `exMolecule`). -/
noncomputable def exLR : LRData 2 where
  t := { orb := [⟨0, "H", "s", 0, 0, -0.238, 0⟩, ⟨1, "H", "s", 0, 1, -0.238, 0⟩],
         atomorb := [[⟨0, "H", "s", 0, 0, -0.238, 0⟩], [⟨1, "H", "s", 0, 1, -0.238, 0⟩]],
         nrOrbitals := [1, 1], firstOrbitals := [0, 1], orbitalAtoms := [0, 1], norb := 2 }
  e := ![-15 / 8, 5 / 2]
  f := ![2, 0]
  wf := !![√(5 / 16 : ℝ), √(5 / 16 : ℝ); √(5 / 4 : ℝ), -√(5 / 4 : ℝ)]
  S := !![1, 3 / 5; 3 / 5, 1]
  r := fun I => ![I, 0, 0]
  gamma := fun I J => if I = J then 1 else 1 / 2
  scc := true
  cut := 10

/-- The hypotheses of the theorems above hold for it: it has one pair, its states are orthogonal. -/
example : orbInit exElements ["H", "H"] = .ok exLR.t ∧ (∀ i j, i < j → exLR.e i ≤ exLR.e j) ∧
    (∀ i j, exLR.e i = exLR.e j → exLR.f i = exLR.f j) ∧ exLR.GammaPos ∧
    (∀ i j, exLR.S i j = exLR.S j i) ∧ (∀ k l, k ≠ l → exLR.overlap k l = 0) ∧
    ∃ p, exLR.select (statePairs 2) = .ok [p] := by
  have he : ∀ i j, i < j → exLR.e i ≤ exLR.e j := by
    intro i j
    fin_cases i <;> fin_cases j <;> simp [exLR] <;> norm_num
  have hf : ∀ i j, exLR.e i = exLR.e j → exLR.f i = exLR.f j := by
    intro i j
    fin_cases i <;> fin_cases j <;> simp [exLR] <;> norm_num
  refine ⟨rfl, he, hf, ?_, ?_, ?_, ?_⟩
  · intro x
    show 0 ≤ ∑ I ∈ Finset.range 2, ∑ J ∈ Finset.range 2, x I * (if I = J then 1 else 1 / 2) * x J
    simp [Finset.sum_range_succ]
    nlinarith [sq_nonneg (x 0 + x 1), sq_nonneg (x 0), sq_nonneg (x 1)]
  · intro i j
    fin_cases i <;> fin_cases j <;> simp [exLR]
  · intro k l
    fin_cases k <;> fin_cases l <;> simp [LRData.overlap, exLR, Fin.sum_univ_two] <;> ring
  · classical
    have h := select_ok exLR (statePairs 2) (by
      rintro ⟨i, j⟩ - -
      fin_cases i <;> fin_cases j <;> simp [exLR] <;> norm_num)
    have hl : statePairs 2 = [(0, 1)] := by decide
    rw [h, hl, List.filter_cons_of_pos]
    · exact ⟨_, rfl⟩
    · simp [LRData.Allowed, exLR]; norm_num

/-- There is a function like `eigh`. -/
example : ∃ eigh : ∀ d : ℕ, Matrix (Fin d) (Fin d) ℝ → (Fin d → ℝ) × (Fin d → Fin d → ℝ),
    ∀ d M, M.IsSymm → IsEigh M (eigh d M) := by
  have h : ∀ (d : ℕ) (M : Matrix (Fin d) (Fin d) ℝ), ∃ s, M.IsSymm → IsEigh M s := by
    intro d M
    by_cases hM : M.IsSymm
    · have hH : M.IsHermitian := by
        rw [Matrix.IsHermitian, Matrix.conjTranspose_eq_transpose_of_trivial]
        exact hM
      refine ⟨(hH.eigenvalues, fun p ex => hH.eigenvectorBasis ex p), fun _ => ⟨?_, ?_⟩⟩
      · intro ex
        exact hH.mulVec_eigenvectorBasis ex
      · intro ex ex'
        have := orthonormal_iff_ite.1 hH.eigenvectorBasis.orthonormal ex ex'
        rw [← this]
        simp [PiLp.inner_apply, mul_comm]
    · exact ⟨(fun _ => 0, fun _ _ => 0), fun h => absurd h hM⟩
  choose eigh heigh using h
  exact ⟨eigh, heigh⟩

end Hotbit
