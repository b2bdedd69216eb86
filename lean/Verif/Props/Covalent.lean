import Verif.Props.Bonds
import Verif.Props.Dos
import Verif.Spec.Covalent

/-!
# C87: covalent energies
-/

namespace Hotbit

open Matrix

variable {nk n : ℕ}

/-- The covalent energy between two basis functions in state `a` at `k`. -/
noncomputable def BondData.cov (B : BondData nk n) (k : Fin nk) (a : Fin n) : Fin n → Fin n → ℝ :=
  covTerm (B.H0 k) (B.S k) B.eps (B.wf k a)

/-- Hermitian Hamiltonian and overlap. -/
def BondData.HermHS (B : BondData nk n) : Prop := ∀ k, (B.H0 k).IsHermitian ∧ (B.S k).IsHermitian

theorem covPair_re (B : BondData nk n) (k : Fin nk) (a m n' : Fin n) : (B.covPair k a m n').re = B.cov k a m n' := by
  unfold BondData.covPair BondData.cov covTerm BondData.HS
  rw [Matrix.of_apply]
  congr 2
  push_cast
  ring

theorem covPair_conj (B : BondData nk n) (hB : B.HermHS) (k : Fin nk) (a m n' : Fin n) :
    (starRingEnd ℂ) (B.covPair k a m n') = B.covPair k a n' m := by
  have h1 : (starRingEnd ℂ) (B.H0 k n' m) = B.H0 k m n' := (hB k).1.apply m n'
  have h2 : (starRingEnd ℂ) (B.S k n' m) = B.S k m n' := (hB k).2.apply m n'
  unfold BondData.covPair BondData.HS
  simp only [Matrix.of_apply, map_mul, map_sub, h1, h2, Complex.conj_ofReal, Complex.conj_conj, add_comm (B.eps m)]
  ring

theorem cov_symm (B : BondData nk n) (hB : B.HermHS) (k : Fin nk) (a m n' : Fin n) :
    B.cov k a m n' = B.cov k a n' m := by
  rw [← covPair_re, ← covPair_re, ← covPair_conj B hB, Complex.conj_re]

open Classical in
/-- A sum over a symmetric set of pairs is real. -/
theorem covPair_sum (B : BondData nk n) (hB : B.HermHS) (k : Fin nk) (a : Fin n) (p : Fin n → Prop) :
    (∑ m, ∑ n', if p m ∧ p n' then B.covPair k a m n' else 0)
      = ((∑ m, ∑ n', if p m ∧ p n' then B.cov k a m n' else 0 : ℝ) : ℂ) := by
  apply Complex.ext
  · rw [Complex.ofReal_re]
    simp only [Complex.re_sum]
    apply Finset.sum_congr rfl; intro m _
    apply Finset.sum_congr rfl; intro n' _
    split_ifs
    · exact covPair_re B k a m n'
    · rfl
  · rw [Complex.ofReal_im]
    apply Complex.conj_eq_iff_im.1
    simp only [map_sum]
    rw [Finset.sum_comm]
    apply Finset.sum_congr rfl; intro m _
    apply Finset.sum_congr rfl; intro n' _
    rw [apply_ite (starRingEnd ℂ), covPair_conj B hB, map_zero]
    simp only [and_comm]

open Classical in
theorem pairPart_ne {α : Type} (lab : Fin n → α) (i j : α) (hij : i ≠ j) (v : Fin n → Fin n → ℝ)
    (hv : ∀ m n', v m n' = v n' m) :
    pairPart lab i j v = ∑ m, ∑ n', if lab m = i ∧ lab n' = j then 2 * v m n' else 0 := by
  unfold pairPart
  have e : ∀ m n', (if (lab m = i ∧ lab n' = j) ∨ (lab m = j ∧ lab n' = i) then v m n' else 0)
      = (if lab m = i ∧ lab n' = j then v m n' else 0) + (if lab n' = i ∧ lab m = j then v n' m else 0) := by
    intro m n'
    rw [hv n' m]
    by_cases h1 : lab m = i ∧ lab n' = j
    · have h2 : ¬ (lab n' = i ∧ lab m = j) := by rintro ⟨h2, -⟩; exact hij (h2.symm.trans h1.2)
      rw [if_pos (Or.inl h1), if_pos h1, if_neg h2, add_zero]
    · by_cases h2 : lab n' = i ∧ lab m = j
      · rw [if_pos (Or.inr h2.symm), if_neg h1, if_pos h2, zero_add]
      · rw [if_neg (by rintro (h | h); exacts [h1 h, h2 h.symm]), if_neg h1, if_neg h2, add_zero]
  simp only [e, Finset.sum_add_distrib]
  rw [Finset.sum_comm (f := fun m n' => if lab n' = i ∧ lab m = j then v n' m else 0)]
  simp only [← Finset.sum_add_distrib]
  apply Finset.sum_congr rfl; intro m _
  apply Finset.sum_congr rfl; intro n' _
  split_ifs <;> ring

open Classical in
theorem pairPart_eq {α : Type} (lab : Fin n → α) (i : α) (v : Fin n → Fin n → ℝ) :
    pairPart lab i i v = ∑ m, ∑ n', if lab m = i ∧ lab n' = i then v m n' else 0 := by
  unfold pairPart
  simp only [or_self]

theorem pairPart_id_eq (i : Fin n) (v : Fin n → Fin n → ℝ) : pairPart id i i v = v i i := by
  unfold pairPart
  rw [Finset.sum_eq_single i, Finset.sum_eq_single i] <;> simp +contextual

theorem pairPart_id_ne (i j : Fin n) (hij : i ≠ j) (v : Fin n → Fin n → ℝ) (hv : ∀ m n', v m n' = v n' m) :
    pairPart id i j v = 2 * v i j := by
  rw [pairPart_ne _ _ _ hij _ hv]
  rw [Finset.sum_eq_single i, Finset.sum_eq_single j] <;> simp +contextual

theorem ofReal_list_sum : ∀ l : List ℝ, ((l.sum : ℝ) : ℂ) = (l.map fun x : ℝ => (x : ℂ)).sum
  | [] => by simp
  | x :: l => by simp [ofReal_list_sum l]

/-- The pairs `i ≤ j` below `N`. -/
def labelPairs (N : ℕ) : List (ℕ × ℕ) :=
  (List.range N).flatMap fun i => (List.range' i (N - i)).map fun j => (i, j)

theorem mem_labelPairs (N i j : ℕ) : (i, j) ∈ labelPairs N ↔ i ≤ j ∧ j < N := by
  unfold labelPairs
  simp only [List.mem_flatMap, List.mem_range, List.mem_map, List.mem_range'_1, Prod.mk.injEq]
  constructor
  · rintro ⟨a, h1, b, h2, rfl, rfl⟩; omega
  · rintro ⟨h1, h2⟩; exact ⟨i, by omega, j, by omega, rfl, rfl⟩

theorem labelPairs_nodup (N : ℕ) : (labelPairs N).Nodup := by
  unfold labelPairs
  rw [List.nodup_flatMap]
  refine ⟨fun i _ => (List.nodup_range' (step := 1)).map fun a b h => by simpa using h, ?_⟩
  refine List.nodup_range.imp ?_
  intro a b hab
  simp only [Function.onFun, List.disjoint_left, List.mem_map]
  rintro x ⟨j, -, rfl⟩ ⟨j', -, h⟩
  exact hab (by simpa using (congrArg Prod.fst h).symm)

/-- The parts of all pairs of labels add up to the whole. -/
theorem pairPart_total {α : Type} (lab : Fin n → α) (N : ℕ) (ι : ℕ → α) (hι : Function.Injective ι)
    (hl : ∀ m, ∃ i < N, lab m = ι i) (v : Fin n → Fin n → ℝ) :
    ((labelPairs N).map fun p => pairPart lab (ι p.1) (ι p.2) v).sum = ∑ m, ∑ n', v m n' := by
  classical
  choose l hlN hle using hl
  rw [← List.sum_toFinset _ (labelPairs_nodup N)]
  unfold pairPart
  rw [Finset.sum_comm]
  apply Finset.sum_congr rfl; intro m _
  rw [Finset.sum_comm]
  apply Finset.sum_congr rfl; intro n' _
  rw [Finset.sum_eq_single (min (l m) (l n'), max (l m) (l n'))]
  · rw [if_pos]
    rw [hle m, hle n']
    rcases le_total (l m) (l n') with h | h
    · left; simp [h]
    · right; simp [h]
  · rintro ⟨i, j⟩ hp hne
    rw [List.mem_toFinset, mem_labelPairs] at hp
    rw [if_neg]
    rw [hle m, hle n']
    rintro (⟨h1, h2⟩ | ⟨h1, h2⟩)
    · have := hι h1; have := hι h2; subst_vars
      exact hne (by rw [min_eq_left hp.1, max_eq_right hp.1])
    · have := hι h1; have := hι h2; subst_vars
      exact hne (by rw [min_eq_right hp.1, max_eq_left hp.1])
  · intro h
    exfalso; apply h
    rw [List.mem_toFinset, mem_labelPairs]
    have := hlN m; have := hlN n'
    constructor <;> omega

/-- The angular momentum of a basis function, from its record. -/
def OrbTables.angmomAt (t : OrbTables) (m : ℕ) : Except Exn ℕ := (t.basis m).map OrbRec.angmom

/-- C87: for Hermitian Hamiltonian and overlap the covalent energy of a state is real in every mode; it is the
k-point weight times the sum of the covalent terms over all pairs of basis functions, over the pairs of two given
orbitals, over the pairs of basis functions of two given atoms, or over those of two given angular momenta (if there
are orbitals of both). -/
theorem c87_state (elements : String → Option ElementData) (symbols : List String) (t : OrbTables)
    (h : orbInit elements symbols = .ok t) (B : BondData nk t.norb) (hBt : B.t = t) (hB : B.HermHS) (k : Fin nk)
    (a : Fin t.norb) :
    B.covState .total k a = .ok ((B.wk k * ∑ m, ∑ n', B.cov k a m n' : ℝ) : ℂ) ∧
    (∀ i j : Fin t.norb, B.covState (.orbitals i j) k a
      = .ok ((B.wk k * pairPart id i j (B.cov k a) : ℝ) : ℂ)) ∧
    (∀ i < symbols.length, ∀ j < symbols.length, B.covState (.atoms i j) k a
      = .ok ((B.wk k * pairPart (fun m => t.atomOf m) (.ok i) (.ok j) (B.cov k a) : ℝ) : ℂ)) ∧
    (∀ i < 3, ∀ j < 3, (∃ m < t.norb, t.angmomAt m = .ok i) → (∃ m < t.norb, t.angmomAt m = .ok j) →
      B.covState (.angmom i j) k a
        = .ok ((B.wk k * pairPart (fun m => t.angmomAt m) (.ok i) (.ok j) (B.cov k a) : ℝ) : ℂ)) := by
  classical
  have hsym := cov_symm B hB k a
  refine ⟨?_, ?_, ?_, ?_⟩
  · have := covPair_sum B hB k a (fun _ => True)
    simp only [and_self, if_true] at this
    simp only [BondData.covState]
    rw [← Finset.mul_sum, this]
    push_cast
    rfl
  · intro i j
    simp only [BondData.covState, bind, Except.bind, pure, Except.pure]
    rw [atIdx_of_lt _ i.2]
    simp only [Fin.eta]
    rw [atIdx_of_lt _ j.2]
    simp only [Fin.eta]
    by_cases hij : i = j
    · subst hij
      rw [if_neg (by simp), pairPart_id_eq]
      have e : B.covPair k a i i = (B.cov k a i i : ℂ) := by
        rw [← covPair_re]
        exact (Complex.conj_eq_iff_re.1 (covPair_conj B hB k a i i)).symm
      rw [e]
      push_cast
      rfl
    · have hv : (i : ℕ) ≠ j := fun h => hij (Fin.ext h)
      rw [if_pos hv, pairPart_id_ne _ _ hij _ hsym, covPair_re, mul_assoc]
  · intro i hi j hj
    have hb := blocks_length _ _ _ h
    obtain ⟨oi, mi, hbi⟩ := block_of_lt t i (by omega)
    obtain ⟨oj, mj, hbj⟩ := block_of_lt t j (by omega)
    have ci := atomOf_iff _ _ _ h i oi mi hbi
    have cj := atomOf_iff _ _ _ h j oj mj hbj
    simp only [BondData.covState, bind, Except.bind, pure, Except.pure, hBt, blockOf, hbi, hbj]
    by_cases hij : i = j
    · subst hij
      have := hbi.symm.trans hbj
      simp only [Option.some.injEq, Prod.mk.injEq] at this
      obtain ⟨rfl, rfl⟩ := this
      rw [if_neg (by simp), pairPart_eq, orbBlockSum_eq]
      have e := covPair_sum B hB k a (fun m => t.atomOf m = .ok i)
      push_cast at e ⊢
      rw [← e, Finset.mul_sum]
      congr 1
      apply Finset.sum_congr rfl; intro m _
      rw [Finset.mul_sum]
      apply Finset.sum_congr rfl; intro n' _
      simp only [ci m m.2, ci n' n'.2, mul_ite, mul_zero]
    · rw [if_pos hij, pairPart_ne _ _ _ (by simpa using hij) _ hsym, orbBlockSum_eq]
      push_cast
      congr 1
      rw [Finset.mul_sum]
      apply Finset.sum_congr rfl; intro m _
      rw [Finset.mul_sum]
      apply Finset.sum_congr rfl; intro n' _
      simp only [ci m m.2, cj n' n'.2, covPair_re]
      split_ifs
      · push_cast; ring
      · simp
  · intro i hi j hj hei hej
    have hlor : ∀ l (m : Fin t.norb), m ∈ B.lorbs l ↔ t.angmomAt m = .ok l := by
      intro l m
      unfold BondData.lorbs OrbTables.angmomAt OrbTables.basis
      rw [hBt]
      simp only [List.mem_filter, List.mem_finRange, true_and, beq_iff_eq]
      cases t.orb[m.val]? with
      | none => simp [Except.map]
      | some r => simp [Except.map]
    have hsum : ∀ l (F : Fin t.norb → ℂ), ((B.lorbs l).map F).sum = ∑ m : Fin t.norb, if t.angmomAt m = .ok l then F m else 0 := by
      intro l F
      rw [← List.sum_toFinset]
      · rw [← Finset.sum_filter]
        apply Finset.sum_congr _ fun _ _ => rfl
        ext m
        simp [hlor]
      · exact (List.nodup_finRange _).filter _
    have hne : ∀ l, (∃ m < t.norb, t.angmomAt m = .ok l) → B.lorbs l ≠ [] := by
      rintro l ⟨m, hm, hml⟩ h0
      have := (hlor l ⟨m, hm⟩).2 hml
      rw [h0] at this
      simp at this
    have hval : B.covState (.angmom i j) k a = .ok (if i ≠ j then
        ((B.lorbs i).map fun m => (B.wk k : ℂ) * ((B.lorbs j).map fun n' => B.covPair k a m n').sum).sum
        + (starRingEnd ℂ) ((B.lorbs i).map fun m => (B.wk k : ℂ) * ((B.lorbs j).map fun n' => B.covPair k a m n').sum).sum
        else ((B.lorbs i).map fun m => (B.wk k : ℂ) * ((B.lorbs j).map fun n' => B.covPair k a m n').sum).sum) := by
      simp only [BondData.covState]
      rw [if_neg (by omega)]
      have h1 := hne i hei
      have h2 := hne j hej
      cases hli : B.lorbs i with
      | nil => exact absurd hli h1
      | cons x xs =>
        cases hlj : B.lorbs j with
        | nil => exact absurd hlj h2
        | cons y ys => rfl
    have hE : ((B.lorbs i).map fun m => (B.wk k : ℂ) * ((B.lorbs j).map fun n' => B.covPair k a m n').sum).sum
        = (B.wk k : ℂ) * ∑ m : Fin t.norb, ∑ n' : Fin t.norb, if t.angmomAt m = .ok i ∧ t.angmomAt n' = .ok j then B.covPair k a m n' else 0 := by
      rw [hsum, Finset.mul_sum]
      apply Finset.sum_congr rfl; intro m _
      rw [hsum]
      by_cases hm : t.angmomAt m = .ok i <;> simp [hm]
    rw [hval, hE]
    by_cases hij : i = j
    · subst hij
      rw [if_neg (by simp), pairPart_eq]
      have e := covPair_sum B hB k a (fun m => t.angmomAt m = .ok i)
      push_cast at e ⊢
      rw [← e]
      congr!
    · rw [if_pos hij, pairPart_ne _ _ _ (by simpa using hij) _ hsym, Complex.add_conj]
      congr 2
      rw [Complex.re_ofReal_mul]
      simp only [Complex.re_sum, Finset.mul_sum]
      rw [Finset.sum_congr rfl]; intro m _
      rw [Finset.sum_congr rfl]; intro n' _
      split_ifs
      · rw [covPair_re]; ring
      · simp

/-- C87: state by state the energies of all pairs of atoms (`i ≤ j`) add up to the total covalent energy, and so do
those of all pairs of orbitals; those of the pairs of angular momenta too if there are s, p and d orbitals. -/
theorem c87_sum (elements : String → Option ElementData) (symbols : List String) (t : OrbTables)
    (h : orbInit elements symbols = .ok t) (B : BondData nk t.norb) (hBt : B.t = t) (hB : B.HermHS) (k : Fin nk)
    (a : Fin t.norb) :
    ∃ E : ℂ, B.covState .total k a = .ok E ∧
    (∃ es, ((labelPairs symbols.length).mapM fun p => B.covState (.atoms p.1 p.2) k a) = .ok es ∧ es.sum = E) ∧
    (∃ es, ((labelPairs t.norb).mapM fun p => B.covState (.orbitals p.1 p.2) k a) = .ok es ∧ es.sum = E) ∧
    ((∀ l < 3, ∃ m < t.norb, t.angmomAt m = .ok l) → (∀ m < t.norb, ∃ l < 3, t.angmomAt m = .ok l) →
      ∃ es, ((labelPairs 3).mapM fun p => B.covState (.angmom p.1 p.2) k a) = .ok es ∧ es.sum = E) := by
  obtain ⟨h1, h2, h3, h4⟩ := c87_state _ _ _ h B hBt hB k a
  refine ⟨_, h1, ?_, ?_, ?_⟩
  · refine ⟨_, mapM_ok_of_forall _ (fun p => ((B.wk k * pairPart (fun m => t.atomOf m) (.ok p.1) (.ok p.2)
      (B.cov k a) : ℝ) : ℂ)) _ ?_, ?_⟩
    · rintro ⟨i, j⟩ hp
      rw [mem_labelPairs] at hp
      exact h3 i (by omega) j (by omega)
    · rw [← pairPart_total (fun m : Fin t.norb => t.atomOf m) symbols.length Except.ok
        (fun _ _ h => by simpa using h) ?_ (B.cov k a)]
      · rw [← List.sum_map_mul_left, ofReal_list_sum, List.map_map]
        rfl
      · intro m
        obtain ⟨i, o, m', hb, -, -, -, hat, -⟩ := (c23_orbital _ _ _ h m).1 m.2
        refine ⟨i, ?_, hat⟩
        rw [← blocks_length _ _ _ h]
        exact (List.getElem?_eq_some_iff.1 hb).1
  · refine ⟨_, mapM_ok_of_forall _ (fun p => ((B.wk k * pairPart (Fin.val : Fin t.norb → ℕ) p.1 p.2 (B.cov k a) : ℝ) : ℂ)) _ ?_, ?_⟩
    · rintro ⟨i, j⟩ hp
      rw [mem_labelPairs] at hp
      have := h2 ⟨i, by omega⟩ ⟨j, by omega⟩
      simp only at this ⊢
      rw [this]
      unfold pairPart
      simp only [id, Fin.ext_iff]
      congr!
    · rw [← pairPart_total (Fin.val : Fin t.norb → ℕ) t.norb id (fun _ _ h => h) (fun m => ⟨m, m.2, rfl⟩) (B.cov k a)]
      rw [← List.sum_map_mul_left, ofReal_list_sum, List.map_map]
      rfl
  · intro hl hm
    refine ⟨_, mapM_ok_of_forall _ (fun p => ((B.wk k * pairPart (fun m => t.angmomAt m) (.ok p.1) (.ok p.2)
      (B.cov k a) : ℝ) : ℂ)) _ ?_, ?_⟩
    · rintro ⟨i, j⟩ hp
      rw [mem_labelPairs] at hp
      exact h4 i (by omega) j (by omega) (hl i (by omega)) (hl j (by omega))
    · rw [← pairPart_total (fun m : Fin t.norb => t.angmomAt m) 3 Except.ok
        (fun _ _ h => by simpa using h) (fun m => hm m m.2) (B.cov k a)]
      rw [← List.sum_map_mul_left, ofReal_list_sum, List.map_map]
      rfl

/-- C87: what is missing.  In mode `angmom` two different angular momenta give `IndexError` if there are orbitals of
the first but not of the second, and `AttributeError` if there are none of the first; atoms, orbitals and angular momenta
that do not exist give `IndexError`; an unknown mode `NotImplementedError`. -/
theorem c87_errors (elements : String → Option ElementData) (symbols : List String) (t : OrbTables)
    (h : orbInit elements symbols = .ok t) (B : BondData nk t.norb) (hBt : B.t = t) (k : Fin nk) (a : Fin t.norb)
    (i j : ℕ) :
    (i < 3 → j < 3 → (∃ m < t.norb, t.angmomAt m = .ok i) → (∀ m < t.norb, t.angmomAt m ≠ .ok j) →
      B.covState (.angmom i j) k a = .error .indexError) ∧
    (i < 3 → j < 3 → i ≠ j → (∀ m < t.norb, t.angmomAt m ≠ .ok i) →
      B.covState (.angmom i j) k a = .error .attributeError) ∧
    (3 ≤ i ∨ 3 ≤ j → B.covState (.angmom i j) k a = .error .indexError) ∧
    (symbols.length ≤ i ∨ symbols.length ≤ j → B.covState (.atoms i j) k a = .error .indexError) ∧
    (t.norb ≤ i ∨ t.norb ≤ j → B.covState (.orbitals i j) k a = .error .indexError) ∧
    B.covState .other k a = .error .notImplementedError := by
  have hlor : ∀ l (m : Fin t.norb), m ∈ B.lorbs l ↔ t.angmomAt m = .ok l := by
    intro l m
    unfold BondData.lorbs OrbTables.angmomAt OrbTables.basis
    rw [hBt]
    simp only [List.mem_filter, List.mem_finRange, true_and, beq_iff_eq]
    cases t.orb[m.val]? with
    | none => simp [Except.map]
    | some r => simp [Except.map]
  have hnil : ∀ l, (∀ m < t.norb, t.angmomAt m ≠ .ok l) → B.lorbs l = [] := by
    intro l hl
    rw [List.eq_nil_iff_forall_not_mem]
    intro m hm
    exact hl m m.2 ((hlor l m).1 hm)
  have hb := blocks_length _ _ _ h
  refine ⟨?_, ?_, ?_, ?_, ?_, rfl⟩
  · rintro hi hj ⟨m, hm, hml⟩ hn
    simp only [BondData.covState]
    rw [if_neg (by omega), hnil j hn]
    cases hli : B.lorbs i with
    | nil =>
      have := (hlor i ⟨m, hm⟩).2 hml
      rw [hli] at this
      simp at this
    | cons x xs => rfl
  · intro hi hj hij hn
    simp only [BondData.covState]
    rw [if_neg (by omega), hnil i hn]
    simp only
    rw [if_pos hij]
  · intro hij
    simp only [BondData.covState]
    rw [if_pos hij]
  · intro hij
    simp only [BondData.covState, hBt, bind, Except.bind, blockOf]
    by_cases hi : symbols.length ≤ i
    · rw [List.getElem?_eq_none (by omega)]
    · obtain ⟨o, m, hbi⟩ := block_of_lt t i (by omega)
      rw [hbi]
      rw [List.getElem?_eq_none (l := t.blocks) (i := j) (by omega)]
  · intro hij
    simp only [BondData.covState, bind, Except.bind]
    by_cases hi : t.norb ≤ i
    · rw [atIdx, dif_neg (by omega)]
    · rw [atIdx, dif_pos (by omega)]
      simp only
      rw [atIdx, dif_neg (by omega)]

/-- C87: for an eigenstate of the Hamiltonian `H0` normalized with respect to the overlap, the covalent energy is the
eigenvalue minus the orbital energies weighted with the Mulliken populations of the state. -/
theorem c87_eigen (B : BondData nk n) (hB : B.HermHS) (k : Fin nk) (e : Fin n → ℝ)
    (he : Eigen (B.H0 k) (B.S k) (B.wf k) e) (hn : SNormalized (B.wf k) (B.S k)) (a : Fin n) :
    B.covState .total k a
      = .ok ((B.wk k * (e a - ∑ mu, B.eps mu * auxPop (B.wf k) (B.S k) a mu) : ℝ) : ℂ) := by
  have h0 : B.covState .total k a = .ok ((B.wk k * ∑ m, ∑ n', B.cov k a m n' : ℝ) : ℂ) := by
    classical
    have := covPair_sum B hB k a (fun _ => True)
    simp only [and_self, if_true] at this
    simp only [BondData.covState]
    rw [← Finset.mul_sum, this]
    push_cast
    rfl
  rw [h0]
  congr 3
  set c := B.wf k a with hc
  have hH : ∑ m, ∑ n', (c m * (starRingEnd ℂ) (c n') * B.H0 k n' m).re = e a := by
    have h1 : ∑ m, ∑ n', c m * (starRingEnd ℂ) (c n') * B.H0 k n' m = (e a : ℂ) := by
      calc ∑ m, ∑ n', c m * (starRingEnd ℂ) (c n') * B.H0 k n' m
          = ∑ n', (starRingEnd ℂ) (c n') * ∑ m, B.H0 k n' m * c m := by
            rw [Finset.sum_comm]
            apply Finset.sum_congr rfl; intro n' _
            rw [Finset.mul_sum]
            apply Finset.sum_congr rfl; intro m _
            ring
        _ = ∑ n', (starRingEnd ℂ) (c n') * (e a * ∑ m, B.S k n' m * c m) := by
            apply Finset.sum_congr rfl; intro n' _
            rw [he a n']
        _ = e a * ∑ n', ∑ m, (starRingEnd ℂ) (c n') * B.S k n' m * c m := by
            rw [Finset.mul_sum]
            apply Finset.sum_congr rfl; intro n' _
            rw [Finset.mul_sum, Finset.mul_sum, Finset.mul_sum]
            apply Finset.sum_congr rfl; intro m _
            ring
        _ = e a := by rw [hn a, mul_one]
    simp only [← Complex.re_sum]
    rw [h1, Complex.ofReal_re]
  have hs : ∀ m n', (c m * (starRingEnd ℂ) (c n') * B.S k n' m).re = (c n' * (starRingEnd ℂ) (c m) * B.S k m n').re := by
    intro m n'
    have h2 : (starRingEnd ℂ) (B.S k n' m) = B.S k m n' := (hB k).2.apply m n'
    rw [← Complex.conj_re, map_mul, map_mul, h2, Complex.conj_conj, mul_comm ((starRingEnd ℂ) (c m))]
  have hcov : ∀ m n', B.cov k a m n' = (c m * (starRingEnd ℂ) (c n') * B.H0 k n' m).re
      - (B.eps m / 2 * (c m * (starRingEnd ℂ) (c n') * B.S k n' m).re
        + B.eps n' / 2 * (c m * (starRingEnd ℂ) (c n') * B.S k n' m).re) := by
    intro m n'
    unfold BondData.cov covTerm
    rw [mul_sub, Complex.sub_re]
    congr 1
    rw [show c m * (starRingEnd ℂ) (c n') * (((B.eps m + B.eps n') / 2 : ℝ) * B.S k n' m)
      = (((B.eps m + B.eps n') / 2 : ℝ) : ℂ) * (c m * (starRingEnd ℂ) (c n') * B.S k n' m) by ring,
      Complex.re_ofReal_mul]
    ring
  simp only [hcov, Finset.sum_sub_distrib, Finset.sum_add_distrib]
  rw [hH]
  congr 1
  rw [Finset.sum_comm (f := fun m n' => B.eps m / 2 * (c m * (starRingEnd ℂ) (c n') * B.S k n' m).re)]
  have e2 : ∑ n', ∑ m, B.eps m / 2 * (c m * (starRingEnd ℂ) (c n') * B.S k n' m).re
      = ∑ m, ∑ n', B.eps n' / 2 * (c m * (starRingEnd ℂ) (c n') * B.S k n' m).re := by
    apply Finset.sum_congr rfl; intro n' _
    apply Finset.sum_congr rfl; intro m _
    rw [hs m n']
  rw [e2, ← Finset.sum_add_distrib]
  simp only [← Finset.sum_add_distrib]
  rw [Finset.sum_comm]
  apply Finset.sum_congr rfl; intro mu _
  unfold auxPop
  rw [Finset.mul_sum, Complex.re_sum, Finset.mul_sum]
  apply Finset.sum_congr rfl; intro m _
  rw [Matrix.transpose_apply, ← hc]
  rw [show (starRingEnd ℂ) (c mu) * (c m * B.S k mu m) = c m * (starRingEnd ℂ) (c mu) * B.S k mu m by ring]
  ring

/-- C87: the covalent energies of the states, weighted with their occupations, add up to the band structure energy
minus the orbital energies weighted with the Mulliken populations. -/
theorem c87_occupied (B : BondData nk n) (hB : B.Herm) (f : Fin nk → Fin n → ℝ)
    (hrho : ∀ k, B.rho k = computeRho (B.wf k) (f k)) :
    ∃ E : Fin nk → Fin n → ℝ, (∀ k a, B.covState .total k a = .ok (E k a : ℂ)) ∧
      ∑ k, ∑ a, f k a * E k a
        = ∑ k, B.wk k * (B.rho k * B.H0 k).trace.re - ∑ mu, B.diag mu * B.eps mu := by
  have hHS : B.HermHS := fun k => ⟨(hB k).2.1, (hB k).2.2⟩
  refine ⟨fun k a => B.wk k * ∑ m, ∑ n', B.cov k a m n', ?_, ?_⟩
  · intro k a
    classical
    have := covPair_sum B hHS k a (fun _ => True)
    simp only [and_self, if_true] at this
    simp only [BondData.covState]
    rw [← Finset.mul_sum, this]
    push_cast
    rfl
  · rw [← trace_HS B hB]
    apply Finset.sum_congr rfl; intro k _
    have e : ∀ m n', (B.rhoM k m n').re = ∑ a, f k a * B.cov k a m n' := by
      intro m n'
      unfold BondData.rhoM
      rw [hrho k, computeRho_apply, Finset.sum_mul, Complex.re_sum]
      apply Finset.sum_congr rfl; intro a _
      rw [← covPair_re]
      unfold BondData.covPair
      rw [Matrix.transpose_apply, ← Complex.re_ofReal_mul]
      congr 1
      ring
    simp only [Complex.re_sum, e, Finset.mul_sum]
    rw [Finset.sum_comm]
    apply Finset.sum_congr rfl; intro m _
    rw [Finset.sum_comm]
    apply Finset.sum_congr rfl; intro n' _
    apply Finset.sum_congr rfl; intro a _
    ring

theorem gauss_scale (w c z H : ℝ) (hH : 0 < H) (hw : w ≠ 0) :
    peak (w / H) c (z / H) .gaussian = H * gaussAt w (c * H) z := by
  unfold peak gaussAt
  have e1 : -(z / H - c) ^ 2 / (2 * (w / H) ^ 2) = -(z - c * H) ^ 2 / (2 * w ^ 2) := by
    have : z / H - c = (z - c * H) / H := by field_simp
    rw [this]
    field_simp
  rw [e1]
  have : √(2 * Real.pi) ≠ 0 := by
    rw [Real.sqrt_ne_zero']
    have := Real.pi_pos
    linarith
  field_simp

theorem linspace_scale (a b H : ℝ) (hH : H ≠ 0) (N : ℕ) : (linspace (a / H) (b / H) N).map (· * H) = linspace a b N := by
  unfold linspace
  rw [List.map_map]
  apply List.map_congr_left
  intro j _
  simp only [Function.comp]
  split_ifs
  · field_simp
  · field_simp

theorem linspace_unscale (a b H : ℝ) (hH : H ≠ 0) (N : ℕ) : linspace (a / H) (b / H) N = (linspace a b N).map (· / H) := by
  rw [← linspace_scale a b H hH, List.map_map]
  conv_lhs => rw [← List.map_id (linspace (a / H) (b / H) N)]
  apply List.map_congr_left
  intro j _
  simp [hH]

open Classical in
/-- C87: what `get_covalent_energy` returns if the energies of the states are real numbers `g` (Hartree), which they are by
`c87_state`.  Without a width: the energies of the states within the window with respect to the chemical potential and
their covalent energies, in eV.  With a width (eV): at every point `z` of the energy axis in eV the sum over the states in
the window of covalent energy (eV) times normalized Gaussian (1/eV), multiplied once more with `Hartree`. Without a window
it reaches 1e-6 Hartree beyond all energies. -/
theorem c87_values (B : BondData nk n) (hH : 0 < B.hartree) (e g : Fin nk → Fin n → ℝ) (mu : ℝ) (mode : CovMode)
    (hpre : B.covPre mode = .ok ()) (hg : ∀ k a, B.covState mode k a = .ok (g k a : ℂ)) (npts : ℕ) (w : ℝ × ℝ)
    (wd : ℝ) (hwd : wd ≠ 0) :
    B.covalent e mu mode none (some w) npts
      = .ok (((allStates nk n).filter fun s => w.1 ≤ (e s.1 s.2 - mu) * B.hartree ∧ (e s.1 s.2 - mu) * B.hartree ≤ w.2).map
            (fun s => (e s.1 s.2 - mu) * B.hartree),
          ((allStates nk n).filter fun s => w.1 ≤ (e s.1 s.2 - mu) * B.hartree ∧ (e s.1 s.2 - mu) * B.hartree ≤ w.2).map
            (fun s => g s.1 s.2 * B.hartree)) ∧
    B.covalent e mu mode (some wd) (some w) npts
      = .ok (linspace w.1 w.2 npts, (linspace w.1 w.2 npts).map fun z => B.hartree *
          densityAt (fun k a => (e k a - mu) * B.hartree) (fun k a => g k a * B.hartree) (Set.Icc w.1 w.2) wd z) ∧
    (∀ mn mx width, 0 < nk → 0 < n → GridEnds e none mn mx → B.covalent e mu mode width none npts
      = B.covalent e mu mode width (some ((mn - mu - 1e-6) * B.hartree, (mx - mu + 1e-6) * B.hartree)) npts) ∧
    (0 < nk → 0 < n → B.covalent e mu mode none none npts
      = .ok ((allStates nk n).map (fun s => (e s.1 s.2 - mu) * B.hartree),
          (allStates nk n).map (fun s => g s.1 s.2 * B.hartree))) := by
  have hne := hH.ne'
  have hmap : ∀ l : List (Fin nk × Fin n), (l.mapM fun s => B.covState mode s.1 s.2)
      = .ok (l.map fun s => ((g s.1 s.2 : ℝ) : ℂ)) := fun l => mapM_ok_of_forall _ _ _ fun s _ => hg s.1 s.2
  have hno : ∀ l : List (Fin nk × Fin n), ¬ ∃ y ∈ (l.map fun s => ((g s.1 s.2 : ℝ) : ℂ)), ¬ |y.im| < 1e-12 := by
    rintro l ⟨y, hy, h1⟩
    obtain ⟨s, -, rfl⟩ := List.mem_map.1 hy
    apply h1
    rw [Complex.ofReal_im, abs_zero]
    norm_num
  have hfil : ∀ w : ℝ × ℝ, ((allStates nk n).filter fun s => decide (w.1 / B.hartree ≤ e s.1 s.2 - mu
      ∧ e s.1 s.2 - mu ≤ w.2 / B.hartree))
      = (allStates nk n).filter fun s => decide (w.1 ≤ (e s.1 s.2 - mu) * B.hartree ∧ (e s.1 s.2 - mu) * B.hartree ≤ w.2) := by
    intro w
    apply List.filter_congr
    intro s _
    simp only [div_le_iff₀ hH, le_div_iff₀ hH]
  have part1 : ∀ w : ℝ × ℝ, B.covalent e mu mode none (some w) npts
      = .ok (((allStates nk n).filter fun s => w.1 ≤ (e s.1 s.2 - mu) * B.hartree ∧ (e s.1 s.2 - mu) * B.hartree ≤ w.2).map
            (fun s => (e s.1 s.2 - mu) * B.hartree),
          ((allStates nk n).filter fun s => w.1 ≤ (e s.1 s.2 - mu) * B.hartree ∧ (e s.1 s.2 - mu) * B.hartree ≤ w.2).map
            (fun s => g s.1 s.2 * B.hartree)) := by
    intro w
    unfold BondData.covalent
    simp only [bind, Except.bind, hpre, hmap, pure, Except.pure]
    rw [if_neg (hno _), hfil]
    simp only [List.map_map, Function.comp_def, Complex.ofReal_re]
  have part3 : ∀ mn mx width, 0 < nk → 0 < n → GridEnds e none mn mx → B.covalent e mu mode width none npts
      = B.covalent e mu mode width (some ((mn - mu - 1e-6) * B.hartree, (mx - mu + 1e-6) * B.hartree)) npts := by
    intro mn mx width hk hn hg'
    have hmin : ((allStates nk n).map fun s => e s.1 s.2 - mu).min? = some (mn - mu) := by
      rw [List.min?_eq_some_iff]
      obtain ⟨⟨⟨k, a, h1⟩, h2⟩, -⟩ := hg'
      constructor
      · rw [List.mem_map]
        refine ⟨(k, a), ?_, by simp [h1]⟩
        unfold allStates
        simp
      · intro x hx
        obtain ⟨s, -, rfl⟩ := List.mem_map.1 hx
        have := h2 ⟨s.1, s.2, rfl⟩
        linarith
    have hmax : ((allStates nk n).map fun s => e s.1 s.2 - mu).max? = some (mx - mu) := by
      rw [List.max?_eq_some_iff]
      obtain ⟨-, ⟨k, a, h1⟩, h2⟩ := hg'
      constructor
      · rw [List.mem_map]
        refine ⟨(k, a), ?_, by simp [h1]⟩
        unfold allStates
        simp
      · intro x hx
        obtain ⟨s, -, rfl⟩ := List.mem_map.1 hx
        have := h2 ⟨s.1, s.2, rfl⟩
        linarith
    unfold BondData.covalent
    simp only [hmin, hmax, mul_div_cancel_right₀ _ hne]
  refine ⟨part1 w, ?_, part3, ?_⟩
  · unfold BondData.covalent
    simp only [bind, Except.bind, hpre, hmap, pure, Except.pure]
    rw [if_neg (hno _), hfil, broaden_gauss]
    simp only
    rw [linspace_scale _ _ _ hne, linspace_unscale _ _ _ hne, List.map_map, List.map_map]
    congr 2
    apply List.map_congr_left
    intro z _
    simp only [Function.comp]
    rw [mul_comm]
    congr 1
    unfold broadAt
    rw [List.map_map, List.zip_map', List.map_map, filter_map_sum, allStates_sum]
    unfold densityAt
    apply Finset.sum_congr rfl; intro k _
    apply Finset.sum_congr rfl; intro a _
    simp only [Set.mem_Icc, decide_eq_true_eq, Function.comp, Complex.ofReal_re]
    rw [gauss_scale _ _ _ _ hH hwd]
    split_ifs
    · ring
    · rfl
  · intro hk hn
    obtain ⟨mn, mx, hg'⟩ := gridEnds_exists e hk hn none
    rw [part3 mn mx none hk hn hg', part1]
    have : ((allStates nk n).filter fun s => decide ((mn - mu - 1e-6) * B.hartree ≤ (e s.1 s.2 - mu) * B.hartree
        ∧ (e s.1 s.2 - mu) * B.hartree ≤ (mx - mu + 1e-6) * B.hartree)) = allStates nk n := by
      rw [List.filter_eq_self]
      intro s _
      rw [decide_eq_true_eq]
      have h1 := hg'.1.2 ⟨s.1, s.2, rfl⟩
      have h2 := hg'.2.2 ⟨s.1, s.2, rfl⟩
      constructor <;> apply mul_le_mul_of_nonneg_right _ hH.le
      · norm_num; linarith
      · norm_num; linarith
    rw [this]

/-- A hydrogen molecule with overlap 3/5 and its bonding and antibonding states. -/
noncomputable def exMolecule : BondData 1 2 where
  t := { orb := [⟨0, "H", "s", 0, 0, -0.238, 0⟩, ⟨1, "H", "s", 0, 1, -0.238, 0⟩],
         atomorb := [[⟨0, "H", "s", 0, 0, -0.238, 0⟩], [⟨1, "H", "s", 0, 1, -0.238, 0⟩]],
         nrOrbitals := [1, 1], firstOrbitals := [0, 1], orbitalAtoms := [0, 1], norb := 2 }
  wk := fun _ => 1
  rho := fun _ => computeRho !![√(5 / 16 : ℝ), √(5 / 16 : ℝ); √(5 / 4 : ℝ), -√(5 / 4 : ℝ)] ![2, 0]
  S := fun _ => !![1, 3 / 5; 3 / 5, 1]
  H0 := fun _ => !![-1, -2; -2, -1]
  wf := fun _ => !![√(5 / 16 : ℝ), √(5 / 16 : ℝ); √(5 / 4 : ℝ), -√(5 / 4 : ℝ)]
  eps := fun _ => -0.238
  q0 := fun _ => 1
  scc := false
  G := fun _ _ => 0
  dq := fun _ => 0
  phi := fun _ => 0
  rep := fun _ _ => 0
  pp := fun _ _ => 0
  bohr := 1
  hartree := 27

/-- The hypotheses of `c87_state`, `c87_sum`, `c87_eigen` and `c87_occupied` hold for it. -/
example : orbInit exElements ["H", "H"] = .ok exMolecule.t ∧ exMolecule.HermHS ∧ exMolecule.Herm ∧
    Eigen (exMolecule.H0 0) (exMolecule.S 0) (exMolecule.wf 0) ![-15 / 8, 5 / 2] ∧
    SNormalized (exMolecule.wf 0) (exMolecule.S 0) ∧ exMolecule.covPre (.atoms 0 1) = .ok () := by
  have h1 : (√(5 / 16 : ℝ) : ℂ) * √(5 / 16 : ℝ) = 5 / 16 := by
    rw [← Complex.ofReal_mul, Real.mul_self_sqrt (by norm_num)]; push_cast; rfl
  have h2 : (√(5 / 4 : ℝ) : ℂ) * √(5 / 4 : ℝ) = 5 / 4 := by
    rw [← Complex.ofReal_mul, Real.mul_self_sqrt (by norm_num)]; push_cast; rfl
  have hHS : exMolecule.HermHS := by
    intro k
    constructor <;> ext i j <;> fin_cases i <;> fin_cases j <;> simp [exMolecule]
  refine ⟨rfl, hHS, fun k => ⟨?_, hHS k⟩, ?_, ?_, rfl⟩
  · ext i j
    show (starRingEnd ℂ) (exMolecule.rho k j i) = exMolecule.rho k i j
    simp only [exMolecule, computeRho_apply, map_sum, map_mul, Complex.conj_conj, Complex.conj_ofReal]
    apply Finset.sum_congr rfl; intro a _; ring
  · intro a i
    fin_cases a <;> fin_cases i <;> simp [exMolecule, Fin.sum_univ_two] <;> ring
  · intro a
    fin_cases a <;> simp [exMolecule, Fin.sum_univ_two, -Real.sqrt_div, -Real.sqrt_div']
    · linear_combination (16 / 5 : ℂ) * h1
    · linear_combination (4 / 5 : ℂ) * h2

end Hotbit
