import Verif.Model.Analysis
import Verif.Props.Elements
import Verif.Props.Density

/-!
# Lemmas: slices, blocks and atoms
-/

namespace Hotbit

open Matrix

variable {nk n : ℕ}

theorem take_drop_sum {M : Type} [AddCommMonoid M] : ∀ (L : List M) (o m : ℕ),
    ((L.drop o).take m).sum = ∑ i ∈ Finset.range L.length, if o ≤ i ∧ i < o + m then L.getD i 0 else 0
  | [], o, m => by simp
  | a :: L, 0, 0 => by simp
  | a :: L, 0, m + 1 => by
    have ih := take_drop_sum L 0 m
    simp only [List.drop_zero, List.take_succ_cons, List.sum_cons, List.length_cons, Finset.sum_range_succ'] at ih ⊢
    rw [ih]
    simp [add_comm]
  | a :: L, o + 1, m => by
    have ih := take_drop_sum L o m
    simp only [List.drop_succ_cons, List.length_cons, Finset.sum_range_succ']
    rw [ih]
    simp only [List.getD_cons_succ, List.getD_cons_zero]
    rw [if_neg (by omega), add_zero]
    apply Finset.sum_congr rfl
    intro i _
    have : (o + 1 ≤ i + 1 ∧ i + 1 < o + 1 + m) ↔ (o ≤ i ∧ i < o + m) := by omega
    simp only [this]

/-- A slice sum is the sum of the elements whose index is in the slice. -/
theorem sliceSum_eq {M : Type} [AddCommMonoid M] (v : Fin n → M) (b : ℕ × ℕ) :
    sliceSum v b = ∑ i : Fin n, if b.1 ≤ i.val ∧ i.val < b.1 + b.2 then v i else 0 := by
  unfold sliceSum
  rw [take_drop_sum, List.length_ofFn, Finset.sum_range]
  apply Finset.sum_congr rfl
  intro i _
  simp [List.getD_eq_getElem?_getD]

theorem sliceSum_add {M : Type} [AddCommMonoid M] (v w : Fin n → M) (b : ℕ × ℕ) :
    sliceSum (fun i => v i + w i) b = sliceSum v b + sliceSum w b := by
  simp only [sliceSum_eq, ← Finset.sum_add_distrib]
  apply Finset.sum_congr rfl
  intro i _
  split_ifs <;> simp

theorem sliceSum_zero {M : Type} [AddCommMonoid M] (b : ℕ × ℕ) : sliceSum (fun _ : Fin n => (0 : M)) b = 0 := by
  simp [sliceSum_eq]

theorem sliceSum_list {M ι : Type} [AddCommMonoid M] (L : List ι) (g : ι → Fin n → M) (b : ℕ × ℕ) :
    (L.map fun c => sliceSum (g c) b).sum = sliceSum (fun i => (L.map fun c => g c i).sum) b := by
  induction L with
  | nil => simp [sliceSum_zero]
  | cons c L ih => simp only [List.map_cons, List.sum_cons, ih, ← sliceSum_add]

theorem sliceSum_finset {M ι : Type} [AddCommMonoid M] (s : Finset ι) (g : ι → Fin n → M) (b : ℕ × ℕ) :
    ∑ c ∈ s, sliceSum (g c) b = sliceSum (fun i => ∑ c ∈ s, g c i) b := by
  simp only [sliceSum_eq]
  rw [Finset.sum_comm]
  apply Finset.sum_congr rfl
  intro i _
  split_ifs <;> simp

theorem sliceSum_mul {R : Type} [NonUnitalNonAssocSemiring R] (c : R) (v : Fin n → R) (b : ℕ × ℕ) :
    sliceSum (fun i => c * v i) b = c * sliceSum v b := by
  simp only [sliceSum_eq, Finset.mul_sum]
  apply Finset.sum_congr rfl
  intro i _
  split_ifs <;> simp

theorem sliceSum_map {M N : Type} [AddCommMonoid M] [AddCommMonoid N] (φ : M →+ N) (v : Fin n → M) (b : ℕ × ℕ) :
    sliceSum (fun i => φ (v i)) b = φ (sliceSum v b) := by
  simp only [sliceSum_eq, map_sum]
  apply Finset.sum_congr rfl
  intro i _
  split_ifs <;> simp

theorem atIdx_of_lt {M : Type} (v : Fin n → M) {i : ℕ} (h : i < n) : atIdx v i = .ok (v ⟨i, h⟩) := by
  simp [atIdx, h]

/-- Fancy indexing with consecutive indices picks a slice. -/
theorem mapM_atIdx {M : Type} (v : Fin n → M) (o m : ℕ) (h : o + m ≤ n) :
    (List.range' o m).mapM (atIdx v) = .ok (((List.ofFn v).drop o).take m) := by
  have e : ((List.ofFn v).drop o).take m
      = (List.range' o m).pmap (fun i (hi : i < n) => v ⟨i, hi⟩) (by
        intro i hi; rw [List.mem_range'_1] at hi; omega) := by
    apply List.ext_getElem
    · simp; omega
    · intro i h1 h2
      simp
  rw [e]
  clear e
  have : ∀ (l : List ℕ) (hl : ∀ i ∈ l, i < n),
      l.mapM (atIdx v) = .ok (l.pmap (fun i (hi : i < n) => v ⟨i, hi⟩) hl) := by
    intro l hl
    induction l with
    | nil => rfl
    | cons i l ih =>
      rw [List.mapM_cons, atIdx_of_lt v (hl i (by simp)), ih fun j hj => hl j (by simp [hj])]
      rfl
  exact this _ _

/-- Every block lies inside the basis. -/
theorem block_le (elements : String → Option ElementData) (symbols : List String) (t : OrbTables)
    (h : orbInit elements symbols = .ok t) (a o m : ℕ) (hab : t.blocks[a]? = some (o, m)) : o + m ≤ t.norb := by
  obtain ⟨hb1, hb2, hb3, hb4, -⟩ := c23_blocks _ _ _ h
  have hall : ∀ d a o m, t.blocks.length = a + 1 + d → t.blocks[a]? = some (o, m) → o + m ≤ t.norb := by
    intro d
    induction d with
    | zero =>
      intro a o m hl ha
      refine (hb4 o m ?_).ge
      rw [List.getLast?_eq_getElem?, hl]
      simpa using ha
    | succ d ih =>
      intro a o m hl ha
      obtain ⟨⟨o', m'⟩, hx⟩ : ∃ x, t.blocks[a + 1]? = some x := ⟨_, List.getElem?_eq_getElem (by omega)⟩
      have h1 := ih (a + 1) o' m' (by omega) hx
      have h2 := hb3 a o m o' m' ha hx
      omega
  have hlt := (List.getElem?_eq_some_iff.1 hab).1
  exact hall (t.blocks.length - (a + 1)) a o m (by omega) hab

theorem block_of_lt (t : OrbTables) (I : ℕ) (h : I < t.blocks.length) : ∃ o m, t.blocks[I]? = some (o, m) :=
  ⟨_, _, List.getElem?_eq_getElem h⟩

/-- The sum over the atoms of slice sums. -/
theorem range_blocks_sum {M : Type} [AddCommMonoid M] (t : OrbTables) (F : ℕ × ℕ → M) :
    ((List.range t.blocks.length).map fun I => F (t.blocks.getD I (0, 0))).sum = (t.blocks.map F).sum := by
  congr 1
  apply List.ext_getElem
  · simp
  · intro i h1 h2
    simp at h1
    simp [h1]

/-- Picking from a vector on an atom's orbitals and summing gives the sum over the atom's block. -/
theorem pick_block {M : Type} (elements : String → Option ElementData) (symbols : List String)
    (t : OrbTables) (h : orbInit elements symbols = .ok t) (v : Fin t.norb → M) (I o m : ℕ)
    (hab : t.blocks[I]? = some (o, m)) :
    t.indicesOf I = .ok (List.range' o m) ∧
      (List.range' o m).mapM (atIdx v) = .ok (((List.ofFn v).drop o).take m) :=
  ⟨(c23_indices _ _ _ h I o m hab).1, mapM_atIdx v o m (block_le _ _ _ h I o m hab)⟩

theorem atomMulliken_eq (elements : String → Option ElementData) (symbols : List String)
    (t : OrbTables) (h : orbInit elements symbols = .ok t) (v : Fin t.norb → ℝ) (I : ℕ)
    (hI : I < t.blocks.length) :
    atomMulliken t v I = .ok (sliceSum v (t.blocks.getD I (0, 0))) := by
  obtain ⟨o, m, hab⟩ := block_of_lt t I hI
  obtain ⟨h1, h2⟩ := pick_block _ _ _ h v I o m hab
  unfold atomMulliken
  rw [h1]
  simp only [bind, Except.bind]
  rw [h2]
  simp only [pure, Except.pure, List.getD_eq_getElem?_getD, hab, Option.getD_some, sliceSum]

theorem atomWf_eq (elements : String → Option ElementData) (symbols : List String)
    (t : OrbTables) (h : orbInit elements symbols = .ok t) (wk : Fin nk → ℝ)
    (aux : Fin nk → Fin t.norb → Fin t.norb → ℝ) (I : ℕ) (k : Fin nk) (a : Fin t.norb) (u : Bool)
    (hI : I < t.blocks.length) :
    atomWf t wk aux I k a u = .ok (wFactor wk k u * sliceSum (aux k a) (t.blocks.getD I (0, 0))) := by
  obtain ⟨o, m, hab⟩ := block_of_lt t I hI
  obtain ⟨h1, h2⟩ := pick_block _ _ _ h (aux k a) I o m hab
  unfold atomWf
  rw [h1]
  simp only [bind, Except.bind]
  rw [h2]
  simp only [pure, Except.pure, List.getD_eq_getElem?_getD, hab, Option.getD_some, sliceSum]

theorem mapM_smul (wk : Fin nk → ℝ) (aux : Fin nk → Fin n → Fin n → ℝ) (k : Fin nk) (a : Fin n) (u : Bool) :
    ∀ (l : List ℕ) (r : List ℝ), l.mapM (atIdx (aux k a)) = .ok r →
      (l.mapM fun mu => basisWf wk aux mu k a u) = .ok (r.map (wFactor wk k u * ·)) := by
  intro l
  induction l with
  | nil => intro r hr; cases hr; rfl
  | cons i l ih =>
    intro r hr
    rw [List.mapM_cons] at hr ⊢
    unfold basisWf
    simp only [bind, Except.bind, pure, Except.pure] at hr ⊢
    split at hr
    · simp at hr
    · rename_i x hx
      split at hr
      · simp at hr
      · rename_i r' hr'
        have := ih r' hr'
        unfold basisWf at this
        simp only [bind, Except.bind, pure, Except.pure] at this
        rw [this]
        simp only [Except.ok.injEq] at hr ⊢
        rw [← hr]
        rfl

theorem atomWfOrbitals_eq (elements : String → Option ElementData) (symbols : List String)
    (t : OrbTables) (h : orbInit elements symbols = .ok t) (wk : Fin nk → ℝ)
    (aux : Fin nk → Fin t.norb → Fin t.norb → ℝ) (I : ℕ) (k : Fin nk) (a : Fin t.norb) (u : Bool)
    (o m : ℕ) (hab : t.blocks[I]? = some (o, m)) :
    atomWfOrbitals t wk aux I k a u
      = .ok ((((List.ofFn (aux k a)).drop o).take m).map (wFactor wk k u * ·)) := by
  obtain ⟨h1, h2⟩ := pick_block _ _ _ h (aux k a) I o m hab
  unfold atomWfOrbitals
  rw [h1]
  exact mapM_smul wk aux k a u _ _ h2

/-- The three angular-momentum sums of a nonempty list add up to the sum of the list. -/
theorem angmomPop_sum (l : List ℝ) (h : l ≠ []) :
    ∃ p, angmomPop l = .ok p ∧ p.length = 3 ∧ p.sum = l.sum := by
  cases l with
  | nil => exact absurd rfl h
  | cons s rest =>
    refine ⟨_, rfl, rfl, ?_⟩
    have e := List.sum_take_add_sum_drop rest 3
    simp only [List.sum_cons, List.sum_nil, List.length_cons, add_zero]
    rw [← e]
    split_ifs with h1 h2 h2
    · ring
    · have : rest.drop 3 = [] := List.drop_eq_nil_of_le (by omega)
      simp [this]
    · omega
    · have : rest = [] := List.length_eq_zero_iff.1 (by omega)
      simp [this]

end Hotbit
