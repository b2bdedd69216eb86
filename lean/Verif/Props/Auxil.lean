import Verif.Model.Auxil
import Verif.Model.KPoints
import Mathlib.Tactic.Linarith

/-!
# C36, C37, C38, C70
-/

namespace Hotbit

open Matrix

set_option linter.unusedSimpArgs false

/-! ## C36: keys of element pairs -/

/-- An element symbol: an upper-case letter, possibly followed by one lower-case letter. -/
def IsSymbol (s : List Char) : Prop :=
  ∃ u : Char, u.isUpper ∧ (s = [u] ∨ ∃ l : Char, l.isLower ∧ s = [u, l])

private theorem upper_not_lower {u : Char} (h : u.isUpper) : u.isLower = false := by
  unfold Char.isUpper at h
  unfold Char.isLower
  simp only [Bool.and_eq_true, decide_eq_true_eq] at h
  simp only [Bool.and_eq_false_iff, decide_eq_false_iff_not]
  left
  have h2 := h.2
  intro hc
  have h3 : (90 : UInt32).toNat < (97 : UInt32).toNat := by decide
  have h4 := UInt32.le_iff_toNat_le.1 hc
  have h5 := UInt32.le_iff_toNat_le.1 h2
  simp at h3 h4 h5
  omega

/-- C36: the key `A+B` is split into `A` and `B`, for all element symbols. -/
theorem c36_splits (A B : List Char) (hA : IsSymbol A) (hB : IsSymbol B) :
    separateSymbols (A ++ B) = .ok (A, B) := by
  obtain ⟨u, -, rfl | ⟨l, hl, rfl⟩⟩ := hA
  · obtain ⟨v, hv, rfl | ⟨m, -, rfl⟩⟩ := hB <;>
      simp [separateSymbols, upper_not_lower hv]
  · simp [separateSymbols, hl]

/-- A key of fewer than two letters raises `IndexError`. -/
theorem c36_short (s : List Char) (h : s.length < 2) : separateSymbols s = .error .indexError := by
  rw [separateSymbols, List.getElem?_eq_none (by omega)]

example : IsSymbol "Au".toList ∧ IsSymbol "C".toList :=
  ⟨⟨'A', by decide, .inr ⟨'u', by decide, by decide⟩⟩, ⟨'C', by decide, .inl (by decide)⟩⟩

/-! ## C37: Hermitization and matrix tests -/

private theorem makeHermitian_apply {n : ℕ} (H : Matrix (Fin n) (Fin n) ℂ) (i j : Fin n) :
    makeHermitian H i j = if i = j then star (H i i) else H i j + star (H j i) := by
  unfold makeHermitian
  by_cases h : i = j
  · subst h
    simp [Matrix.sub_apply, Matrix.add_apply, Matrix.conjTranspose_apply]
  · simp [Matrix.sub_apply, Matrix.add_apply, Matrix.conjTranspose_apply, h]

private theorem star_self_iff (z : ℂ) : star z = z ↔ z.im = 0 := by
  rw [Complex.ext_iff]
  simp
  constructor <;> intro h <;> linarith

/-- C37: the result is Hermitian exactly when the diagonal of the input is real. -/
theorem c37_hermitian_iff {n : ℕ} (H : Matrix (Fin n) (Fin n) ℂ) :
    (makeHermitian H)ᴴ = makeHermitian H ↔ ∀ i, (H i i).im = 0 := by
  constructor
  · intro h i
    have := congrFun (congrFun h i) i
    rw [Matrix.conjTranspose_apply, makeHermitian_apply, if_pos rfl, star_star] at this
    exact (star_self_iff _).1 this.symm
  · intro h
    ext i j
    rw [Matrix.conjTranspose_apply, makeHermitian_apply, makeHermitian_apply]
    by_cases hij : i = j
    · subst hij
      rw [if_pos rfl, star_star, (star_self_iff _).2 (h i)]
    · rw [if_neg hij, if_neg (Ne.symm hij), star_add, star_star, add_comm]

/-- C37: given the upper triangle with a real diagonal, the result keeps both. -/
theorem c37_upper {n : ℕ} (H : Matrix (Fin n) (Fin n) ℂ) (hlow : ∀ i j, j < i → H i j = 0)
    (hd : ∀ i, (H i i).im = 0) (i j : Fin n) :
    (i ≤ j → makeHermitian H i j = H i j) ∧ (j < i → makeHermitian H i j = star (H j i)) := by
  rw [makeHermitian_apply]
  constructor
  · intro hij
    rcases hij.eq_or_lt with h | h
    · subst h; rw [if_pos rfl, (star_self_iff _).2 (hd i)]
    · rw [if_neg h.ne, hlow j i h, star_zero, add_zero]
  · intro h
    rw [if_neg h.ne', hlow i j h, zero_add]

/-- C37: a diagonal that is not real makes the result non-Hermitian. -/
theorem c37_diagonal_fails : ∃ H : Matrix (Fin 1) (Fin 1) ℂ, (makeHermitian H)ᴴ ≠ makeHermitian H := by
  refine ⟨fun _ _ => Complex.I, fun h => ?_⟩
  have := (c37_hermitian_iff _).1 h 0
  simp at this

/-- C37: derivatives become anti-Hermitian, for every input, and keep a strict upper triangle. -/
theorem c37_antihermitian {n : ℕ} (dH : Fin 3 → Matrix (Fin n) (Fin n) ℂ) (a : Fin 3) :
    (makeDerivativeAntihermitian dH a)ᴴ = -makeDerivativeAntihermitian dH a ∧
      ∀ i j, (dH a j i = 0 → makeDerivativeAntihermitian dH a i j = dH a i j) := by
  constructor
  · unfold makeDerivativeAntihermitian
    rw [Matrix.conjTranspose_sub, Matrix.conjTranspose_conjTranspose, neg_sub]
  · intro i j h
    unfold makeDerivativeAntihermitian
    rw [Matrix.sub_apply, Matrix.conjTranspose_apply, h, star_zero, sub_zero]

private theorem zipWith_flatMap {α β γ δ : Type} (f : β → γ → δ) (ls : List α) (g : α → List β)
    (h : α → List γ) (hl : ∀ a, (g a).length = (h a).length) :
    List.zipWith f (ls.flatMap g) (ls.flatMap h) = ls.flatMap fun a => List.zipWith f (g a) (h a) := by
  induction ls with
  | nil => rfl
  | cons x xs ih =>
    rw [List.flatMap_cons, List.flatMap_cons, List.flatMap_cons, List.zipWith_append (hl x), ih]

/-- Two arrays of the same shape. -/
theorem sameMatrix_iff {m n : ℕ} (A B : Matrix (Fin m) (Fin n) ℂ) (tol : ℝ) :
    sameMatrix A B tol = true ↔ ∀ i j, ‖A i j - B i j‖ < tol := by
  unfold sameMatrix flattenM
  rw [zipWith_flatMap _ _ _ _ (by simp)]
  rw [List.all_eq_true]
  constructor
  · intro h i j
    have := h (decide (‖A i j - B i j‖ < tol)) (by
      rw [List.mem_flatMap]
      refine ⟨i, List.mem_finRange i, ?_⟩
      rw [List.zipWith_map, List.zipWith_self]
      exact List.mem_map.2 ⟨j, List.mem_finRange j, rfl⟩)
    simpa using this
  · intro h x hx
    rw [List.mem_flatMap] at hx
    obtain ⟨i, -, hx⟩ := hx
    rw [List.zipWith_map, List.zipWith_self] at hx
    obtain ⟨j, -, rfl⟩ := List.mem_map.1 hx
    simpa using h i j

/-- C37: for square matrices the tests mean what they say, element by element and up to the tolerance. -/
theorem c37_tests {n : ℕ} (A : Matrix (Fin n) (Fin n) ℂ) (tol : ℝ) :
    (matrixHasProperty A "hermitian" tol = .ok true ↔ ∀ i j, ‖A i j - star (A j i)‖ < tol) ∧
    (matrixHasProperty A "symmetric" tol = .ok true ↔ ∀ i j, ‖A i j - A j i‖ < tol) ∧
    (matrixHasProperty A "unitary" tol = .ok true ↔
      ∀ i j, ‖(A * Aᴴ) i j - (1 : Matrix (Fin n) (Fin n) ℂ) i j‖ < tol) ∧
    (matrixHasProperty A "orthogonal" tol = .ok true ↔
      ∀ i j, ‖(A * Aᵀ) i j - (1 : Matrix (Fin n) (Fin n) ℂ) i j‖ < tol) ∧
    matrixHasProperty A "square" tol = .ok true := by
  refine ⟨?_, ?_, ?_, ?_, ?_⟩
  · simp [matrixHasProperty, sameMatrix_iff, Matrix.conjTranspose_apply]
  · simp [matrixHasProperty, sameMatrix_iff, Matrix.transpose_apply]
  · simp [matrixHasProperty, sameMatrix_iff]
  · simp [matrixHasProperty, sameMatrix_iff]
  · simp [matrixHasProperty]

/-- C37: in particular an exactly Hermitian matrix passes for every positive tolerance. -/
theorem c37_hermitian_passes {n : ℕ} (A : Matrix (Fin n) (Fin n) ℂ) (hA : Aᴴ = A) (tol : ℝ)
    (ht : 0 < tol) : matrixHasProperty A "hermitian" tol = .ok true := by
  rw [(c37_tests A tol).1]
  intro i j
  have := congrFun (congrFun hA i) j
  rw [Matrix.conjTranspose_apply] at this
  rw [this, sub_self, norm_zero]
  exact ht

/-- C37: a row vector counts as symmetric, whatever its elements. -/
theorem c37_rectangular_fails {n : ℕ} (A : Matrix (Fin 1) (Fin n) ℂ) (tol : ℝ) (ht : 0 < tol) :
    matrixHasProperty A "symmetric" tol = .ok true := by
  have h : flattenM Aᵀ = flattenM A := by
    unfold flattenM
    simp [List.finRange_succ, Matrix.transpose_apply, List.flatMap_singleton', List.flatMap_def]
    induction (List.finRange n) with
    | nil => rfl
    | cons x xs ih => simpa using ih
  have h2 : sameMatrix A Aᵀ tol = true := by
    unfold sameMatrix
    rw [h, List.zipWith_self, List.all_eq_true]
    intro x hx
    obtain ⟨y, -, rfl⟩ := List.mem_map.1 hx
    simpa using ht
  simp [matrixHasProperty, h2]

/-- C37: unknown names raise. -/
theorem c37_unknown {m n : ℕ} (A : Matrix (Fin m) (Fin n) ℂ) (p : String) (tol : ℝ)
    (h : p ∉ ["square", "hermitian", "symmetric", "orthogonal", "unitary"]) :
    matrixHasProperty A p tol = .error .notImplementedError := by
  simp only [List.mem_cons, not_or, List.mem_nil_iff, or_false] at h
  obtain ⟨h1, h2, h3, h4, h5⟩ := h
  simp [matrixHasProperty, h1, h2, h3, h4, h5]

/-! ## C38: gap and frontier states -/

/-- `e` is the highest level at or below zero of the list. -/
def IsHighestOccupied (levels : List (ℝ × ℝ)) (p : ℝ × ℝ) : Prop :=
  p ∈ levels ∧ p.1 ≤ 0 ∧ ∀ q ∈ levels, q.1 ≤ 0 → q.1 ≤ p.1

/-- `e` is the lowest level above zero of the list. -/
def IsLowestUnoccupied (levels : List (ℝ × ℝ)) (p : ℝ × ℝ) : Prop :=
  p ∈ levels ∧ 0 < p.1 ∧ ∀ q ∈ levels, 0 < q.1 → p.1 ≤ q.1

/-- What the loop has found after the levels `done`. -/
private structure GapInv (done : List (ℝ × ℝ)) (s : GapState) : Prop where
  lo : (s.flo = none ∧ s.elo = -1e10 ∧ ∀ q ∈ done, q.1 ≤ 0 → q.1 ≤ -1e10) ∨
    ∃ p, s.flo = some p.2 ∧ s.elo = p.1 ∧ -1e10 < p.1 ∧ IsHighestOccupied done p
  hi : (s.fhi = none ∧ s.ehi = 1e10 ∧ ∀ q ∈ done, 0 < q.1 → 1e10 ≤ q.1) ∨
    ∃ p, s.fhi = some p.2 ∧ s.ehi = p.1 ∧ p.1 < 1e10 ∧ IsLowestUnoccupied done p

private theorem gapStep_inv (done : List (ℝ × ℝ)) (s : GapState) (p : ℝ × ℝ) (h : GapInv done s) :
    GapInv (done ++ [p]) (gapStep s p) := by
  have keepHi : 0 < p.1 → s.ehi ≤ p.1 ∨ p.1 < s.ehi := fun _ => le_or_gt _ _
  unfold gapStep
  by_cases c1 : s.elo < p.1 ∧ p.1 ≤ 0
  · rw [if_pos c1]
    constructor
    · right
      refine ⟨p, rfl, rfl, ?_, ⟨by simp, c1.2, ?_⟩⟩
      · rcases h.lo with ⟨-, h2, -⟩ | ⟨q, -, h2, h3, -⟩
        · exact h2 ▸ c1.1
        · exact h3.trans (h2 ▸ c1.1)
      · intro q hq hq0
        rcases List.mem_append.1 hq with hq | hq
        · rcases h.lo with ⟨-, h2, h3⟩ | ⟨r, -, h2, -, h4⟩
          · exact ((h3 q hq hq0).trans h2.ge).trans c1.1.le
          · exact (h4.2.2 q hq hq0).trans (h2 ▸ c1.1.le)
        · rw [List.mem_singleton.1 hq]
    · rcases h.hi with ⟨h1, h2, h3⟩ | ⟨r, h1, h2, h3, h4⟩
      · left
        refine ⟨h1, h2, ?_⟩
        intro q hq hq0
        rcases List.mem_append.1 hq with hq | hq
        · exact h3 q hq hq0
        · rw [List.mem_singleton.1 hq] at hq0; linarith [c1.2]
      · right
        refine ⟨r, h1, h2, h3, ⟨List.mem_append_left _ h4.1, h4.2.1, ?_⟩⟩
        intro q hq hq0
        rcases List.mem_append.1 hq with hq | hq
        · exact h4.2.2 q hq hq0
        · rw [List.mem_singleton.1 hq] at hq0; linarith [c1.2]
  · rw [if_neg c1]
    have lo' : (s.flo = none ∧ s.elo = -1e10 ∧ ∀ q ∈ done ++ [p], q.1 ≤ 0 → q.1 ≤ -1e10) ∨
        ∃ r, s.flo = some r.2 ∧ s.elo = r.1 ∧ -1e10 < r.1 ∧ IsHighestOccupied (done ++ [p]) r := by
      rcases h.lo with ⟨h1, h2, h3⟩ | ⟨r, h1, h2, h3, h4⟩
      · left
        refine ⟨h1, h2, ?_⟩
        intro q hq hq0
        rcases List.mem_append.1 hq with hq | hq
        · exact h3 q hq hq0
        · rw [List.mem_singleton.1 hq] at hq0 ⊢
          rw [h2] at c1
          by_contra hc
          exact c1 ⟨not_le.1 hc, hq0⟩
      · right
        refine ⟨r, h1, h2, h3, ⟨List.mem_append_left _ h4.1, h4.2.1, ?_⟩⟩
        intro q hq hq0
        rcases List.mem_append.1 hq with hq | hq
        · exact h4.2.2 q hq hq0
        · rw [List.mem_singleton.1 hq] at hq0 ⊢
          rw [h2] at c1
          by_contra hc
          exact c1 ⟨not_le.1 hc, hq0⟩
    by_cases c2 : 0 < p.1 ∧ p.1 < s.ehi
    · rw [if_pos c2]
      refine ⟨lo', ?_⟩
      right
      refine ⟨p, rfl, rfl, ?_, ⟨by simp, c2.1, ?_⟩⟩
      · rcases h.hi with ⟨-, h2, -⟩ | ⟨q, -, h2, h3, -⟩
        · exact h2 ▸ c2.2
        · exact lt_trans (h2 ▸ c2.2) h3
      · intro q hq hq0
        rcases List.mem_append.1 hq with hq | hq
        · rcases h.hi with ⟨-, h2, h3⟩ | ⟨r, -, h2, -, h4⟩
          · exact c2.2.le.trans (h2.le.trans (h3 q hq hq0))
          · exact (h2 ▸ c2.2.le).trans (h4.2.2 q hq hq0)
        · rw [List.mem_singleton.1 hq]
    · rw [if_neg c2]
      refine ⟨lo', ?_⟩
      rcases h.hi with ⟨h1, h2, h3⟩ | ⟨r, h1, h2, h3, h4⟩
      · left
        refine ⟨h1, h2, ?_⟩
        intro q hq hq0
        rcases List.mem_append.1 hq with hq | hq
        · exact h3 q hq hq0
        · rw [List.mem_singleton.1 hq] at hq0 ⊢
          rw [h2] at c2
          by_contra hc
          exact c2 ⟨hq0, not_le.1 hc⟩
      · right
        refine ⟨r, h1, h2, h3, ⟨List.mem_append_left _ h4.1, h4.2.1, ?_⟩⟩
        intro q hq hq0
        rcases List.mem_append.1 hq with hq | hq
        · exact h4.2.2 q hq hq0
        · rw [List.mem_singleton.1 hq] at hq0 ⊢
          rw [h2] at c2
          by_contra hc
          exact c2 ⟨hq0, not_le.1 hc⟩

private theorem gap_inv (levels : List (ℝ × ℝ)) : ∀ (done : List (ℝ × ℝ)) (s : GapState),
    GapInv done s → GapInv (done ++ levels) (levels.foldl gapStep s) := by
  induction levels with
  | nil => intro done s h; simpa using h
  | cons p ps ih =>
    intro done s h
    rw [List.foldl_cons]
    have := ih (done ++ [p]) _ (gapStep_inv done s p h)
    simpa using this

private theorem gap_final (levels : List (ℝ × ℝ)) :
    GapInv levels (levels.foldl gapStep ⟨-1e10, 1e10, none, none⟩) := by
  have := gap_inv levels [] ⟨-1e10, 1e10, none, none⟩
    ⟨.inl ⟨rfl, rfl, by simp⟩, .inl ⟨rfl, rfl, by simp⟩⟩
  simpa using this

/-- C38: a returned gap is the positive distance between the highest level at or below the Fermi level and
the lowest level above it, and the probability is half the difference of their occupations. -/
theorem c38_gap (levels : List (ℝ × ℝ)) (g pr : ℝ) (h : energyGap levels = .ok (g, pr)) :
    ∃ lo hi, IsHighestOccupied levels lo ∧ IsLowestUnoccupied levels hi ∧ g = hi.1 - lo.1 ∧
      pr = (lo.2 - hi.2) / 2 ∧ 0 < g := by
  have inv := gap_final levels
  unfold energyGap at h
  generalize levels.foldl gapStep ⟨-1e10, 1e10, none, none⟩ = s at *
  rcases inv.lo with ⟨h1, -, -⟩ | ⟨lo, l1, l2, -, l4⟩
  · simp [h1] at h
  rcases inv.hi with ⟨h1, -, -⟩ | ⟨hi, h1, h2, -, h4⟩
  · simp [h1, l1] at h
  simp only [l1, h1, Except.ok.injEq, Prod.mk.injEq] at h
  refine ⟨lo, hi, l4, h4, ?_, h.2.symm, ?_⟩
  · rw [← h.1, h2, l2]
  · rw [← h.1, h2, l2]; linarith [l4.2.1, h4.2.1]

/-- C38: a gap is returned if there are levels on both sides (less than 1e10 away), otherwise
`UnboundLocalError` is raised. -/
theorem c38_returns (levels : List (ℝ × ℝ)) :
    ((∃ p ∈ levels, -1e10 < p.1 ∧ p.1 ≤ 0) → (∃ p ∈ levels, 0 < p.1 ∧ p.1 < 1e10) →
      ∃ r, energyGap levels = .ok r) ∧
    ((∀ p ∈ levels, 0 < p.1) ∨ (∀ p ∈ levels, p.1 ≤ 0) →
      energyGap levels = .error .unboundLocalError) := by
  have inv := gap_final levels
  unfold energyGap
  generalize levels.foldl gapStep ⟨-1e10, 1e10, none, none⟩ = s at *
  constructor
  · rintro ⟨p, hp, hp1, hp2⟩ ⟨q, hq, hq1, hq2⟩
    rcases inv.lo with ⟨-, -, h3⟩ | ⟨lo, l1, -, -, -⟩
    · exact absurd (h3 p hp hp2) (not_le.2 hp1)
    rcases inv.hi with ⟨-, -, h3⟩ | ⟨hi, h1, -, -, -⟩
    · exact absurd (h3 q hq hq1) (not_le.2 hq2)
    exact ⟨_, by simp only [l1, h1]; rfl⟩
  · rintro (h | h)
    · rcases inv.lo with ⟨h1, -, -⟩ | ⟨lo, -, -, -, l4⟩
      · simp [h1]
      · exact absurd (h lo l4.1) (not_lt.2 l4.2.1)
    · rcases inv.hi with ⟨h1, -, -⟩ | ⟨hi, -, -, -, h4⟩
      · simp only [h1]
        cases s.flo <;> rfl
      · exact absurd (h hi h4.1) (not_le.2 h4.2.1)

/-- C38: the probability is between 0 and 1 for occupations between 0 and 2 that do not increase with the
energy (C13). -/
theorem c38_probability (levels : List (ℝ × ℝ)) (g pr : ℝ) (h : energyGap levels = .ok (g, pr))
    (hf : ∀ p ∈ levels, 0 ≤ p.2 ∧ p.2 ≤ 2)
    (hm : ∀ p ∈ levels, ∀ q ∈ levels, p.1 ≤ q.1 → q.2 ≤ p.2) : 0 ≤ pr ∧ pr ≤ 1 := by
  obtain ⟨lo, hi, l, u, -, rfl, -⟩ := c38_gap levels g pr h
  have h1 := hm lo l.1 hi u.1 (l.2.1.trans u.2.1.le)
  have h2 := hf lo l.1
  have h3 := hf hi u.1
  constructor <;> linarith

example : ∃ g pr, energyGap [(-1, 2), (1 / 2, 0), (-1 / 4, 2)] = .ok (g, pr) := by
  obtain ⟨r, hr⟩ := (c38_returns [(-1, 2), (1 / 2, 0), (-1 / 4, 2)]).1
    ⟨(-1, 2), by simp, by norm_num, by norm_num⟩ ⟨(1 / 2, 0), by simp, by norm_num, by norm_num⟩
  exact ⟨r.1, r.2, hr⟩

/-- C38: `get_homo` returns the highest band that exceeds the threshold at some k-point; `None` if there
is none. -/
theorem c38_homo {nk norb : ℕ} (f : Fin nk → Fin norb → ℝ) (occu : ℝ) :
    (∀ i, getHomo f occu = some i → (∃ k, occu < f k i) ∧ ∀ j, i < j → ∀ k, f k j ≤ occu) ∧
    (getHomo f occu = none ↔ ∀ i k, f k i ≤ occu) := by
  unfold getHomo
  constructor
  · intro i hi
    rw [List.find?_eq_some_iff_append] at hi
    obtain ⟨h1, as, bs, h2, h3⟩ := hi
    refine ⟨by simpa using h1, ?_⟩
    intro j hij k
    have h4 : List.finRange norb = bs.reverse ++ i :: as.reverse := by
      have := congrArg List.reverse h2
      simpa using this
    have h5 : (List.finRange norb).Pairwise (· < ·) := List.pairwise_lt_finRange norb
    have h6 : j ∈ as := by
      have hj : j ∈ List.finRange norb := List.mem_finRange j
      rw [h4] at hj h5
      rw [List.pairwise_append] at h5
      rcases List.mem_append.1 hj with h | h
      · exact absurd (h5.2.2 j h i List.mem_cons_self) (not_lt.2 hij.le)
      · rcases List.mem_cons.1 h with h | h
        · exact absurd h hij.ne'
        · exact List.mem_reverse.1 h
    have := h3 j h6
    simp at this
    exact this k
  · rw [List.find?_eq_none]
    simp

/-- C38: `get_lumo` returns the lowest band below the threshold at some k-point. -/
theorem c38_lumo {nk norb : ℕ} (f : Fin nk → Fin norb → ℝ) (occu : ℝ) :
    (∀ i, getLumo f occu = some i → (∃ k, f k i < occu) ∧ ∀ j, j < i → ∀ k, occu ≤ f k j) ∧
    (getLumo f occu = none ↔ ∀ i k, occu ≤ f k i) := by
  unfold getLumo
  constructor
  · intro i hi
    rw [List.find?_eq_some_iff_append] at hi
    obtain ⟨h1, as, bs, h2, h3⟩ := hi
    refine ⟨by simpa using h1, ?_⟩
    intro j hij k
    have h5 : (List.finRange norb).Pairwise (· < ·) := List.pairwise_lt_finRange norb
    have h6 : j ∈ as := by
      have hj : j ∈ List.finRange norb := List.mem_finRange j
      rw [h2] at hj h5
      rw [List.pairwise_append] at h5
      rcases List.mem_append.1 hj with h | h
      · exact h
      · rcases List.mem_cons.1 h with h | h
        · exact absurd h hij.ne
        · exact absurd ((List.pairwise_cons.1 h5.2.1).1 j h) (not_lt.2 hij.le)
    have := h3 j h6
    simp at this
    exact this k
  · rw [List.find?_eq_none]
    simp

/-- C38: with the default thresholds a half filled band is both HOMO and LUMO. -/
theorem c38_half_filled_fails : getHomo (fun (_ : Fin 1) (_ : Fin 1) => (1 : ℝ)) 0.99 = some 0 ∧
    getLumo (fun (_ : Fin 1) (_ : Fin 1) => (1 : ℝ)) 1.01 = some 0 := by
  constructor
  · unfold getHomo
    norm_num [List.finRange_succ]
  · unfold getLumo
    norm_num [List.finRange_succ]

private theorem argmaxFrom_spec (l : List (WithBot ℝ)) : ∀ (pre : List (WithBot ℝ)) (b : ℕ)
    (v : WithBot ℝ), (∀ x ∈ pre, x ≤ v) → ((b = 0 ∧ v = ⊥) ∨ pre[b]? = some v) →
    ∃ w, (∀ x ∈ pre ++ l, x ≤ w) ∧ ((argmaxFrom l pre.length b v = 0 ∧ w = ⊥) ∨
      (pre ++ l)[argmaxFrom l pre.length b v]? = some w) := by
  induction l with
  | nil =>
    intro pre b v h1 h2
    refine ⟨v, by simpa using h1, ?_⟩
    simpa [argmaxFrom] using h2
  | cons x xs ih =>
    intro pre b v h1 h2
    rw [argmaxFrom]
    by_cases hx : v < x
    · rw [if_pos hx]
      have := ih (pre ++ [x]) pre.length x (by
        intro y hy
        rcases List.mem_append.1 hy with hy | hy
        · exact (h1 y hy).trans hx.le
        · rw [List.mem_singleton.1 hy]) (.inr (by simp))
      simpa using this
    · rw [if_neg hx]
      have := ih (pre ++ [x]) b v (by
        intro y hy
        rcases List.mem_append.1 hy with hy | hy
        · exact h1 y hy
        · rw [List.mem_singleton.1 hy]; exact not_lt.1 hx) (by
        rcases h2 with h2 | h2
        · exact .inl h2
        · right
          have hb : b < pre.length := by
            by_contra hc
            rw [List.getElem?_eq_none (not_lt.1 hc)] at h2
            simp at h2
          rw [List.getElem?_append_left hb]
          exact h2)
      simpa using this

/-- C38: `get_state_indices('HOMO')` returns the k-point and band of a highest level at or below the Fermi
level, if there is one. -/
theorem c38_state_homo (norb : ℕ) (levels : List ℝ) (h : ∃ e ∈ levels, e ≤ 0) :
    ∃ k a e, stateIndices norb levels "HOMO" = .ok (k, a) ∧ levels[k * norb + a]? = some e ∧ e ≤ 0 ∧
      ∀ e' ∈ levels, e' ≤ 0 → e' ≤ e := by
  obtain ⟨e0, he0, he00⟩ := h
  have hs := argmaxFrom_spec (levels.map fun e : ℝ => if 0 < e then ⊥ else (e : WithBot ℝ)) [] 0 ⊥
    (by simp) (.inl ⟨rfl, rfl⟩)
  simp only [List.nil_append, List.length_nil] at hs
  obtain ⟨w, w1, w2⟩ := hs
  unfold stateIndices
  rw [if_pos rfl]
  generalize argmaxFrom (levels.map fun e : ℝ => if 0 < e then ⊥ else (e : WithBot ℝ)) 0 0 ⊥ = i at *
  have hw0 : ((e0 : ℝ) : WithBot ℝ) ≤ w := w1 _ (List.mem_map.2 ⟨e0, he0, by rw [if_neg (not_lt.2 he00)]⟩)
  rcases w2 with ⟨-, w2⟩ | w2
  · rw [w2] at hw0
    simp at hw0
  · rw [List.getElem?_map, Option.map_eq_some_iff] at w2
    obtain ⟨e, e1, e2⟩ := w2
    have hidx : i / norb * norb + i % norb = i := by rw [mul_comm]; exact Nat.div_add_mod i norb
    have he : e ≤ 0 := by
      by_contra hc
      rw [if_pos (not_le.1 hc)] at e2
      rw [← e2] at hw0
      simp at hw0
    rw [if_neg (not_lt.2 he)] at e2
    refine ⟨i / norb, i % norb, e, rfl, by rw [hidx, e1], he, ?_⟩
    intro e' he' h'
    have := w1 (e' : WithBot ℝ) (List.mem_map.2 ⟨e', he', by rw [if_neg (not_lt.2 h')]⟩)
    rw [← e2] at this
    exact WithBot.coe_le_coe.1 this

/-- C38: `get_state_indices('LUMO')` returns a lowest level at or above the Fermi level, if there is
one. -/
theorem c38_state_lumo (norb : ℕ) (levels : List ℝ) (h : ∃ e ∈ levels, 0 ≤ e) :
    ∃ k a e, stateIndices norb levels "LUMO" = .ok (k, a) ∧ levels[k * norb + a]? = some e ∧ 0 ≤ e ∧
      ∀ e' ∈ levels, 0 ≤ e' → e ≤ e' := by
  obtain ⟨e0, he0, he00⟩ := h
  have hs := argmaxFrom_spec (levels.map fun e : ℝ => if e < 0 then ⊥ else ((-e : ℝ) : WithBot ℝ)) [] 0 ⊥
    (by simp) (.inl ⟨rfl, rfl⟩)
  simp only [List.nil_append, List.length_nil] at hs
  obtain ⟨w, w1, w2⟩ := hs
  unfold stateIndices
  rw [if_neg (by decide), if_pos rfl]
  generalize argmaxFrom (levels.map fun e : ℝ => if e < 0 then ⊥ else ((-e : ℝ) : WithBot ℝ)) 0 0 ⊥ = i at *
  have hw0 : ((-e0 : ℝ) : WithBot ℝ) ≤ w :=
    w1 _ (List.mem_map.2 ⟨e0, he0, by rw [if_neg (not_lt.2 he00)]⟩)
  rcases w2 with ⟨-, w2⟩ | w2
  · rw [w2] at hw0
    exact absurd hw0 (by rw [le_bot_iff]; exact WithBot.coe_ne_bot)
  · rw [List.getElem?_map, Option.map_eq_some_iff] at w2
    obtain ⟨e, e1, e2⟩ := w2
    have hidx : i / norb * norb + i % norb = i := by rw [mul_comm]; exact Nat.div_add_mod i norb
    have he : 0 ≤ e := by
      by_contra hc
      rw [if_pos (not_le.1 hc)] at e2
      rw [← e2] at hw0
      exact absurd hw0 (by rw [le_bot_iff]; exact WithBot.coe_ne_bot)
    rw [if_neg (not_lt.2 he)] at e2
    refine ⟨i / norb, i % norb, e, rfl, by rw [hidx, e1], he, ?_⟩
    intro e' he' h'
    have := w1 ((-e' : ℝ) : WithBot ℝ) (List.mem_map.2 ⟨e', he', by rw [if_neg (not_lt.2 h')]⟩)
    rw [← e2] at this
    have := WithBot.coe_le_coe.1 this
    linarith

/-- C38: if no level is at or below the Fermi level, the first state is returned as HOMO instead of an
error. -/
theorem c38_no_homo_fails : stateIndices 2 [1, 2] "HOMO" = .ok (0, 0) := by
  simp [stateIndices, argmaxFrom]

/-- C38: a level exactly at the Fermi level is returned both as HOMO and as LUMO. -/
theorem c38_same_state_fails : stateIndices 3 [-1, 0, 1] "HOMO" = .ok (0, 1) ∧
    stateIndices 3 [-1, 0, 1] "LUMO" = .ok (0, 1) := by
  constructor
  · unfold stateIndices
    norm_num [argmaxFrom, WithBot.coe_lt_coe, WithBot.bot_lt_coe]
  · unfold stateIndices
    norm_num [argmaxFrom, WithBot.coe_lt_coe, WithBot.bot_lt_coe]

/-! ## C70: reciprocal k-points -/

/-- C70: in a Bravais lattice the phase of operation `n` at the converted point is the phase of the plane
wave `k` over the translation of `n`. -/
theorem c70_phase (A : Atoms) (hA : A.ctype = .bravais) (ks κs : List Vec)
    (h : kToKappa A ks = .ok κs) : κs.length = ks.length ∧
    ∀ (i : ℕ) (k κ : Vec), ks[i]? = some k → κs[i]? = some κ → ∀ (n : Op) (r : Vec),
      ∑ i, (n i : ℝ) * κ i = ∑ j, k j * (A.rawTransform r n j - r j) := by
  unfold kToKappa at h
  rw [if_neg (by simp [hA])] at h
  have hκ := (Except.ok.inj h).symm
  subst hκ
  refine ⟨by simp, ?_⟩
  intro i k κ hk hκ n r
  rw [List.getElem?_map, hk] at hκ
  have hκ' := (Option.some.inj hκ).symm
  subst hκ'
  unfold Atoms.rawTransform
  rw [hA]
  simp [Fin.sum_univ_three, Matrix.mulVec, dotProduct]
  ring

/-- C70: other containers refuse reciprocal k-points. -/
theorem c70_other (A : Atoms) (hA : A.ctype ≠ .bravais) (ks : List Vec) :
    kToKappa A ks = .error .assertionError := by
  rw [kToKappa, if_pos hA]

end Hotbit
