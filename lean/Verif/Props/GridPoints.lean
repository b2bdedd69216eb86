import Verif.Model.Grids
import Verif.Props.SkfRepulsion
import Mathlib.Tactic

/-!
# C103: the grid of the cell
-/

namespace Hotbit

open Real

/-- C103: the edges of the cell are its diagonal in Bohr; cells with a non-zero entry above the diagonal are refused. -/
theorem c103_cube (bohr : ℝ) (cell : Mat) :
    ((∀ i j, i < j → |cell i j| ≤ 1e-10) → getCube bohr cell = .ok fun i => cell i i / bohr) ∧
    ((∃ i j, i < j ∧ 1e-10 < |cell i j|) → getCube bohr cell = .error .assertionError) := by
  unfold getCube
  constructor
  · intro h
    rw [if_neg]
    push Not
    exact ⟨h 0 1 (by decide), h 0 2 (by decide), h 1 2 (by decide)⟩
  · rintro ⟨i, j, hij, h⟩
    rw [if_pos]
    fin_cases i <;> fin_cases j <;> simp_all

/-- C103 fails for cells that are not rectangular but have zeros above the diagonal: a hexagonal cell is accepted. -/
theorem c103_cube_fails (bohr : ℝ) : ∃ cell : Mat,
    (∑ i, cell 0 i * cell 1 i ≠ 0) ∧ getCube bohr cell = .ok fun i => cell i i / bohr := by
  refine ⟨!![2, 0, 0; 1, √3, 0; 0, 0, 5], ?_, ?_⟩
  · simp [Fin.sum_univ_three]
  · apply (c103_cube bohr _).1
    intro i j hij
    fin_cases i <;> fin_cases j <;> simp_all <;> norm_num

theorem gridInit_spec {bohr h cutoff : ℝ} {cell : Mat} {g : GridData} (hg : gridInit bohr cell h cutoff = .ok g) :
    (∀ i, g.L i = cell i i / bohr) ∧ (∀ i, g.N i = pyRound (g.L i / h)) ∧ (∀ i, g.dr i = g.L i / ((g.N i : ℝ) - 1)) ∧
    g.cutoff = cutoff / bohr ∧
    ∀ i, g.pN i = if pyRound (g.cutoff * 2 / g.dr i) % 2 = 0 then pyRound (g.cutoff * 2 / g.dr i) + 1
      else pyRound (g.cutoff * 2 / g.dr i) := by
  unfold gridInit getCube at hg
  split_ifs at hg
  · exact absurd hg (by intro h; cases h)
  · cases hg
    exact ⟨fun _ => rfl, fun _ => rfl, fun _ => rfl, rfl, fun _ => rfl⟩

/-- C103: on each edge the points are `0, dr, 2 dr, …` up to the edge itself. -/
theorem c103_points {bohr h cutoff : ℝ} {cell : Mat} {g : GridData} (hg : gridInit bohr cell h cutoff = .ok g) (i : Fin 3)
    (hN : 2 ≤ g.N i) :
    (g.axis i).length = (g.N i).toNat ∧ (∀ j : ℕ, (j : ℤ) < g.N i → (g.axis i)[j]? = some (j * g.dr i)) ∧
    (g.axis i).getLast? = some (g.L i) ∧ g.L i = ((g.N i : ℝ) - 1) * g.dr i := by
  obtain ⟨-, -, hdr, -, -⟩ := gridInit_spec hg
  have hN' : ((g.N i : ℝ) - 1) ≠ 0 := by
    have : (2 : ℝ) ≤ g.N i := by exact_mod_cast hN
    linarith
  have hL : g.L i = ((g.N i : ℝ) - 1) * g.dr i := by
    rw [hdr]; field_simp
  have hcast : (((g.N i).toNat : ℕ) : ℝ) = g.N i := by
    have : (((g.N i).toNat : ℕ) : ℤ) = g.N i := Int.toNat_of_nonneg (by omega)
    exact_mod_cast this
  have hget : ∀ j : ℕ, (j : ℤ) < g.N i → (g.axis i)[j]? = some (j * g.dr i) := by
    intro j hj
    unfold GridData.axis linspace
    rw [List.getElem?_map, List.getElem?_range (by omega)]
    simp only [Option.map_some, hcast]
    rw [if_neg (by omega), hdr]
    simp
  have hlen : (g.axis i).length = (g.N i).toNat := by simp [GridData.axis, linspace]
  refine ⟨hlen, hget, ?_, hL⟩
  rw [List.getLast?_eq_getElem?, hlen, hget _ (by omega), hL]
  congr 2
  rw [Nat.cast_sub (by omega), hcast]
  simp

/-- C103: the partial grid of an orbital has an odd number of points with the spacing of the grid, is symmetric, and has the
nucleus on its middle point. -/
theorem c103_partial_grid {bohr h cutoff : ℝ} {cell : Mat} {g : GridData} (hg : gridInit bohr cell h cutoff = .ok g) (i : Fin 3) :
    g.pN i % 2 = 1 ∧ g.pgrid i ((g.pN i - 1) / 2) = 0 ∧ (∀ p, g.pgrid i (g.pN i - 1 - p) = - g.pgrid i p) ∧
    ∀ p, g.pgrid i (p + 1) = g.pgrid i p + g.dr i := by
  obtain ⟨-, -, -, -, hp⟩ := gridInit_spec hg
  have hodd : g.pN i % 2 = 1 := by rw [hp]; split_ifs <;> omega
  refine ⟨hodd, ?_, ?_, ?_⟩
  · have : (2 : ℤ) * ((g.pN i - 1) / 2) = g.pN i - 1 := by omega
    have h2 : (2 : ℝ) * (((g.pN i - 1) / 2 : ℤ) : ℝ) = g.pN i - 1 := by exact_mod_cast this
    unfold GridData.pgrid
    rw [← h2]; ring
  · intro p; unfold GridData.pgrid; push_cast; ring
  · intro p; unfold GridData.pgrid; push_cast; ring

/-- C103: the number of points is the edge in Bohr divided by the number given for the spacing, to one half. -/
theorem c103_count {bohr h cutoff : ℝ} {cell : Mat} {g : GridData} (hg : gridInit bohr cell h cutoff = .ok g) (i : Fin 3) :
    |(g.N i : ℝ) - cell i i / bohr / h| ≤ 1 / 2 := by
  obtain ⟨hL, hN, -⟩ := gridInit_spec hg
  rw [hN, ← hL]
  exact abs_pyRound_sub_le _

/-- C103 fails for the unit of the spacing: in a cell of 10 Å a spacing of 0.2 Å gives points less than 0.11 Å apart. -/
theorem c103_spacing_fails : ∃ g, gridInit 0.529177 (Matrix.diagonal fun _ => 10) 0.2 3 = .ok g ∧
    g.N 0 = 94 ∧ g.dr 0 * 0.529177 < 0.11 := by
  have hc : getCube 0.529177 (Matrix.diagonal fun _ => 10) = .ok fun i => (Matrix.diagonal (fun _ => (10 : ℝ)) : Mat) i i / 0.529177 := by
    apply (c103_cube _ _).1
    intro i j hij
    rw [Matrix.diagonal_apply_ne _ hij.ne]
    norm_num
  obtain ⟨g, hg⟩ : ∃ g, gridInit 0.529177 (Matrix.diagonal fun _ => 10) 0.2 3 = .ok g := by
    unfold gridInit; rw [hc]; exact ⟨_, rfl⟩
  obtain ⟨hL, hN, hdr, -⟩ := gridInit_spec hg
  have hN0 : g.N 0 = 94 := by
    rw [hN, hL]
    apply pyRound_eq_of_abs_lt
    rw [Matrix.diagonal_apply_eq, abs_lt]
    norm_num
  refine ⟨g, hg, hN0, ?_⟩
  rw [hdr, hN0, hL, Matrix.diagonal_apply_eq]
  norm_num

/-- A cell meeting the hypotheses of `c103_points`. -/
example : ∃ g, gridInit 0.529177 (Matrix.diagonal fun _ => 10) 0.2 3 = .ok g ∧ 2 ≤ g.N 0 := by
  obtain ⟨g, h1, h2, -⟩ := c103_spacing_fails
  exact ⟨g, h1, by omega⟩

end Hotbit
