import Verif.Lemmas.KPoints
import Mathlib.Analysis.Real.Pi.Bounds
import Mathlib.Analysis.SpecialFunctions.Complex.Circle

set_option linter.unusedSimpArgs false

/-!
# C11: the coordinates of the k-point mesh
-/

namespace Hotbit

open Real

/-- C11: in both kinds of direction the computed coordinates are the specified ones. -/
theorem c11_line (M : Option ℤ) (n : ℤ) (physical : Bool) (hn : 1 ≤ n) (l : List ℝ)
    (h : kLine M n physical = .ok l) : l = meshLine M.isNone n := by
  have hn0 : (0 : ℝ) < n := by exact_mod_cast hn
  have hcast : ((n.toNat : ℕ) : ℝ) = (n : ℝ) := by
    have : ((n.toNat : ℕ) : ℤ) = n := Int.toNat_of_nonneg (by omega)
    exact_mod_cast this
  have hone : n.toNat = 1 ↔ (n : ℝ) = 1 := by
    rw [← hcast]; norm_cast
  cases M with
  | none =>
    simp only [kLine, if_neg (show ¬ n < 0 by omega), Except.ok.injEq] at h
    subst h
    simp only [linspace, meshLine, Option.isNone_none]
    apply List.map_congr_left
    intro j hj
    simp only [meshCoord, if_true]
    rw [List.mem_range] at hj
    by_cases h1 : n.toNat = 1
    · have : j = 0 := by omega
      rw [if_pos h1, hone.1 h1, this]; simp
    · rw [if_neg h1, hcast]
      have : (n : ℝ) - 1 ≠ 0 := fun hh => h1 (hone.2 (by linarith))
      field_simp; ring
  | some m =>
    simp only [kLine] at h
    split at h
    · simp at h
    simp only [if_neg (show ¬ n < 0 by omega), Except.ok.injEq] at h
    subst h
    simp only [linspace, meshLine, Option.isNone_some]
    apply List.map_congr_left
    intro j hj
    simp only [meshCoord, Bool.false_eq_true, if_false]
    rw [List.mem_range] at hj
    by_cases h1 : n.toNat = 1
    · have : j = 0 := by omega
      rw [if_pos h1, this]; simp
    · rw [if_neg h1, hcast]
      have : (n : ℝ) - 1 ≠ 0 := fun hh => h1 (hone.2 (by linarith))
      field_simp; ring

example : kLine none 4 true = .ok (linspace (-π + 2 * π / (4 : ℤ) / 2) (π - 2 * π / (4 : ℤ) / 2) 4) ∧
    kLine (some 6) 3 true = .ok (linspace 0 (2 * π - 2 * π / (3 : ℤ)) 3) := by
  constructor
  · simp [kLine]
  · have : (3 : ℤ) ∈ divisors 6 := by decide
    simp [kLine, this]

/-- C11: `n` coordinates, no repetition. -/
theorem c11_count (inf : Bool) (n : ℤ) (hn : 1 ≤ n) :
    ((meshLine inf n).length : ℤ) = n ∧ (meshLine inf n).Nodup := by
  have hn0 : (0 : ℝ) < n := by exact_mod_cast hn
  refine ⟨by simp [meshLine]; omega, ?_⟩
  refine List.Nodup.map ?_ List.nodup_range
  intro a b hab
  cases inf <;> simp only [meshCoord, if_true, Bool.false_eq_true, if_false] at hab <;>
  · field_simp at hab
    have : (a : ℝ) = b := by linarith
    exact_mod_cast this

/-- C11: in an infinite direction the coordinates are strictly inside the zone. -/
theorem c11_inside (n : ℤ) (hn : 1 ≤ n) (k : ℝ) (hk : k ∈ meshLine true n) : -π < k ∧ k < π := by
  have hn0 : (0 : ℝ) < n := by exact_mod_cast hn
  obtain ⟨j, hj, rfl⟩ := List.mem_map.1 hk
  rw [List.mem_range] at hj
  have hj' : (j : ℝ) + 1 ≤ n := by
    have : (j : ℤ) + 1 ≤ n := by omega
    exact_mod_cast this
  have hpos : 0 < (2 * (j : ℝ) + 1) * π / n := by positivity
  have hlt : (2 * (j : ℝ) + 1) * π / n < 2 * π := by
    rw [div_lt_iff₀ hn0]; nlinarith [pi_pos]
  simp only [meshCoord, if_true]
  constructor <;> linarith

/-- C11: in an infinite direction the mesh is symmetric under inversion. -/
theorem c11_inversion (n : ℤ) (hn : 1 ≤ n) (k : ℝ) (hk : k ∈ meshLine true n) :
    -k ∈ meshLine true n := by
  have hn0 : (0 : ℝ) < n := by exact_mod_cast hn
  obtain ⟨j, hj, rfl⟩ := List.mem_map.1 hk
  rw [List.mem_range] at hj
  refine List.mem_map.2 ⟨n.toNat - 1 - j, List.mem_range.2 (by omega), ?_⟩
  have : ((n.toNat - 1 - j : ℕ) : ℝ) = (n : ℝ) - 1 - j := by
    have : ((n.toNat - 1 - j : ℕ) : ℤ) = n - 1 - j := by omega
    exact_mod_cast this
  simp only [meshCoord, if_true, this]
  field_simp; ring

/-- C11: the mesh of an infinite direction contains the zone centre iff `n` is odd. -/
theorem c11_gamma (n : ℤ) (hn : 1 ≤ n) : (0 : ℝ) ∈ meshLine true n ↔ Odd n := by
  have hn0 : (0 : ℝ) < n := by exact_mod_cast hn
  constructor
  · intro h
    obtain ⟨j, -, he⟩ := List.mem_map.1 h
    simp only [meshCoord, if_true] at he
    have h1 : (2 * (j : ℝ) + 1) = n := by
      field_simp at he
      have := pi_pos
      nlinarith
    refine ⟨j, ?_⟩
    have : (2 * (j : ℤ) + 1) = n := by exact_mod_cast h1
    omega
  · rintro ⟨m, rfl⟩
    refine List.mem_map.2 ⟨m.toNat, List.mem_range.2 (by omega), ?_⟩
    have hm : ((m.toNat : ℕ) : ℝ) = m := by
      have : ((m.toNat : ℕ) : ℤ) = m := Int.toNat_of_nonneg (by omega)
      exact_mod_cast this
    simp only [meshCoord, if_true, hm]
    push_cast at hn0 ⊢
    field_simp; ring

example : (0 : ℝ) ∈ meshLine true 5 ∧ (0 : ℝ) ∉ meshLine true 4 := by
  rw [c11_gamma _ (by norm_num), c11_gamma _ (by norm_num)]
  decide

/-- C11: in a direction with `M` operations, every Bloch phase `exp(i k M)` of a sampled `k` is 1,
for physical sampling (the default). -/
theorem c11_phase (M n : ℤ) (hM : 1 ≤ M) (hn : 1 ≤ n) (l : List ℝ)
    (h : kLine (some M) n true = .ok l) (k : ℝ) (hk : k ∈ l) :
    Complex.exp (Complex.I * (k * M)) = 1 := by
  have hl := c11_line _ _ _ hn l h
  have hd : n ∣ M := by
    simp only [kLine] at h
    split at h
    · simp at h
    · rename_i hh
      simp only [and_true, not_not] at hh
      exact ((mem_divisors M n (by omega)).1 hh).2
  obtain ⟨c, rfl⟩ := hd
  subst hl
  obtain ⟨j, -, rfl⟩ := List.mem_map.1 hk
  have hn0 : (n : ℂ) ≠ 0 := by
    have : n ≠ 0 := by omega
    exact_mod_cast this
  rw [Complex.exp_eq_one_iff]
  refine ⟨j * c, ?_⟩
  simp only [meshCoord, Option.isNone_some, Bool.false_eq_true, if_false]
  push_cast
  field_simp

example : (2 * π * (1 : ℕ) / (3 : ℤ) : ℝ) ∈ meshLine false 3 :=
  List.mem_map.2 ⟨1, by simp, by simp [meshCoord]⟩

/-- C11 for DoubleChiral: with physical sampling the screw operation done twice has the phase of
the translation it is declared equivalent to. -/
theorem c11_equivalent_phase (A : Atoms) (hA : A.ctype = .doubleChiral) (n : Fin 3 → ℤ)
    (hn : n 0 ∣ 2) (j : Fin 3 → ℕ) :
    Complex.exp (Complex.I * (2 * meshPoint A n j 0 : ℝ))
      = Complex.exp (Complex.I * (pyRound (2 * A.cell 0 1) * meshPoint A n j 2 : ℝ)) := by
  obtain ⟨c, hc⟩ := hn
  have hn0 : (n 0 : ℂ) ≠ 0 := by
    have : n 0 ≠ 0 := by rintro h; rw [h] at hc; simp at hc
    exact_mod_cast this
  have hcc : (n 0 : ℂ) * c = 2 := by exact_mod_cast hc.symm
  have hM : A.numberOfTransformations 0 = some 2 := by
    simp [Atoms.numberOfTransformations, Atoms.ranges, hA]
  rw [Complex.exp_eq_exp_iff_exists_int]
  refine ⟨j 0 * c, ?_⟩
  simp only [meshPoint, shear, hA, if_true, Matrix.cons_val_zero, Matrix.cons_val, hM, Option.isNone_some,
    meshCoord, Bool.false_eq_true, if_false]
  push_cast
  have : (2 * (2 * (π : ℂ) * j 0 / n 0)) = j 0 * c * (2 * π) := by
    field_simp
    rw [← hcc]; ring
  linear_combination Complex.I * this

end Hotbit
