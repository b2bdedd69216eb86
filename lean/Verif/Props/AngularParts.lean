import Verif.Model.Wavefunctions
import Verif.Spec.SlaterKoster
import Verif.Props.Rotations
import Mathlib.Tactic

/-!
# C102: spherical coordinates and the angular part of orbitals
-/

namespace Hotbit

open Real

theorem polar_facts (v : Vec) (hr : 0 < √(v 0 ^ 2 + v 1 ^ 2 + v 2 ^ 2)) :
    let R := √(v 0 ^ 2 + v 1 ^ 2 + v 2 ^ 2)
    cos (arccos (v 2 / R)) = v 2 / R ∧ R * sin (arccos (v 2 / R)) = √(v 0 ^ 2 + v 1 ^ 2) := by
  intro R
  have hR : 0 < R := hr
  have hsq : R ^ 2 = v 0 ^ 2 + v 1 ^ 2 + v 2 ^ 2 := Real.sq_sqrt (by positivity)
  have hle : |v 2| ≤ R := abs_le_sqrt (by nlinarith [sq_nonneg (v 0), sq_nonneg (v 1)])
  have h1 : -1 ≤ v 2 / R ∧ v 2 / R ≤ 1 := by
    rw [← abs_le, abs_div, abs_of_pos hR]
    exact (div_le_one hR).2 hle
  refine ⟨cos_arccos h1.1 h1.2, ?_⟩
  rw [sin_arccos]
  have e : v 0 ^ 2 + v 1 ^ 2 = R ^ 2 * (1 - (v 2 / R) ^ 2) := by
    rw [div_pow, mul_sub, mul_div_cancel₀ _ (by positivity)]
    linarith
  rw [e, Real.sqrt_mul (by positivity), Real.sqrt_sq hR.le]

/-- C102: spherical coordinates exist for every vector (no assertion fails); for a vector of length at least 1e-6 they are its
length, a polar angle and an azimuth in their ranges, and describe the vector to 3e-16 in each component. -/
theorem c102_spherical (v : Vec) (hr : (1e-6 : ℝ) ≤ √(v 0 ^ 2 + v 1 ^ 2 + v 2 ^ 2)) :
    ∃ r θ φ, toSpherical v = .ok (r, θ, φ) ∧ r = √(v 0 ^ 2 + v 1 ^ 2 + v 2 ^ 2) ∧
      0 ≤ θ ∧ θ ≤ π ∧ 0 ≤ φ ∧ φ < 2 * π ∧ v 2 = r * cos θ ∧
      |v 0 - r * sin θ * cos φ| ≤ 3e-16 ∧ |v 1 - r * sin θ * sin φ| ≤ 3e-16 := by
  obtain ⟨φ, h1, h2, h3, h4, h5⟩ := c52_returns (v 0) (v 1)
  have hpos : 0 < √(v 0 ^ 2 + v 1 ^ 2 + v 2 ^ 2) := lt_of_lt_of_le (by norm_num) hr
  obtain ⟨hc, hs⟩ := polar_facts v hpos
  refine ⟨_, arccos (v 2 / √(v 0 ^ 2 + v 1 ^ 2 + v 2 ^ 2)), φ, ?_, rfl, arccos_nonneg _, arccos_le_pi _, h2, h3, ?_, ?_, ?_⟩
  · unfold toSpherical
    simp only [if_neg (not_lt.2 hr), h1]
    change (if ¬ _ then _ else if ¬ _ then _ else _) = _
    rw [if_neg (not_not.2 ⟨arccos_nonneg _, arccos_le_pi _⟩), if_neg (not_not.2 ⟨h2, h3.le⟩)]
  · rw [hc]; field_simp
  · rw [hs]; exact h4
  · rw [hs]; exact h5

/-- C102: shorter vectors are taken for the origin. -/
theorem c102_origin (v : Vec) (hr : √(v 0 ^ 2 + v 1 ^ 2 + v 2 ^ 2) < (1e-6 : ℝ)) : toSpherical v = .ok (0, 0, 0) := by
  unfold toSpherical
  simp only [if_pos hr]
  change (if ¬ _ then _ else if ¬ _ then _ else _) = _
  have := pi_pos
  rw [if_neg (by simp; positivity), if_neg (by simp; positivity)]

/-- The names of the orbitals in the order of the indices. -/
def orbitalName (a : Fin 9) : String :=
  ["s", "px", "py", "pz", "dxy", "dyz", "dzx", "dx2-y2", "d3z2-r2"].get ⟨a.val, a.isLt⟩

theorem angular_name (r : Vec) (a : Fin 9) : angular r (.name (orbitalName a)) = angular r (.idx a) := by
  unfold angular
  have : angularStates.findIdx? (· == orbitalName a) = some a.val := by revert a; decide
  simp only [this]

/-- C102: at every point not within 1e-14 of the nucleus and with components zero or larger than 1e-16, the angular part of an
orbital given by index or by name is the real spherical harmonic, `√((2l+1)/4π)` times the polynomial `1, x, y, z, √3 xy, …` of
the direction. -/
theorem c102_angular (r : Vec) (a : Fin 9) (hr : (1e-14 : ℝ) ≤ √(r 0 ^ 2 + r 1 ^ 2 + r 2 ^ 2))
    (hx : r 0 = 0 ∨ 1e-16 < |r 0|) (hy : r 1 = 0 ∨ 1e-16 < |r 1|) :
    angular r (.idx a) = .ok (some (√((2 * orbL a + 1) / (4 * π)) * cubic a (fun i => r i / √(r 0 ^ 2 + r 1 ^ 2 + r 2 ^ 2))))
    ∧ angular r (.name (orbitalName a)) = angular r (.idx a) := by
  refine ⟨?_, angular_name r a⟩
  obtain ⟨φ, h1, h2, h3, h4, h5⟩ := c52_exact (r 0) (r 1) hx hy
  have hpos : 0 < √(r 0 ^ 2 + r 1 ^ 2 + r 2 ^ 2) := lt_of_lt_of_le (by norm_num) hr
  obtain ⟨hc, hs⟩ := polar_facts r hpos
  unfold angular
  simp only [if_neg (not_lt.2 hr), h1]
  set R := √(r 0 ^ 2 + r 1 ^ 2 + r 2 ^ 2) with hR
  have hsq : R ^ 2 = r 0 ^ 2 + r 1 ^ 2 + r 2 ^ 2 := Real.sq_sqrt (by positivity)
  set θ := arccos (r 2 / R) with hθ
  have ex : r 0 / R = sin θ * cos φ := by
    rw [h4, ← hs]; field_simp
  have ey : r 1 / R = sin θ * sin φ := by
    rw [h5, ← hs]; field_simp
  have ez : r 2 / R = cos θ := hc.symm
  have hscθ := sin_sq_add_cos_sq θ
  have hscφ := sin_sq_add_cos_sq φ
  have q3 : √(3 : ℝ) ^ 2 = 3 := Real.sq_sqrt (by norm_num)
  have s15 : √(15 / (4 * π)) = √(5 / (4 * π)) * √3 := by
    rw [← Real.sqrt_mul (by positivity)]; congr 1; ring
  have s1 : 1 / √(4 * π) = √(1 / (4 * π)) := by rw [Real.sqrt_div (by norm_num), Real.sqrt_one]
  have key : √((2 * (orbL a : ℝ) + 1) / (4 * π))
      = if orbL a = 0 then √(1 / (4 * π)) else if orbL a = 1 then √(3 / (4 * π)) else √(5 / (4 * π)) := by
    revert a
    intro a
    fin_cases a <;> simp only [orbL] <;> norm_num
  rw [key, s15, s1]
  change Except.ok _ = Except.ok _
  congr 1
  generalize √(1 / (4 * π)) = A1
  generalize √(3 / (4 * π)) = A3
  generalize √(5 / (4 * π)) = A5
  fin_cases a
  · simp [cubic, orbL]
  · simp [cubic, orbL, ex]; ring
  · simp [cubic, orbL, ey]; ring
  · simp [cubic, orbL, ez]
  · simp [cubic, orbL, ex, ey]; ring
  · simp [cubic, orbL, ez, ey]; ring
  · simp [cubic, orbL, ex, ez]; ring
  · simp [cubic, orbL, ex, ey]; rw [cos_two_mul']; ring
  · simp [cubic, orbL, ex, ey, ez]
    have h9 : (sin θ * cos φ) ^ 2 + (sin θ * sin φ) ^ 2 = 1 - cos θ ^ 2 := by
      have : (sin θ * cos φ) ^ 2 + (sin θ * sin φ) ^ 2 = sin θ ^ 2 * (sin φ ^ 2 + cos φ ^ 2) := by ring
      rw [this, hscφ]; linarith
    rw [h9]; ring

/-- C102: an unknown name raises a `ValueError` and an unknown index gives `None`. -/
theorem c102_unknown (r : Vec) (hr : (1e-14 : ℝ) ≤ √(r 0 ^ 2 + r 1 ^ 2 + r 2 ^ 2)) :
    (∀ s, (∀ a, s ≠ orbitalName a) → angular r (.name s) = .error .valueError) ∧
    (∀ i : ℤ, i < 0 ∨ 9 ≤ i → angular r (.idx i) = .ok none) := by
  obtain ⟨φ, h1, -⟩ := c52_returns (r 0) (r 1)
  constructor
  · intro s hs
    unfold angular
    have : angularStates.findIdx? (· == s) = none := by
      rw [List.findIdx?_eq_none_iff]
      intro x hx
      simp only [angularStates, List.mem_cons, List.not_mem_nil, or_false] at hx
      rw [beq_eq_false_iff_ne]
      rcases hx with rfl | rfl | rfl | rfl | rfl | rfl | rfl | rfl | rfl
      · exact (hs 0).symm
      · exact (hs 1).symm
      · exact (hs 2).symm
      · exact (hs 3).symm
      · exact (hs 4).symm
      · exact (hs 5).symm
      · exact (hs 6).symm
      · exact (hs 7).symm
      · exact (hs 8).symm
    simp only [if_neg (not_lt.2 hr), h1, this]
    rfl
  · intro i hi
    unfold angular
    simp only [if_neg (not_lt.2 hr), h1]
    change Except.ok _ = Except.ok _
    rw [if_neg (by omega), if_neg (by omega), if_neg (by omega), if_neg (by omega), if_neg (by omega), if_neg (by omega),
      if_neg (by omega), if_neg (by omega), if_neg (by omega)]

/-- C102 fails at the nucleus: the angular part of an s orbital is the same in all directions, but at the nucleus itself zero is
returned. -/
theorem c102_nucleus_fails : angular 0 (.name "s") = .ok (some 0) ∧ (0 : ℝ) ≠ √(1 / (4 * π)) := by
  constructor
  · unfold angular
    rw [if_pos (by simp; norm_num)]
  · have : 0 < √(1 / (4 * π)) := by positivity
    exact this.ne

/-- A point meeting the hypotheses of `c102_angular`. -/
example : let r : Vec := ![3, -4, 12]
    (1e-14 : ℝ) ≤ √(r 0 ^ 2 + r 1 ^ 2 + r 2 ^ 2) ∧ (r 0 = 0 ∨ 1e-16 < |r 0|) ∧ (r 1 = 0 ∨ 1e-16 < |r 1|) := by
  refine ⟨?_, Or.inr (by norm_num), Or.inr (by norm_num)⟩
  apply Real.le_sqrt_of_sq_le
  simp; norm_num

end Hotbit
