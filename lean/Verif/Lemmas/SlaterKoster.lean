import Verif.Model.SlaterKoster
import Verif.Spec.SlaterKoster
import Mathlib.Analysis.Calculus.Deriv.Mul
import Mathlib.Analysis.Calculus.Deriv.Pow
import Mathlib.Analysis.Calculus.Deriv.Add

/-!
# Helper lemmas on the Slater–Koster table
-/

set_option linter.unusedSimpArgs false
set_option linter.unusedTactic false
set_option linter.unreachableTactic false

namespace Hotbit

theorem sqrt3_sq : Real.sqrt 3 * Real.sqrt 3 = 3 := by norm_num

/-- The table entry used by the model, with the direction cosines plugged in. -/
noncomputable abbrev skTab (r : Vec) (a b : Fin 9) (k : Fin 3) : ℝ :=
  skMatUp (Real.sqrt 3) (r 0) (r 1) (r 2) (r 0 * r 0) (r 1 * r 1) (r 2 * r 2) a b k

/-- Derivative table with the direction cosines and their derivatives plugged in. -/
noncomputable abbrev skDTab (r v : Vec) (a b : Fin 9) (k : Fin 3) : ℝ :=
  skDerUp (Real.sqrt 3) (r 0) (r 1) (r 2) (r 0 * r 0) (r 1 * r 1) (r 2 * r 2)
    (v 0) (v 1) (v 2) (2 * r 0 * v 0) (2 * r 1 * v 1) (2 * r 2 * v 2) a b k

local macro "skrow" : tactic => `(tactic|
  (intro r hr b hb k hk
   have h3 := sqrt3_sq
   have h3' : (Real.sqrt 3)⁻¹ * Real.sqrt 3 = 1 := by norm_num
   fin_cases b
   all_goals try (exact absurd hb (by decide))
   all_goals fin_cases k
   all_goals try (exact absurd hk (by decide))
   all_goals
     simp [skTab, skMatUp, skCoef, cubic, gradCubic, sphGrad, piNorm, orbL, Fin.sum_univ_three]
   all_goals generalize Real.sqrt 3 = s at *
   all_goals grind))

set_option maxHeartbeats 4000000 in
theorem skTab_row0 : ∀ r : Vec, r 0 ^ 2 + r 1 ^ 2 + r 2 ^ 2 = 1 → ∀ b : Fin 9, 0 ≤ b →
    ∀ k : Fin 3, k.val < skCnt 0 b → skTab r 0 b k = skCoef k 0 b r := by
  skrow

set_option maxHeartbeats 4000000 in
theorem skTab_row1 : ∀ r : Vec, r 0 ^ 2 + r 1 ^ 2 + r 2 ^ 2 = 1 → ∀ b : Fin 9, 1 ≤ b →
    ∀ k : Fin 3, k.val < skCnt 1 b → skTab r 1 b k = skCoef k 1 b r := by
  skrow

set_option maxHeartbeats 4000000 in
theorem skTab_row2 : ∀ r : Vec, r 0 ^ 2 + r 1 ^ 2 + r 2 ^ 2 = 1 → ∀ b : Fin 9, 2 ≤ b →
    ∀ k : Fin 3, k.val < skCnt 2 b → skTab r 2 b k = skCoef k 2 b r := by
  skrow

set_option maxHeartbeats 4000000 in
theorem skTab_row3 : ∀ r : Vec, r 0 ^ 2 + r 1 ^ 2 + r 2 ^ 2 = 1 → ∀ b : Fin 9, 3 ≤ b →
    ∀ k : Fin 3, k.val < skCnt 3 b → skTab r 3 b k = skCoef k 3 b r := by
  skrow

set_option maxHeartbeats 4000000 in
theorem skTab_row4 : ∀ r : Vec, r 0 ^ 2 + r 1 ^ 2 + r 2 ^ 2 = 1 → ∀ b : Fin 9, 4 ≤ b →
    ∀ k : Fin 3, k.val < skCnt 4 b → skTab r 4 b k = skCoef k 4 b r := by
  skrow

set_option maxHeartbeats 4000000 in
theorem skTab_row5 : ∀ r : Vec, r 0 ^ 2 + r 1 ^ 2 + r 2 ^ 2 = 1 → ∀ b : Fin 9, 5 ≤ b →
    ∀ k : Fin 3, k.val < skCnt 5 b → skTab r 5 b k = skCoef k 5 b r := by
  skrow

set_option maxHeartbeats 4000000 in
theorem skTab_row6 : ∀ r : Vec, r 0 ^ 2 + r 1 ^ 2 + r 2 ^ 2 = 1 → ∀ b : Fin 9, 6 ≤ b →
    ∀ k : Fin 3, k.val < skCnt 6 b → skTab r 6 b k = skCoef k 6 b r := by
  skrow

set_option maxHeartbeats 4000000 in
theorem skTab_row7 : ∀ r : Vec, r 0 ^ 2 + r 1 ^ 2 + r 2 ^ 2 = 1 → ∀ b : Fin 9, 7 ≤ b →
    ∀ k : Fin 3, k.val < skCnt 7 b → skTab r 7 b k = skCoef k 7 b r := by
  skrow

set_option maxHeartbeats 4000000 in
theorem skTab_row8 : ∀ r : Vec, r 0 ^ 2 + r 1 ^ 2 + r 2 ^ 2 = 1 → ∀ b : Fin 9, 8 ≤ b →
    ∀ k : Fin 3, k.val < skCnt 8 b → skTab r 8 b k = skCoef k 8 b r := by
  skrow

theorem skTab_spec (r : Vec) (hr : r 0 ^ 2 + r 1 ^ 2 + r 2 ^ 2 = 1) (a b : Fin 9) (hab : a ≤ b)
    (k : Fin 3) (hk : k.val < skCnt a b) : skTab r a b k = skCoef k a b r := by
  fin_cases a
  · exact skTab_row0 r hr b hab k hk
  · exact skTab_row1 r hr b hab k hk
  · exact skTab_row2 r hr b hab k hk
  · exact skTab_row3 r hr b hab k hk
  · exact skTab_row4 r hr b hab k hk
  · exact skTab_row5 r hr b hab k hk
  · exact skTab_row6 r hr b hab k hk
  · exact skTab_row7 r hr b hab k hk
  · exact skTab_row8 r hr b hab k hk

/-- Derivative of `cubic a` along a curve with velocity `v`. -/
noncomputable def cubicD (a : Fin 9) (r v : Vec) : ℝ := ∑ i, gradCubic a r i * v i

/-- Derivative of `gradCubic a · i` (linear for d, constant for s and p). -/
noncomputable def gradD (a : Fin 9) (v : Vec) (i : Fin 3) : ℝ :=
  if orbL a = 2 then gradCubic a v i else 0

noncomputable def sphGradD (a : Fin 9) (r v : Vec) (i : Fin 3) : ℝ :=
  gradD a v i - ((orbL a : ℝ) * cubicD a r v * r i + (orbL a : ℝ) * cubic a r * v i)

/-- Derivative of `skCoef k a b` along a curve. -/
noncomputable def skCoefD (k : Fin 3) (a b : Fin 9) (r v : Vec) : ℝ :=
  let sigma := cubicD a r v * cubic b r + cubic a r * cubicD b r v
  let pi := (∑ i, (sphGradD a r v i * sphGrad b r i + sphGrad a r i * sphGradD b r v i))
    / (piNorm (orbL a) * piNorm (orbL b))
  ![sigma, pi, - sigma - pi] k

local macro "skder" : tactic => `(tactic|
  (intro r v hr hv b hb k hk
   have h3 := sqrt3_sq
   have h3' : (Real.sqrt 3)⁻¹ * Real.sqrt 3 = 1 := by norm_num
   fin_cases b
   all_goals try (exact absurd hb (by decide))
   all_goals fin_cases k
   all_goals try (exact absurd hk (by decide))
   all_goals
     simp [skDTab, skDerUp, skCoefD, cubic, cubicD, gradCubic, gradD, sphGrad, sphGradD, piNorm,
       orbL, Fin.sum_univ_three]
   all_goals generalize Real.sqrt 3 = s at *
   all_goals generalize r 0 = x at *
   all_goals generalize r 1 = y at *
   all_goals generalize r 2 = z at *
   all_goals generalize v 0 = vx at *
   all_goals generalize v 1 = vy at *
   all_goals generalize v 2 = vz at *
   all_goals grind))

set_option maxHeartbeats 4000000 in
theorem skDTab_row0 : ∀ r v : Vec, r 0 ^ 2 + r 1 ^ 2 + r 2 ^ 2 = 1 →
    r 0 * v 0 + r 1 * v 1 + r 2 * v 2 = 0 → ∀ b : Fin 9, 0 ≤ b → ∀ k : Fin 3,
    k.val < skCnt 0 b → skDTab r v 0 b k = skCoefD k 0 b r v := by
  skder

set_option maxHeartbeats 4000000 in
theorem skDTab_row1 : ∀ r v : Vec, r 0 ^ 2 + r 1 ^ 2 + r 2 ^ 2 = 1 →
    r 0 * v 0 + r 1 * v 1 + r 2 * v 2 = 0 → ∀ b : Fin 9, 1 ≤ b → ∀ k : Fin 3,
    k.val < skCnt 1 b → skDTab r v 1 b k = skCoefD k 1 b r v := by
  skder

set_option maxHeartbeats 4000000 in
theorem skDTab_row2 : ∀ r v : Vec, r 0 ^ 2 + r 1 ^ 2 + r 2 ^ 2 = 1 →
    r 0 * v 0 + r 1 * v 1 + r 2 * v 2 = 0 → ∀ b : Fin 9, 2 ≤ b → ∀ k : Fin 3,
    k.val < skCnt 2 b → skDTab r v 2 b k = skCoefD k 2 b r v := by
  skder

set_option maxHeartbeats 4000000 in
theorem skDTab_row3 : ∀ r v : Vec, r 0 ^ 2 + r 1 ^ 2 + r 2 ^ 2 = 1 →
    r 0 * v 0 + r 1 * v 1 + r 2 * v 2 = 0 → ∀ b : Fin 9, 3 ≤ b → ∀ k : Fin 3,
    k.val < skCnt 3 b → skDTab r v 3 b k = skCoefD k 3 b r v := by
  skder

set_option maxHeartbeats 4000000 in
theorem skDTab_row4 : ∀ r v : Vec, r 0 ^ 2 + r 1 ^ 2 + r 2 ^ 2 = 1 →
    r 0 * v 0 + r 1 * v 1 + r 2 * v 2 = 0 → ∀ b : Fin 9, 4 ≤ b → ∀ k : Fin 3,
    k.val < skCnt 4 b → skDTab r v 4 b k = skCoefD k 4 b r v := by
  skder

set_option maxHeartbeats 4000000 in
theorem skDTab_row5 : ∀ r v : Vec, r 0 ^ 2 + r 1 ^ 2 + r 2 ^ 2 = 1 →
    r 0 * v 0 + r 1 * v 1 + r 2 * v 2 = 0 → ∀ b : Fin 9, 5 ≤ b → ∀ k : Fin 3,
    k.val < skCnt 5 b → skDTab r v 5 b k = skCoefD k 5 b r v := by
  skder

set_option maxHeartbeats 4000000 in
theorem skDTab_row6 : ∀ r v : Vec, r 0 ^ 2 + r 1 ^ 2 + r 2 ^ 2 = 1 →
    r 0 * v 0 + r 1 * v 1 + r 2 * v 2 = 0 → ∀ b : Fin 9, 6 ≤ b → ∀ k : Fin 3,
    k.val < skCnt 6 b → skDTab r v 6 b k = skCoefD k 6 b r v := by
  skder

set_option maxHeartbeats 4000000 in
theorem skDTab_row7 : ∀ r v : Vec, r 0 ^ 2 + r 1 ^ 2 + r 2 ^ 2 = 1 →
    r 0 * v 0 + r 1 * v 1 + r 2 * v 2 = 0 → ∀ b : Fin 9, 7 ≤ b → ∀ k : Fin 3,
    k.val < skCnt 7 b → skDTab r v 7 b k = skCoefD k 7 b r v := by
  skder

set_option maxHeartbeats 4000000 in
theorem skDTab_row8 : ∀ r v : Vec, r 0 ^ 2 + r 1 ^ 2 + r 2 ^ 2 = 1 →
    r 0 * v 0 + r 1 * v 1 + r 2 * v 2 = 0 → ∀ b : Fin 9, 8 ≤ b → ∀ k : Fin 3,
    k.val < skCnt 8 b → skDTab r v 8 b k = skCoefD k 8 b r v := by
  skder

theorem skDTab_spec (r v : Vec) (hr : r 0 ^ 2 + r 1 ^ 2 + r 2 ^ 2 = 1)
    (hv : r 0 * v 0 + r 1 * v 1 + r 2 * v 2 = 0) (a b : Fin 9) (hab : a ≤ b) (k : Fin 3)
    (hk : k.val < skCnt a b) : skDTab r v a b k = skCoefD k a b r v := by
  fin_cases a
  · exact skDTab_row0 r v hr hv b hab k hk
  · exact skDTab_row1 r v hr hv b hab k hk
  · exact skDTab_row2 r v hr hv b hab k hk
  · exact skDTab_row3 r v hr hv b hab k hk
  · exact skDTab_row4 r v hr hv b hab k hk
  · exact skDTab_row5 r v hr hv b hab k hk
  · exact skDTab_row6 r v hr hv b hab k hk
  · exact skDTab_row7 r v hr hv b hab k hk
  · exact skDTab_row8 r v hr hv b hab k hk

end Hotbit
