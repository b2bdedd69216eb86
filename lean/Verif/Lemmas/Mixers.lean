import Verif.Model.Mixers
import Mathlib.Algebra.BigOperators.Field
import Mathlib.Algebra.BigOperators.Module
import Mathlib.Algebra.BigOperators.Pi
import Mathlib.Data.List.GetD

/-! Helper lemmas about charge mixers. -/

namespace Hotbit

variable {n : ℕ}

theorem foldr_max_le (l : List ℝ) (c : ℝ) (hc : 0 ≤ c) :
    l.foldr max 0 ≤ c ↔ ∀ x ∈ l, x ≤ c := by
  induction l with
  | nil => simpa using hc
  | cons a l ih => simp [ih]

theorem foldr_max_lt (l : List ℝ) (c : ℝ) (hc : 0 < c) :
    l.foldr max 0 < c ↔ ∀ x ∈ l, x < c := by
  induction l with
  | nil => simpa using hc
  | cons a l ih => simp [ih]

theorem maxAbs_nonneg (v : QVec n) : 0 ≤ maxAbs v := by
  unfold maxAbs
  induction (List.ofFn fun i => |v i|) with
  | nil => simp
  | cons a l ih => simp [ih]

theorem maxAbs_le (v : QVec n) (c : ℝ) (hc : 0 ≤ c) : maxAbs v ≤ c ↔ ∀ i, |v i| ≤ c := by
  unfold maxAbs
  rw [foldr_max_le _ _ hc]
  simp [List.mem_ofFn]

theorem maxAbs_lt (v : QVec n) (c : ℝ) (hc : 0 < c) : maxAbs v < c ↔ ∀ i, |v i| < c := by
  unfold maxAbs
  rw [foldr_max_lt _ _ hc]
  simp [List.mem_ofFn]

theorem abs_le_maxAbs (v : QVec n) (i : Fin n) : |v i| ≤ maxAbs v :=
  (maxAbs_le v _ (maxAbs_nonneg v)).1 le_rfl i

/-- Total charge. -/
def total (v : QVec n) : ℝ := ∑ i, v i

theorem total_add (a b : QVec n) : total (a + b) = total a + total b := by
  simp [total, Finset.sum_add_distrib]

theorem total_sub (a b : QVec n) : total (a - b) = total a - total b := by
  simp [total, Finset.sum_sub_distrib]

theorem total_smul (c : ℝ) (a : QVec n) : total (c • a) = c * total a := by
  simp [total, Finset.mul_sum]

theorem total_zero : total (0 : QVec n) = 0 := by simp [total]

theorem total_sum {m : ℕ} (f : Fin m → QVec n) : total (∑ j, f j) = ∑ j, total (f j) := by
  simp only [total, Finset.sum_apply]
  exact Finset.sum_comm

theorem total_simpleMix (p : MixerParams) (xi yi : QVec n) (Q : ℝ) (hx : total xi = Q)
    (hy : total yi = Q) : total (simpleMix p xi yi) = Q := by
  simp [simpleMix, total_add, total_smul, hx, hy]; ring

theorem total_chopStep (p : MixerParams) (xi xb : QVec n) (Q : ℝ) (hx : total xi = Q)
    (hb : total xb = Q) : total (chopStep p xi xb) = Q := by
  unfold chopStep
  split
  · exact hb
  · split
    · rw [total_add, total_smul, total_sub, hx, hb]; ring
    · exact hb

/-- Invariant of a mixer's history after calls whose vectors all total `Q`. -/
structure HistInv (p : MixerParams) (Q : ℝ) (s : MixerState n) : Prop where
  lenF : s.F.length = min s.it p.memory
  lenX : s.x.length = min s.it p.memory
  totF : ∀ f ∈ s.F, total f = 0
  totX : ∀ x ∈ s.x, total x = Q

theorem HistInv.init (p : MixerParams) (Q : ℝ) : HistInv p Q (MixerState.reset : MixerState n) :=
  ⟨by simp [MixerState.reset], by simp [MixerState.reset], by simp [MixerState.reset],
    by simp [MixerState.reset]⟩

theorem HistInv.push {p : MixerParams} {Q : ℝ} {s : MixerState n} (h : HistInv p Q s)
    (xi yi : QVec n) (hx : total xi = Q) (hy : total yi = Q) (fm : List ℝ) :
    HistInv p Q ⟨s.it + 1, ((yi - xi) :: s.F).take p.memory, (xi :: s.x).take p.memory, fm⟩ := by
  refine ⟨?_, ?_, ?_, ?_⟩
  · simp [h.lenF]; omega
  · simp [h.lenX]; omega
  · intro f hf
    rcases List.mem_cons.1 (List.mem_of_mem_take hf) with rfl | hf
    · rw [total_sub, hx, hy, sub_self]
    · exact h.totF f hf
  · intro x hx'
    rcases List.mem_cons.1 (List.mem_of_mem_take hx') with rfl | hx'
    · exact hx
    · exact h.totX x hx'

theorem getD_mem {α : Type} (l : List α) (i : ℕ) (d : α) (h : i < l.length) : l.getD i d ∈ l := by
  rw [List.getD_eq_getElem _ _ h]
  exact List.getElem_mem h

end Hotbit
