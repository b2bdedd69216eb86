import Verif.Model.Atoms
import Verif.Lemmas.Containers

/-! Helper lemmas about `hotbit/atoms.py`. -/

namespace Hotbit

open Real Matrix

theorem mapM_ok_of_forall {α β ε : Type} (f : α → Except ε β) (g : α → β) (l : List α)
    (h : ∀ a ∈ l, f a = .ok (g a)) : l.mapM f = .ok (l.map g) := by
  induction l with
  | nil => rfl
  | cons a l ih =>
    rw [List.mapM_cons, h a (by simp), ih (fun b hb => h b (by simp [hb]))]
    rfl

theorem mem_arange (a b z : ℤ) : z ∈ arange a b ↔ a ≤ z ∧ z < b := by
  simp only [arange, List.mem_map, List.mem_range]
  constructor
  · rintro ⟨k, hk, rfl⟩; omega
  · intro h; exact ⟨(z - a).toNat, by omega, by omega⟩

theorem arange_sorted (a b : ℤ) : (arange a b).Pairwise (· < ·) := by
  unfold arange
  rw [List.pairwise_map]
  exact List.pairwise_lt_range.imp (by intro x y h; omega)

theorem setEntry_same (cell : Mat) (i j : Fin 3) (v : ℝ) : setEntry cell i j v i j = v := by
  simp [setEntry]

theorem setEntry_other (cell : Mat) (i j a b : Fin 3) (v : ℝ) (h : ¬ (a = i ∧ b = j)) :
    setEntry cell i j v a b = cell a b := by
  simp [setEntry, h]

end Hotbit
