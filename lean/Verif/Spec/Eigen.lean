import Verif.Model.Density

/-!
# What the states of a Hamiltonian are
-/

namespace Hotbit

/-- The rows of `wf` are all the states of the Hamiltonian `H` in a basis of overlap `S`: energies
ascending, states orthonormal, `H ψ = e S ψ`. -/
structure AreStates {n : ℕ} (H S : CMat n) (e : Fin n → ℝ) (wf : CMat n) : Prop where
  ascending : Monotone e
  orthonormal : ∀ a b, ∑ i, ∑ j, (starRingEnd ℂ) (wf a i) * S i j * wf b j = if a = b then 1 else 0
  solve : ∀ a i, ∑ j, H i j * wf a j = e a * ∑ j, S i j * wf a j

/-- Orthonormal solutions of `H c = e S c`, in any order. -/
structure Solutions {n : ℕ} (H S : CMat n) (e : Fin n → ℝ) (wf : CMat n) : Prop where
  orthonormal : ∀ a b, ∑ i, ∑ j, (starRingEnd ℂ) (wf a i) * S i j * wf b j = if a = b then 1 else 0
  solve : ∀ a i, ∑ j, H i j * wf a j = e a * ∑ j, S i j * wf a j

end Hotbit
