import Verif.Model.GroundState
import Verif.Lemmas.TotalPath

/-!
# The self-consistency cycle with damping
-/

namespace Hotbit

/-- The array of `n` charges. -/
def vecOf (n : ℕ) (l : List ℝ) : QVec n := fun i => l.getD i 0

/-- A mixer for arrays of `n` charges, as `get_states` calls it. -/
def listMixer {n : ℕ} (call : MixerState n → QVec n → QVec n → Bool × QVec n × MixerState n)
    (s : MixerState n) (xi yi : List ℝ) : Bool × List ℝ × MixerState n :=
  let r := call s (vecOf n xi) (vecOf n yi)
  (r.1, List.ofFn r.2.1, r.2.2)

/-- A sum over the overlaps of the orbitals; one per orbital and k-point for orthogonal orbitals. -/
noncomputable def popScale {n nk : ℕ} (wk : Fin nk → ℝ) (S : Fin nk → CMat n) : ℝ :=
  (∑ k, wk k) * ∑ k, ∑ x, ‖(S k)⁻¹ x x‖ * ‖S k x x‖

variable {P : ScfIn}

/-- A bound for how easily charges move: in units of `2/width`, charges follow the potential no faster. -/
noncomputable def softness (x : Setup P) : ℝ := P.t.norb ^ 2 * popScale P.wk x.S + 1

/-- A bound for the interaction of the charges. -/
noncomputable def stiffness (P : ScfIn) (A : Atoms) : ℝ :=
  ∑ i : Fin A.positions.length, ∑ j : Fin A.positions.length, |gam P.cd P.bohr P.U P.w P.gcut A i j|

/-- How far occupations can be from the exact ones if their sum is within `1e-10` of the number of
electrons. (Those where the exponential overflows are less than `1e-20`.) -/
noncomputable def occNoise (P : ScfIn) : ℝ :=
  (1e-10 + 1e-20 * (P.t.norb * ∑ k, P.wk k)) * (∑ k, 1 / P.wk k) + 1e-20

/-- How far charges can be from the exact ones, because of `occNoise`. -/
noncomputable def chargeNoise (x : Setup P) : ℝ :=
  √(P.t.norb ^ 2 * (popScale P.wk x.S * (P.t.norb * (∑ k, P.wk k) * occNoise P ^ 2)))

/-- Mixing is slow enough for the structure, and the limit of convergence is not below the rounding of the
occupations. -/
structure SlowMixing (A : Atoms) (x : Setup P) (p : MixerParams) : Prop where
  beta : 0 < p.beta ∧ p.beta < 1
  slow : stiffness P A * softness x * p.beta ≤ (1 - p.beta) * P.width
  limit : (4 * stiffness P A * softness x / P.width + 2) * chargeNoise x / p.beta < p.convergence

end Hotbit
