import Verif.Spec.Nanotube
import Verif.Lemmas.SystemsRibbon
import Verif.Props.Helpers

/-!
# Lemmas on nanotubes
-/

namespace Hotbit

open Real

theorem tubeDR_nat (n m : ℕ) : tubeDR n m = Int.gcd (2 * n + m) (n + 2 * m) := by
  unfold tubeDR
  by_cases hnm : n = m
  · subst hnm
    rw [if_pos rfl, show (2 * (n : ℤ) + n) = 3 * n by ring, show ((n : ℤ) + 2 * n) = 3 * n by ring, Int.gcd_self]
    omega
  · rw [if_neg (by exact_mod_cast hnm), c51_gcd_nonneg _ _ (by positivity) (by positivity)]
    have hd : 0 < Int.gcd n m := by
      apply Int.gcd_pos_iff.2
      omega
    obtain ⟨n', m', hco, hn, hm⟩ := Int.exists_gcd_one hd
    generalize hdd : Int.gcd n m = d at *
    have hd0 : (0 : ℤ) < d := by exact_mod_cast hd
    have hg : Int.gcd (2 * (n : ℤ) + m) (n + 2 * m) = d * Int.gcd (2 * n' + m') (n' + 2 * m') := by
      rw [hn, hm, show 2 * (n' * (d : ℤ)) + m' * d = d * (2 * n' + m') by ring, show n' * (d : ℤ) + 2 * (m' * d) = d * (n' + 2 * m') by ring,
        Int.gcd_mul_left]
      simp
    have hg3 : (Int.gcd (2 * n' + m') (n' + 2 * m') : ℤ) ∣ 3 := by
      have h1 := Int.gcd_dvd_left (2 * n' + m') (n' + 2 * m')
      have h2 := Int.gcd_dvd_right (2 * n' + m') (n' + 2 * m')
      have h3 : (Int.gcd (2 * n' + m') (n' + 2 * m') : ℤ) ∣ 3 * n' := by
        have := dvd_sub (h1.mul_left 2) h2
        rwa [show 2 * (2 * n' + m') - (n' + 2 * m') = 3 * n' by ring] at this
      have h4 : (Int.gcd (2 * n' + m') (n' + 2 * m') : ℤ) ∣ 3 * m' := by
        have := dvd_sub (h2.mul_left 2) h1
        rwa [show 2 * (n' + 2 * m') - (2 * n' + m') = 3 * m' by ring] at this
      have h5 := Int.dvd_coe_gcd h3 h4
      rw [Int.gcd_mul_left, hco] at h5
      simpa using h5
    rw [hg]
    have hcond : (if 3 * (d : ℤ) = 0 then 0 else ((n : ℤ) - m).fmod (3 * d)) = 0 ↔ (3 : ℤ) ∣ n' - m' := by
      rw [if_neg (by omega), ← Int.dvd_iff_fmod_eq_zero, hn, hm, show n' * (d : ℤ) - m' * d = (n' - m') * d by ring]
      exact Int.mul_dvd_mul_iff_right hd0.ne'
    have h3 : (3 : ℤ) ∣ n' - m' ↔ Int.gcd (2 * n' + m') (n' + 2 * m') = 3 := by
      constructor
      · intro h
        have h1 : (3 : ℤ) ∣ 2 * n' + m' := by omega
        have h2 : (3 : ℤ) ∣ n' + 2 * m' := by omega
        have h5 := Int.dvd_coe_gcd h1 h2
        have : Int.gcd (2 * n' + m') (n' + 2 * m') ∣ 3 := by exact_mod_cast hg3
        have h6 : 3 ∣ Int.gcd (2 * n' + m') (n' + 2 * m') := by exact_mod_cast h5
        exact Nat.dvd_antisymm this h6
      · intro h
        have h1 := Int.gcd_dvd_left (2 * n' + m') (n' + 2 * m')
        rw [h] at h1
        push_cast at h1
        omega
    have h13 : Int.gcd (2 * n' + m') (n' + 2 * m') = 1 ∨ Int.gcd (2 * n' + m') (n' + 2 * m') = 3 := by
      have : Int.gcd (2 * n' + m') (n' + 2 * m') ∣ 3 := by exact_mod_cast hg3
      exact (Nat.dvd_prime Nat.prime_three).1 this
    by_cases hc : (3 : ℤ) ∣ n' - m'
    · rw [if_pos (hcond.2 hc), h3.1 hc]
      push_cast; ring
    · rw [if_neg (fun h => hc (hcond.1 h))]
      rcases h13 with h | h
      · rw [h]; simp
      · exact absurd (h3.2 h) hc

theorem tubeDR_pos {n m : ℕ} (h : 1 ≤ n + m) : 0 < tubeDR n m := by
  rw [tubeDR_nat]
  have : 0 < Int.gcd (2 * (n : ℤ) + m) (n + 2 * m) := Int.gcd_pos_iff.2 (by omega)
  exact_mod_cast this

theorem dot2_chiral {R : ℝ} {e1 e2 : ℝ × ℝ} (h : Primitive R e1 e2) (n m u w : ℤ) :
    dot2 (chiralVec e1 e2 n m) (chiralVec e1 e2 u w) = 1.5 * R ^ 2 * ((u * (2 * n + m) + w * (n + 2 * m) : ℤ) : ℝ) := by
  obtain ⟨h1, h2, h3⟩ := h
  have : dot2 (chiralVec e1 e2 n m) (chiralVec e1 e2 u w) =
      n * u * dot2 e1 e1 + (n * w + m * u) * dot2 e1 e2 + m * w * dot2 e2 e2 := by
    unfold dot2 chiralVec
    simp only [Prod.fst_add, Prod.snd_add, Prod.smul_fst, Prod.smul_snd, smul_eq_mul]
    ring
  rw [this, h1, h2, h3]
  push_cast
  ring

theorem dot2_self_chiral {R : ℝ} {e1 e2 : ℝ × ℝ} (h : Primitive R e1 e2) (n m : ℤ) :
    dot2 (chiralVec e1 e2 n m) (chiralVec e1 e2 n m) = 3 * R ^ 2 * ((n : ℝ) ^ 2 + (m : ℝ) ^ 2 + n * m) := by
  rw [dot2_chiral h]
  push_cast
  ring

theorem len2_chiral {R : ℝ} (hR : 0 < R) {e1 e2 : ℝ × ℝ} (h : Primitive R e1 e2) (n m : ℤ) :
    len2 (chiralVec e1 e2 n m) = √3 * R * √((n : ℝ) ^ 2 + (m : ℝ) ^ 2 + n * m) := by
  unfold len2
  rw [dot2_self_chiral h, show 3 * R ^ 2 * ((n : ℝ) ^ 2 + (m : ℝ) ^ 2 + n * m) = (3 * ((n : ℝ) ^ 2 + (m : ℝ) ^ 2 + n * m)) * R ^ 2 by ring,
    Real.sqrt_mul' _ (by positivity), Real.sqrt_sq hR.le, Real.sqrt_mul (by norm_num)]
  ring

theorem norm_pos {n m : ℕ} (h : 1 ≤ n + m) : (0 : ℝ) < ((n : ℤ) : ℝ) ^ 2 + ((m : ℤ) : ℝ) ^ 2 + ((n : ℤ) : ℝ) * ((m : ℤ) : ℝ) := by
  have h1 : (0 : ℝ) ≤ (n : ℝ) * m := by positivity
  have h2 : 1 ≤ n ∨ 1 ≤ m := by omega
  push_cast
  rcases h2 with h2 | h2
  · have : (1 : ℝ) ≤ n := by exact_mod_cast h2
    nlinarith [sq_nonneg (m : ℝ)]
  · have : (1 : ℝ) ≤ m := by exact_mod_cast h2
    nlinarith [sq_nonneg (n : ℝ)]

/-- The lattice vectors across `(n,m)` are the multiples of one. -/
theorem across {n m : ℕ} (h : 1 ≤ n + m) : ∃ A B : ℤ, 2 * (n : ℤ) + m = tubeDR n m * A ∧ (n : ℤ) + 2 * m = tubeDR n m * B ∧
    ∀ u w : ℤ, u * (2 * (n : ℤ) + m) + w * (n + 2 * m) = 0 ↔ ∃ k, u = k * B ∧ w = -(k * A) := by
  have hg := tubeDR_pos h
  have hg' := tubeDR_nat n m
  have hgp : 0 < Int.gcd (2 * (n : ℤ) + m) (n + 2 * m) := by
    have := hg
    rw [hg'] at this
    exact_mod_cast this
  obtain ⟨A, B, hco, hA, hB⟩ := Int.exists_gcd_one hgp
  rw [← hg'] at hA hB
  refine ⟨A, B, by linarith [mul_comm A (tubeDR n m)], by linarith [mul_comm B (tubeDR n m)], ?_⟩
  intro u w
  constructor
  · intro h0
    rw [hA, hB] at h0
    have h1 : tubeDR n m * (u * A + w * B) = 0 := by linear_combination h0
    have h2 : u * A + w * B = 0 := by
      rcases mul_eq_zero.1 h1 with h | h
      · omega
      · exact h
    have hBu : B ∣ u := by
      have : B ∣ u * A := ⟨-w, by linear_combination h2⟩
      exact IsCoprime.dvd_of_dvd_mul_right (Int.isCoprime_iff_gcd_eq_one.2 (by rw [Int.gcd_comm]; exact hco)) this
    by_cases hB0 : B = 0
    · subst hB0
      have hAu : A = 1 ∨ A = -1 := by
        have : A.natAbs = 1 := by simpa using hco
        omega
      obtain ⟨k, hk⟩ := hBu
      have hu : u = 0 := by simpa using hk
      rcases hAu with rfl | rfl
      · exact ⟨-w, by simp [hu], by ring⟩
      · exact ⟨w, by simp [hu], by ring⟩
    · obtain ⟨k, rfl⟩ := hBu
      refine ⟨k, by ring, ?_⟩
      have : B * (k * A + w) = 0 := by linear_combination h2
      rcases mul_eq_zero.1 this with h | h
      · exact absurd h hB0
      · linarith
  · rintro ⟨k, rfl, rfl⟩
    rw [hA, hB]
    ring

end Hotbit
