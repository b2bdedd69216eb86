import Verif.Lemmas.Nanotube
import Mathlib.Analysis.SpecialFunctions.Trigonometric.Arctan
import Mathlib.Analysis.Complex.Basic

/-!
# C114: data of nanotubes
-/

namespace Hotbit

open Real

/-- **C114.** `nanotube_data(n,m,R)` describes the tube rolled up along the vector `C = n e1 + m e2` of a honeycomb: `C` is its length
and the circumference; `T` is the length of the shortest translation of the lattice across `C`; there are as many hexagons in a unit as
primitive cells in the rectangle of `C` and `T`; `angle` is the angle between `C` and `e1`. -/
theorem c114_data {n m : ℕ} (h : 1 ≤ n + m) {R : ℝ} (hR : 0 < R) {e1 e2 : ℝ × ℝ} (he : Primitive R e1 e2) :
    ∃ d, nanotubeData n m R = .ok d ∧ d.a = len2 e1 ∧
      d.C = len2 (chiralVec e1 e2 n m) ∧ 2 * π * d.radius = d.C ∧ d.diameter = 2 * d.radius ∧
      0 < d.T ∧ (∃ u w : ℤ, dot2 (chiralVec e1 e2 n m) (chiralVec e1 e2 u w) = 0 ∧ len2 (chiralVec e1 e2 u w) = d.T) ∧
      (∀ u w : ℤ, dot2 (chiralVec e1 e2 n m) (chiralVec e1 e2 u w) = 0 → ¬ (u = 0 ∧ w = 0) → d.T ≤ len2 (chiralVec e1 e2 u w)) ∧
      (d.hexagons : ℝ) * |e1.1 * e2.2 - e1.2 * e2.1| = d.C * d.T ∧
      0 ≤ d.angle ∧ d.angle ≤ π / 3 ∧ dot2 (chiralVec e1 e2 n m) e1 = len2 (chiralVec e1 e2 n m) * len2 e1 * cos d.angle := by
  have h3 := sqrt3_pos
  have hg := tubeDR_pos h
  have hgr : (0 : ℝ) < (tubeDR n m : ℝ) := by exact_mod_cast hg
  have hN := norm_pos h
  have hsN := Real.sqrt_pos.2 hN
  obtain ⟨A, B, hA, hB, hac⟩ := across h
  have hm2 : ¬ ((m : ℤ) + 2 * n = 0) := by omega
  unfold nanotubeData
  simp only
  rw [if_neg hg.ne', if_neg hm2]
  have hAr : 2 * (n : ℝ) + m = tubeDR n m * A := by exact_mod_cast hA
  have hBr : (n : ℝ) + 2 * m = tubeDR n m * B := by exact_mod_cast hB
  have hT : ∀ k : ℤ, len2 (chiralVec e1 e2 (k * B) (-(k * A))) =
      |(k : ℝ)| * (3 * R * √(((n : ℤ) : ℝ) ^ 2 + ((m : ℤ) : ℝ) ^ 2 + ((n : ℤ) : ℝ) * ((m : ℤ) : ℝ)) / (tubeDR n m : ℝ)) := by
    intro k
    rw [len2_chiral hR he]
    have e : (((k * B : ℤ) : ℝ) ^ 2 + ((-(k * A) : ℤ) : ℝ) ^ 2 + ((k * B : ℤ) : ℝ) * ((-(k * A) : ℤ) : ℝ)) =
        (((k : ℝ)) ^ 2 / (tubeDR n m : ℝ) ^ 2) * (3 * (((n : ℤ) : ℝ) ^ 2 + ((m : ℤ) : ℝ) ^ 2 + ((n : ℤ) : ℝ) * ((m : ℤ) : ℝ))) := by
      push_cast
      have e1 : (A : ℝ) = (2 * n + m) / tubeDR n m := by rw [hAr]; field_simp
      have e2 : (B : ℝ) = (n + 2 * m) / tubeDR n m := by rw [hBr]; field_simp
      rw [e1, e2]
      field_simp
      ring
    rw [e, Real.sqrt_mul (by positivity), Real.sqrt_div' _ (by positivity), Real.sqrt_sq hgr.le, Real.sqrt_sq_eq_abs,
      Real.sqrt_mul (by norm_num)]
    rw [show √3 * R * (|(k : ℝ)| / (tubeDR n m : ℝ) * (√3 * √(((n : ℤ) : ℝ) ^ 2 + ((m : ℤ) : ℝ) ^ 2 + ((n : ℤ) : ℝ) * ((m : ℤ) : ℝ)))) =
      |(k : ℝ)| * ((√3 * √3) * R * √(((n : ℤ) : ℝ) ^ 2 + ((m : ℤ) : ℝ) ^ 2 + ((n : ℤ) : ℝ) * ((m : ℤ) : ℝ)) / (tubeDR n m : ℝ)) by ring, sq3]
  have hT0 : 0 < 3 * R * √(((n : ℤ) : ℝ) ^ 2 + ((m : ℤ) : ℝ) ^ 2 + ((n : ℤ) : ℝ) * ((m : ℤ) : ℝ)) / (tubeDR n m : ℝ) := by positivity
  have hperp : ∀ u w : ℤ, dot2 (chiralVec e1 e2 n m) (chiralVec e1 e2 u w) = 0 ↔ u * (2 * (n : ℤ) + m) + w * (n + 2 * m) = 0 := by
    intro u w
    rw [dot2_chiral he]
    constructor
    · intro h0
      rcases mul_eq_zero.1 h0 with h | h
      · exfalso
        have : (0 : ℝ) < 1.5 * R ^ 2 := by positivity
        linarith
      · exact_mod_cast h
    · intro h0
      rw [h0]; simp
  have hpi := Real.pi_pos
  have hle1 : len2 e1 = √3 * R := by
    unfold len2
    rw [he.1, Real.sqrt_mul (by norm_num), Real.sqrt_sq hR.le]
  have hhex : pyRound (2 * (((m : ℤ) : ℝ) ^ 2 + ((n : ℤ) : ℝ) ^ 2 + ((m : ℤ) : ℝ) * ((n : ℤ) : ℝ)) / (tubeDR n m : ℝ)) = n * A + m * B := by
    rw [show 2 * (((m : ℤ) : ℝ) ^ 2 + ((n : ℤ) : ℝ) ^ 2 + ((m : ℤ) : ℝ) * ((n : ℤ) : ℝ)) / (tubeDR n m : ℝ) = ((n * A + m * B : ℤ) : ℝ) by
      rw [div_eq_iff hgr.ne']
      push_cast
      linear_combination (n : ℝ) * hAr + (m : ℝ) * hBr]
    exact pyRound_intCast _
  refine ⟨_, rfl, hle1.symm, ?_, ?_, ?_, hT0, ?_, ?_, ?_, ?_, ?_, ?_⟩
  · simp only
    rw [len2_chiral hR he]
    field_simp
  · simp only; ring
  · simp only; ring
  · refine ⟨1 * B, -(1 * A), (hperp _ _).2 ((hac _ _).2 ⟨1, rfl, rfl⟩), ?_⟩
    rw [hT 1]; simp
  · intro u w h0 hne
    obtain ⟨k, rfl, rfl⟩ := (hac u w).1 ((hperp u w).1 h0)
    have hk : k ≠ 0 := by
      rintro rfl
      exact hne ⟨by simp, by simp⟩
    rw [hT k]
    have : (1 : ℝ) ≤ |(k : ℝ)| := by
      have : (1 : ℤ) ≤ |k| := Int.one_le_abs hk
      exact_mod_cast this
    nlinarith
  · simp only
    have harea : |e1.1 * e2.2 - e1.2 * e2.1| = 1.5 * √3 * R ^ 2 := by
      have : (e1.1 * e2.2 - e1.2 * e2.1) ^ 2 = (1.5 * √3 * R ^ 2) ^ 2 := by
        have : (e1.1 * e2.2 - e1.2 * e2.1) ^ 2 = dot2 e1 e1 * dot2 e2 e2 - dot2 e1 e2 ^ 2 := by unfold dot2; ring
        rw [this, he.1, he.2.1, he.2.2]
        have := sq3
        linear_combination (-2.25 * R ^ 4) * this
      rw [← abs_of_pos (show 0 < 1.5 * √3 * R ^ 2 by positivity)]
      exact (sq_eq_sq_iff_abs_eq_abs _ _).1 this
    rw [hhex, harea]
    have hs := Real.mul_self_sqrt hN.le
    have hq : ((n * A + m * B : ℤ) : ℝ) = 2 * (((n : ℤ) : ℝ) ^ 2 + ((m : ℤ) : ℝ) ^ 2 + ((n : ℤ) : ℝ) * ((m : ℤ) : ℝ)) / (tubeDR n m : ℝ) := by
      rw [eq_div_iff hgr.ne']
      push_cast
      linear_combination -(n : ℝ) * hAr - (m : ℝ) * hBr
    rw [hq]
    generalize √(((n : ℤ) : ℝ) ^ 2 + ((m : ℤ) : ℝ) ^ 2 + ((n : ℤ) : ℝ) * ((m : ℤ) : ℝ)) = q at hs ⊢
    rw [← hs]
    field_simp
    norm_num
    ring
  · simp only
    apply Real.arctan_nonneg.2
    positivity
  · simp only
    rw [← Real.arctan_tan (x := π / 3) (by linarith) (by linarith), Real.tan_pi_div_three]
    apply Real.arctan_mono
    rw [div_le_iff₀ (by have : (1 : ℝ) ≤ (m : ℝ) + 2 * n := by exact_mod_cast (by omega : 1 ≤ m + 2 * n)
                        push_cast; linarith)]
    push_cast
    have : (0 : ℝ) ≤ √3 * n := by positivity
    nlinarith
  · simp only
    have h0 : (0 : ℝ) < (m : ℝ) + 2 * n := by
      have : (1 : ℝ) ≤ (m : ℝ) + 2 * n := by exact_mod_cast (by omega : 1 ≤ m + 2 * n)
      linarith
    rw [Real.cos_arctan]
    have hd : dot2 (chiralVec e1 e2 n m) e1 = 1.5 * R ^ 2 * (2 * n + m) := by
      have := dot2_chiral he n m 1 0
      have e : chiralVec e1 e2 1 0 = e1 := by unfold chiralVec; simp
      rw [e] at this
      rw [this]
      push_cast; ring
    rw [hd, len2_chiral hR he, hle1]
    have hs : √(1 + (√3 * ((m : ℤ) : ℝ) / (((m : ℤ) : ℝ) + 2 * ((n : ℤ) : ℝ))) ^ 2) =
        2 * √(((n : ℤ) : ℝ) ^ 2 + ((m : ℤ) : ℝ) ^ 2 + ((n : ℤ) : ℝ) * ((m : ℤ) : ℝ)) / ((m : ℝ) + 2 * n) := by
      rw [show 1 + (√3 * ((m : ℤ) : ℝ) / (((m : ℤ) : ℝ) + 2 * ((n : ℤ) : ℝ))) ^ 2 =
        (2 / ((m : ℝ) + 2 * n)) ^ 2 * (((n : ℤ) : ℝ) ^ 2 + ((m : ℤ) : ℝ) ^ 2 + ((n : ℤ) : ℝ) * ((m : ℤ) : ℝ)) by
          push_cast
          field_simp
          rw [Real.sq_sqrt (by norm_num)]
          ring]
      rw [Real.sqrt_mul (by positivity), Real.sqrt_sq (by positivity)]
      ring
    rw [hs]
    push_cast at hsN ⊢
    field_simp
    rw [show √3 ^ 2 = 3 by rw [Real.sq_sqrt (by norm_num)]]
    ring

/-- Primitive vectors exist. -/
theorem primitive_exists (R : ℝ) : Primitive R (√3 * R, 0) (√3 * R / 2, 1.5 * R) := by
  have := sq3
  unfold Primitive dot2
  refine ⟨?_, ?_, ?_⟩ <;> simp only
  · linear_combination R ^ 2 * this
  · linear_combination R ^ 2 / 4 * this
  · linear_combination R ^ 2 / 2 * this

example : ∃ d, nanotubeData (10 : ℕ) (4 : ℕ) 1.42 = .ok d ∧ 0 < d.T := by
  obtain ⟨d, h, -, -, -, -, h', -⟩ := c114_data (n := 10) (m := 4) (by norm_num) (R := 1.42) (by norm_num) (primitive_exists 1.42)
  exact ⟨d, h, h'⟩

theorem tubeData_ok {n m : ℕ} (h : 1 ≤ n + m) (R : ℝ) : ∃ d, nanotubeData n m R = .ok d ∧ d.metallic = decide (((n : ℤ) - m).fmod 3 = 0) ∧
    d.semiconducting = !d.metallic ∧ d.type = if (n : ℤ) = m then .armchair else if (n : ℤ) = 0 ∨ (m : ℤ) = 0 then .zigzag else .chiral := by
  have hm2 : ¬ ((m : ℤ) + 2 * n = 0) := by omega
  unfold nanotubeData
  simp only
  rw [if_neg (tubeDR_pos h).ne', if_neg hm2]
  exact ⟨_, rfl, rfl, rfl, rfl⟩

/-- Two unit numbers with `1 + z + w = 0` are the two cube roots of one. -/
theorem cube_roots {z w : ℂ} (hz : ‖z‖ = 1) (hw : ‖w‖ = 1) (h : 1 + z + w = 0) : z ^ 2 + z + 1 = 0 ∧ w = z ^ 2 := by
  have hzr : z.re ^ 2 + z.im ^ 2 = 1 := by
    have := Complex.sq_norm z
    rw [hz, Complex.normSq_apply] at this
    nlinarith
  have hwr : w.re ^ 2 + w.im ^ 2 = 1 := by
    have := Complex.sq_norm w
    rw [hw, Complex.normSq_apply] at this
    nlinarith
  have h1 := congrArg Complex.re h
  have h2 := congrArg Complex.im h
  simp at h1 h2
  have hw1 : w.re = -1 - z.re := by linarith
  have hw2 : w.im = -z.im := by linarith
  rw [hw1, hw2] at hwr
  have hre : z.re = -1 / 2 := by nlinarith
  have key : z ^ 2 + z + 1 = 0 := by
    apply Complex.ext
    · simp [pow_two]
      nlinarith
    · simp [pow_two]
      rw [hre]; ring
  refine ⟨key, ?_⟩
  linear_combination h - key

/-- **C114.** A tube is reported as metallic exactly if the electrons of a single orbital per atom with equal hoppings to the three
neighbours have a state at zero energy on the tube: there are phases `z`, `w` along the primitive vectors that are periodic around the tube
and for which the hopping vanishes. -/
theorem c114_metallic {n m : ℕ} (h : 1 ≤ n + m) (R : ℝ) : ∃ d, nanotubeData n m R = .ok d ∧ d.semiconducting = !d.metallic ∧
    (d.metallic = true ↔ ∃ z w : ℂ, ‖z‖ = 1 ∧ ‖w‖ = 1 ∧ 1 + z + w = 0 ∧ z ^ n * w ^ m = 1) := by
  obtain ⟨d, hd, h1, h2, -⟩ := tubeData_ok h R
  refine ⟨d, hd, h2, ?_⟩
  rw [h1, decide_eq_true_iff, ← Int.dvd_iff_fmod_eq_zero]
  have hcube : ∀ z : ℂ, z ^ 2 + z + 1 = 0 → z ^ 3 = 1 := by
    intro z hz
    linear_combination (z - 1) * hz
  constructor
  · intro h3
    let z : ℂ := ⟨-1 / 2, √3 / 2⟩
    have hz : z ^ 2 + z + 1 = 0 := by
      apply Complex.ext
      · simp [pow_two, z]
        have := sq3
        nlinarith
      · simp [pow_two, z]; ring
    have hn : ‖z‖ = 1 := by
      have h := congrArg norm (hcube z hz)
      rw [norm_pow, norm_one] at h
      exact (pow_eq_one_iff_of_nonneg (norm_nonneg z) (by norm_num)).1 h
    refine ⟨z, z ^ 2, hn, by rw [norm_pow, hn]; norm_num, by linear_combination hz, ?_⟩
    obtain ⟨k, hk⟩ : ∃ k : ℕ, n + 2 * m = 3 * k := by
      have : (3 : ℤ) ∣ (n : ℤ) + 2 * m := by omega
      have : 3 ∣ n + 2 * m := by exact_mod_cast this
      exact this
    rw [← pow_mul, ← pow_add, hk, pow_mul, hcube z hz, one_pow]
  · rintro ⟨z, w, hz, hw, h0, h1⟩
    obtain ⟨key, rfl⟩ := cube_roots hz hw h0
    have h3 := hcube z key
    rw [← pow_mul, ← pow_add] at h1
    have hz1 : z ≠ 1 := by
      rintro rfl
      norm_num at key
    have hord : orderOf z = 3 := orderOf_eq_prime h3 hz1
    have : 3 ∣ n + 2 * m := by
      rw [← hord]
      exact orderOf_dvd_of_pow_eq_one h1
    omega

example : ∃ d, nanotubeData (10 : ℕ) (4 : ℕ) 1.42 = .ok d ∧ d.metallic = true := by
  obtain ⟨d, hd, h1, -⟩ := tubeData_ok (n := 10) (m := 4) (by norm_num) 1.42
  exact ⟨d, hd, by rw [h1]; decide⟩

/-- **C114.** A tube is called armchair exactly if some bonds lie around the tube, and zigzag exactly if some lie along it. The bonds of
the honeycomb with primitive vectors `e1`, `e2` are `(e1+e2)/3`, `(e1-2 e2)/3` and `(e2-2 e1)/3`. -/
theorem c114_type {n m : ℕ} (h : 1 ≤ n + m) {R : ℝ} (hR : 0 < R) {e1 e2 : ℝ × ℝ} (he : Primitive R e1 e2) :
    ∃ d, nanotubeData n m R = .ok d ∧
      (d.type = .armchair ↔ ∃ b ∈ [e1 + e2, e1 - (2 : ℝ) • e2, e2 - (2 : ℝ) • e1],
        (chiralVec e1 e2 n m).1 * b.2 - (chiralVec e1 e2 n m).2 * b.1 = 0) ∧
      (d.type = .zigzag ↔ ∃ b ∈ [e1 + e2, e1 - (2 : ℝ) • e2, e2 - (2 : ℝ) • e1], dot2 (chiralVec e1 e2 n m) b = 0) ∧
      (d.type = .chiral ↔ d.type ≠ .armchair ∧ d.type ≠ .zigzag) := by
  obtain ⟨d, hd, -, -, ht⟩ := tubeData_ok h R
  have hR2 : (0 : ℝ) < R ^ 2 := by positivity
  have hnm : (1 : ℝ) ≤ (n : ℝ) + m := by exact_mod_cast h
  have hn0 : (0 : ℝ) ≤ n := by positivity
  have hm0 : (0 : ℝ) ≤ m := by positivity
  have harea : e1.1 * e2.2 - e1.2 * e2.1 ≠ 0 := by
    intro h0
    have : (e1.1 * e2.2 - e1.2 * e2.1) ^ 2 = dot2 e1 e1 * dot2 e2 e2 - dot2 e1 e2 ^ 2 := by unfold dot2; ring
    rw [h0, he.1, he.2.1, he.2.2] at this
    have h4 : (0 : ℝ) < R ^ 4 := by positivity
    nlinarith
  have hcr : ∀ u w : ℝ, (chiralVec e1 e2 n m).1 * (u • e1 + w • e2).2 - (chiralVec e1 e2 n m).2 * (u • e1 + w • e2).1 =
      (n * w - m * u) * (e1.1 * e2.2 - e1.2 * e2.1) := by
    intro u w
    unfold chiralVec
    simp only [Prod.fst_add, Prod.snd_add, Prod.smul_fst, Prod.smul_snd, smul_eq_mul]
    push_cast
    ring
  have hb1 : e1 + e2 = (1 : ℝ) • e1 + (1 : ℝ) • e2 := by simp
  have hb2 : e1 - (2 : ℝ) • e2 = (1 : ℝ) • e1 + (-2 : ℝ) • e2 := by simp [sub_eq_add_neg]
  have hb3 : e2 - (2 : ℝ) • e1 = (-2 : ℝ) • e1 + (1 : ℝ) • e2 := by simp [sub_eq_add_neg, add_comm]
  have hdo : ∀ u w : ℤ, dot2 (chiralVec e1 e2 n m) ((u : ℝ) • e1 + (w : ℝ) • e2) = 0 ↔ u * (2 * (n : ℤ) + m) + w * (n + 2 * m) = 0 := by
    intro u w
    have := dot2_chiral he n m u w
    rw [show (u : ℝ) • e1 + (w : ℝ) • e2 = chiralVec e1 e2 u w from rfl, this]
    constructor
    · intro h0
      rcases mul_eq_zero.1 h0 with h | h
      · exfalso; linarith
      · exact_mod_cast h
    · intro h0; rw [h0]; simp
  refine ⟨d, hd, ?_, ?_, ?_⟩
  · rw [ht]
    simp only [List.mem_cons, List.not_mem_nil, or_false, exists_eq_or_imp, exists_eq_left, hb1, hb2, hb3, hcr, mul_eq_zero, harea]
    constructor
    · intro h1
      left
      by_cases hc : (n : ℤ) = m
      · have : (n : ℝ) = m := by exact_mod_cast hc
        rw [this]; ring
      · rw [if_neg hc] at h1
        split at h1 <;> exact absurd h1 (by decide)
    · rintro (h1 | h1 | h1)
      · have : (n : ℝ) = m := by linarith
        rw [if_pos (by exact_mod_cast this)]
      · exfalso; linarith
      · exfalso; linarith
  · rw [ht]
    have e1' := hdo 1 1
    have e2' := hdo 1 (-2)
    have e3' := hdo (-2) 1
    push_cast at e1' e2' e3'
    simp only [List.mem_cons, List.not_mem_nil, or_false, exists_eq_or_imp, exists_eq_left, hb1, hb2, hb3, e1', e2', e3']
    constructor
    · intro h1
      by_cases hc : (n : ℤ) = m
      · rw [if_pos hc] at h1; exact absurd h1 (by decide)
      · rw [if_neg hc] at h1
        by_cases h0 : (n : ℤ) = 0 ∨ (m : ℤ) = 0
        · omega
        · rw [if_neg h0] at h1; exact absurd h1 (by decide)
    · intro h1
      rw [if_neg (by omega), if_pos (by omega)]
  · cases d.type <;> simp

example : ∃ d, nanotubeData (7 : ℕ) (0 : ℕ) 1.42 = .ok d ∧ d.type = .zigzag := by
  obtain ⟨d, hd, -, -, ht⟩ := tubeData_ok (n := 7) (m := 0) (by norm_num) 1.42
  exact ⟨d, hd, by rw [ht]; decide⟩

/-- **C114.** There is no tube `(0,0)`. -/
theorem c114_none (R : ℝ) : nanotubeData 0 0 R = .error .zeroDivisionError := by
  unfold nanotubeData tubeDR
  simp

end Hotbit
