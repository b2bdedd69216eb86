import Verif.Lemmas.NanotubeRoll
import Verif.Props.Nanotube

/-!
# Lemmas on `nanotube`
-/

namespace Hotbit

open Real

noncomputable def ta1 (R : ℝ) : ℝ × ℝ := (√3 / 2 * R * √3, 0.5 * R * √3)
noncomputable def ta2 (R : ℝ) : ℝ × ℝ := (√3 / 2 * R * √3, -0.5 * R * √3)

/-- A point of the plane in `nanotube`. -/
noncomputable def tpt (R : ℝ) (x y : ℤ) (b : ℕ) : ℝ × ℝ :=
  ((x : ℝ) + ((b : ℝ) / 3 - 0.01)) • ta1 R + ((y : ℝ) + ((b : ℝ) / 3 - 0.01)) • ta2 R

theorem tpt_val (R : ℝ) (x y : ℤ) (b : ℕ) :
    tpt R x y b = (1.5 * R * (x + y) + b * R - 0.03 * R, √3 / 2 * R * (x - y)) := by
  have := sq3
  unfold tpt ta1 ta2
  ext
  · simp only [Prod.fst_add, Prod.smul_fst, smul_eq_mul]
    linear_combination (R / 2 * ((x : ℝ) + y + 2 * b / 3 - 0.02)) * this
  · simp only [Prod.snd_add, Prod.smul_snd, smul_eq_mul]
    ring

def honeyT (R : ℝ) : Set (ℝ × ℝ) := {p | ∃ x y : ℤ, ∃ b : ℕ, (b = 1 ∨ b = 2) ∧ p = tpt R x y b}

theorem honeyT_honeycomb {R : ℝ} (hR : 0 < R) : Honeycomb R (honeyT R) := by
  have h := (honey1_honeycomb hR).map (fun p => (p.1 + 0.97 * R, p.2)) (by intro p q; unfold d2; ring)
  convert h using 1
  ext q
  constructor
  · rintro ⟨x, y, b, rfl | rfl, rfl⟩
    · refine ⟨_, ⟨-y, x + y, Or.inl rfl⟩, ?_⟩
      rw [tpt_val]
      ext <;> (simp only; push_cast; ring)
    · refine ⟨_, ⟨-y, x + y, Or.inr rfl⟩, ?_⟩
      rw [tpt_val]
      ext <;> (simp only; push_cast; ring)
  · rintro ⟨_, ⟨i, j, rfl | rfl⟩, rfl⟩
    · refine ⟨i + j, -i, 1, Or.inl rfl, ?_⟩
      rw [tpt_val]
      ext <;> (simp only; push_cast; ring)
    · refine ⟨i + j, -i, 2, Or.inr rfl, ?_⟩
      rw [tpt_val]
      ext <;> (simp only; push_cast; ring)

theorem tpt_add (R : ℝ) (x y u w : ℤ) (b : ℕ) : tpt R x y b + chiralVec (ta1 R) (ta2 R) u w = tpt R (x + u) (y + w) b := by
  unfold tpt chiralVec
  push_cast
  simp only [add_smul]
  abel

theorem honeyT_add {R : ℝ} (u w : ℤ) (p : ℝ × ℝ) : p + chiralVec (ta1 R) (ta2 R) u w ∈ honeyT R ↔ p ∈ honeyT R := by
  constructor
  · rintro ⟨x, y, b, hb, h⟩
    refine ⟨x - u, y - w, b, hb, ?_⟩
    have := tpt_add R (x - u) (y - w) u w b
    rw [sub_add_cancel, sub_add_cancel, ← h] at this
    exact (add_right_cancel this).symm
  · rintro ⟨x, y, b, hb, rfl⟩
    exact ⟨x + u, y + w, b, hb, tpt_add R x y u w b⟩

theorem ta_primitive (R : ℝ) : Primitive R (ta1 R) (ta2 R) := by
  have := sq3
  unfold Primitive dot2 ta1 ta2
  refine ⟨?_, ?_, ?_⟩ <;> simp only
  · linear_combination (R ^ 2 / 4 * (√3 * √3 + 3) + R ^ 2 / 4) * this
  · linear_combination (R ^ 2 / 4 * (√3 * √3 + 3) + R ^ 2 / 4) * this
  · linear_combination (R ^ 2 / 4 * (√3 * √3 + 3) - R ^ 2 / 4) * this

theorem tpt_inj {R : ℝ} (hR : 0 < R) {x y x' y' : ℤ} {b b' : ℕ} (hb : b = 1 ∨ b = 2) (hb' : b' = 1 ∨ b' = 2) (h : tpt R x y b = tpt R x' y' b') :
    x = x' ∧ y = y' ∧ b = b' := by
  rw [tpt_val, tpt_val] at h
  have e1 := congrArg Prod.fst h
  have e2 := congrArg Prod.snd h
  simp only at e1 e2
  have h3 := sqrt3_pos
  have f2 : (√3 / 2 * R) * ((x : ℝ) - y) = (√3 / 2 * R) * (x' - y') := by linarith
  have g2 := mul_left_cancel₀ (by positivity) f2
  have f1 : R * (3 * ((x : ℝ) + y) + 2 * b) = R * (3 * ((x' : ℝ) + y') + 2 * b') := by linarith
  have g1 := mul_left_cancel₀ hR.ne' f1
  have k1 : 3 * (x + y) + 2 * (b : ℤ) = 3 * (x' + y') + 2 * b' := by exact_mod_cast g1
  have k2 : x - y = x' - y' := by exact_mod_cast g2
  omega

/-- The divisor used in `nanotube` is that of `nanotube_data`. -/
theorem tubeRR {n m : ℕ} (h : 1 ≤ n + m) : pyGcd n m ≠ 0 ∧
    pyGcd n m * (if (((n : ℝ) - m) / ((3 * pyGcd n m : ℤ) : ℝ)) - pyInt (((n : ℝ) - m) / ((3 * pyGcd n m : ℤ) : ℝ)) = 0 then 3 else 1) = tubeDR n m := by
  classical
  rw [c51_gcd_nonneg _ _ (by positivity) (by positivity)]
  have hd : 0 < Int.gcd n m := by
    apply Int.gcd_pos_iff.2
    omega
  have hd0 : (0 : ℤ) < (Int.gcd n m : ℕ) := by exact_mod_cast hd
  have hdr : (0 : ℝ) < ((Int.gcd n m : ℕ) : ℝ) := by exact_mod_cast hd
  refine ⟨hd0.ne', ?_⟩
  have key : ((((n : ℝ) - m) / ((3 * (Int.gcd n m : ℕ) : ℤ) : ℝ)) - pyInt (((n : ℝ) - m) / ((3 * (Int.gcd n m : ℕ) : ℤ) : ℝ)) = 0) ↔
      (3 * (Int.gcd n m : ℕ) : ℤ) ∣ (n : ℤ) - m := by
    constructor
    · intro e
      refine ⟨pyInt (((n : ℝ) - m) / ((3 * (Int.gcd n m : ℕ) : ℤ) : ℝ)), ?_⟩
      have e' := sub_eq_zero.1 e
      rw [div_eq_iff (by push_cast; positivity)] at e'
      have : (((n : ℤ) - m : ℤ) : ℝ) = ((3 * (Int.gcd n m : ℕ) * pyInt (((n : ℝ) - m) / ((3 * (Int.gcd n m : ℕ) : ℤ) : ℝ)) : ℤ) : ℝ) := by
        rw [Int.cast_mul, mul_comm, ← e']
        push_cast; rfl
      exact_mod_cast this
    · rintro ⟨k, hk⟩
      have : (((n : ℝ) - m) / ((3 * (Int.gcd n m : ℕ) : ℤ) : ℝ)) = (k : ℝ) := by
        rw [div_eq_iff (by push_cast; positivity)]
        have : (((n : ℤ) - m : ℤ) : ℝ) = ((3 * (Int.gcd n m : ℕ) * k : ℤ) : ℝ) := by rw [hk]
        push_cast at this ⊢
        linarith
      rw [this, pyInt_intCast, sub_self]
  unfold tubeDR
  by_cases hnm : n = m
  · subst hnm
    rw [if_pos rfl, if_pos (key.2 (by simp)), Int.gcd_self]
    simp; ring
  · rw [if_neg (show ¬ ((n : ℤ) = m) by exact_mod_cast hnm), c51_gcd_nonneg _ _ (by positivity) (by positivity)]
    simp only
    rw [if_neg (show ¬ (3 * ((Int.gcd n m : ℕ) : ℤ) = 0) by omega)]
    by_cases hc : (3 * (Int.gcd n m : ℕ) : ℤ) ∣ (n : ℤ) - m
    · rw [if_pos (key.2 hc), if_pos ((Int.dvd_iff_fmod_eq_zero).1 hc)]; ring
    · rw [if_neg (fun e => hc (key.1 e)), if_neg (fun e => hc ((Int.dvd_iff_fmod_eq_zero).2 e))]; ring

/-- Coordinates of points with respect to the circumference and the translation. -/
theorem tube_coords {R : ℝ} (hR : 0 < R) {n m : ℕ} (h : 1 ≤ n + m) {A B : ℤ} (hA : 2 * (n : ℤ) + m = tubeDR n m * A)
    (hB : (n : ℤ) + 2 * m = tubeDR n m * B) (X Y : ℝ) :
    dot2 (X • ta1 R + Y • ta2 R) (chiralVec (ta1 R) (ta2 R) n m) / len2 (chiralVec (ta1 R) (ta2 R) n m) ^ 2 = (X * A + Y * B) / (n * A + m * B) ∧
      dot2 (X • ta1 R + Y • ta2 R) (chiralVec (ta1 R) (ta2 R) (-B) A) / len2 (chiralVec (ta1 R) (ta2 R) (-B) A) ^ 2 = (n * Y - m * X) / (n * A + m * B) := by
  have hd := tubeDR_pos h
  have hdr : (0 : ℝ) < (tubeDR n m : ℝ) := by exact_mod_cast hd
  have hN := norm_pos h
  push_cast at hN
  have hp := ta_primitive R
  have hgen : ∀ u w : ℤ, dot2 (X • ta1 R + Y • ta2 R) (chiralVec (ta1 R) (ta2 R) u w) = 1.5 * R ^ 2 * (X * (2 * u + w) + Y * (u + 2 * w)) := by
    intro u w
    have : dot2 (X • ta1 R + Y • ta2 R) (chiralVec (ta1 R) (ta2 R) u w) =
        X * u * dot2 (ta1 R) (ta1 R) + (X * w + Y * u) * dot2 (ta1 R) (ta2 R) + Y * w * dot2 (ta2 R) (ta2 R) := by
      unfold dot2 chiralVec
      simp only [Prod.fst_add, Prod.snd_add, Prod.smul_fst, Prod.smul_snd, smul_eq_mul]
      ring
    rw [this, hp.1, hp.2.1, hp.2.2]
    ring
  have hAr : 2 * (n : ℝ) + m = tubeDR n m * A := by exact_mod_cast hA
  have hBr : (n : ℝ) + 2 * m = tubeDR n m * B := by exact_mod_cast hB
  rw [len2_sq, len2_sq, dot2_self_chiral hp, dot2_self_chiral hp, hgen, hgen]
  have eA : (A : ℝ) = (2 * n + m) / tubeDR n m := by rw [hAr]; field_simp
  have eB : (B : ℝ) = (n + 2 * m) / tubeDR n m := by rw [hBr]; field_simp
  push_cast
  rw [eA, eB]
  generalize (tubeDR n m : ℝ) = d at hdr
  have q1 : (n : ℝ) * ((2 * n + m) / d) + m * ((n + 2 * m) / d) = 2 * ((n : ℝ) ^ 2 + m ^ 2 + n * m) / d := by field_simp; ring
  have q2 : ((-((↑n + 2 * ↑m) / d)) ^ 2 + ((2 * ↑n + ↑m) / d) ^ 2 + -((↑n + 2 * ↑m) / d) * ((2 * ↑n + ↑m) / d) : ℝ) =
      3 * ((n : ℝ) ^ 2 + m ^ 2 + n * m) / d ^ 2 := by field_simp; ring
  rw [q1, q2]
  generalize ((n : ℝ) ^ 2 + m ^ 2 + n * m) = N at hN
  constructor
  · field_simp; norm_num; try ring
  · field_simp; norm_num; try ring

/-- The translation is across the circumference. -/
theorem tube_across {R : ℝ} {n m : ℕ} (h : 1 ≤ n + m) {A B : ℤ} (hA : 2 * (n : ℤ) + m = tubeDR n m * A)
    (hB : (n : ℤ) + 2 * m = tubeDR n m * B) :
    chiralVec (ta1 R) (ta2 R) (-B) A =
      (√3 / (tubeDR n m : ℝ)) • ((chiralVec (ta1 R) (ta2 R) n m).2, -(chiralVec (ta1 R) (ta2 R) n m).1) := by
  have hd := tubeDR_pos h
  have hdr : (0 : ℝ) < (tubeDR n m : ℝ) := by exact_mod_cast hd
  have hAr : 2 * (n : ℝ) + m = tubeDR n m * A := by exact_mod_cast hA
  have hBr : (n : ℝ) + 2 * m = tubeDR n m * B := by exact_mod_cast hB
  have eA : (A : ℝ) = (2 * n + m) / tubeDR n m := by rw [hAr]; field_simp
  have eB : (B : ℝ) = (n + 2 * m) / tubeDR n m := by rw [hBr]; field_simp
  have := sq3
  unfold chiralVec ta1 ta2
  ext
  · simp only [Prod.fst_add, Prod.snd_add, Prod.smul_fst, Prod.smul_snd, smul_eq_mul]
    push_cast
    rw [eA, eB]
    generalize (tubeDR n m : ℝ) = d at hdr
    field_simp
    ring
  · simp only [Prod.fst_add, Prod.snd_add, Prod.smul_fst, Prod.smul_snd, smul_eq_mul]
    push_cast
    rw [eA, eB]
    generalize (tubeDR n m : ℝ) = d at hdr
    generalize √3 = s at this
    field_simp
    linear_combination (R * s * (n + m)) * this

/-- Points of the plane in one unit of the tube. -/
theorem tubePoints_mem {n m : ℕ} {R : ℝ} {c a : ℝ × ℝ} {s : ℝ × ℝ} : s ∈ tubePoints n m (ta1 R) (ta2 R) c a ↔
    ∃ x y : ℤ, ∃ b : ℕ, (b = 1 ∨ b = 2) ∧ (-((max n m : ℕ) + 100 : ℤ) ≤ x ∧ x < (max n m : ℕ) + 100) ∧ (-((max n m : ℕ) + 100 : ℤ) ≤ y ∧ y < (max n m : ℕ) + 100) ∧
      s = (dot2 (tpt R x y b) c / len2 c ^ 2, dot2 (tpt R x y b) a / len2 a ^ 2) ∧ 0 ≤ s.2 ∧ s.2 < 1 - 0.00001 ∧ 0 ≤ s.1 ∧ s.1 < 1 - 0.00001 := by
  unfold tubePoints
  simp only [List.mem_flatMap, List.mem_map, List.mem_range, List.mem_cons, List.not_mem_nil, or_false]
  have hr : ∀ x : ℤ, (∃ i : ℕ, i < (2 * (((max n m : ℕ) : ℤ) + 100)).toNat ∧ (i : ℤ) - (((max n m : ℕ) : ℤ) + 100) = x) ↔
      (-((max n m : ℕ) + 100 : ℤ) ≤ x ∧ x < (max n m : ℕ) + 100) := by
    intro x
    constructor
    · rintro ⟨i, hi, rfl⟩
      omega
    · intro hx
      exact ⟨(x + (((max n m : ℕ) : ℤ) + 100)).toNat, by omega, by omega⟩
  simp only [hr]
  have e1 : ((1 / 3 - 0.01 : ℝ)) = ((1 : ℕ) : ℝ) / 3 - 0.01 := by norm_num
  have e2 : ((2 / 3 - 0.01 : ℝ)) = ((2 : ℕ) : ℝ) / 3 - 0.01 := by norm_num
  constructor
  · rintro ⟨x, hx, y, hy, b, rfl | rfl, hs⟩
    · simp only at hs
      rw [e1] at hs
      split at hs
      · rename_i hc
        have hs' := List.mem_singleton.1 hs
        refine ⟨x, y, 1, Or.inl rfl, hx, hy, hs', ?_⟩
        rw [hs']
        exact hc
      · simp at hs
    · simp only at hs
      rw [e2] at hs
      split at hs
      · rename_i hc
        have hs' := List.mem_singleton.1 hs
        refine ⟨x, y, 2, Or.inr rfl, hx, hy, hs', ?_⟩
        rw [hs']
        exact hc
      · simp at hs
  · rintro ⟨x, y, b, rfl | rfl, hx, hy, hs, hc⟩
    · refine ⟨x, hx, y, hy, _, Or.inl rfl, ?_⟩
      simp only
      rw [e1, if_pos]
      · exact List.mem_singleton.2 hs
      · rw [hs] at hc; exact hc
    · refine ⟨x, hx, y, hy, _, Or.inr rfl, ?_⟩
      simp only
      rw [e2, if_pos]
      · exact List.mem_singleton.2 hs
      · rw [hs] at hc; exact hc

theorem nodup_flatMap_of {α β : Type*} {l : List α} {g : α → List β} (hl : l.Nodup) (h1 : ∀ x ∈ l, (g x).Nodup)
    (h2 : ∀ x ∈ l, ∀ x' ∈ l, ∀ q, q ∈ g x → q ∈ g x' → x = x') : (l.flatMap g).Nodup := by
  rw [List.nodup_flatMap]
  refine ⟨h1, ?_⟩
  refine List.Pairwise.imp_of_mem ?_ hl
  intro a b ha hb hab q hq hq'
  exact hab (h2 a ha b hb q hq hq')

end Hotbit
