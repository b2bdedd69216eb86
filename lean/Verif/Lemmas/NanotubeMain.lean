import Verif.Lemmas.NanotubeCell

/-!
# `nanotube` in terms of the points of one unit
-/

namespace Hotbit

open Real

noncomputable def tsc (n m : ℕ) (A B : ℤ) (x y : ℤ) (b : ℕ) : ℝ :=
  (((x : ℝ) + ((b : ℝ) / 3 - 0.01)) * A + ((y : ℝ) + ((b : ℝ) / 3 - 0.01)) * B) / (n * A + m * B)
noncomputable def tsa (n m : ℕ) (A B : ℤ) (x y : ℤ) (b : ℕ) : ℝ :=
  (n * ((y : ℝ) + ((b : ℝ) / 3 - 0.01)) - m * ((x : ℝ) + ((b : ℝ) / 3 - 0.01))) / (n * A + m * B)

def TubeCell (n m : ℕ) (A B x y : ℤ) (b : ℕ) : Prop :=
  (b = 1 ∨ b = 2) ∧ (0 ≤ tsc n m A B x y b ∧ tsc n m A B x y b < 1) ∧ 0 ≤ tsa n m A B x y b ∧ tsa n m A B x y b < 1

/-- The points of the cell are among those tried and not in the windows left out. -/
def TubeFound (n m : ℕ) (A B : ℤ) : Prop := ∀ x y : ℤ, ∀ b : ℕ, TubeCell n m A B x y b →
  (-((max n m : ℕ) + 100 : ℤ) ≤ x ∧ x < (max n m : ℕ) + 100) ∧ (-((max n m : ℕ) + 100 : ℤ) ≤ y ∧ y < (max n m : ℕ) + 100) ∧
    tsa n m A B x y b < 1 - 0.00001 ∧ tsc n m A B x y b < 1 - 0.00001

section
variable {R : ℝ} (hR : 0 < R) {n m : ℕ} (h : 1 ≤ n + m) {A B : ℤ} (hA : 2 * (n : ℤ) + m = tubeDR n m * A)
  (hB : (n : ℤ) + 2 * m = tubeDR n m * B)
include h hA hB

theorem tube_q : (0 : ℤ) < n * A + m * B ∧ tubeDR n m * (n * A + m * B) = 2 * ((n : ℤ) ^ 2 + n * m + m ^ 2) ∧ 0 ≤ A ∧ 0 ≤ B := by
  have hd := tubeDR_pos h
  have e : tubeDR n m * (n * A + m * B) = 2 * ((n : ℤ) ^ 2 + n * m + m ^ 2) := by linear_combination -(n : ℤ) * hA - (m : ℤ) * hB
  have hN : 0 < (n : ℤ) ^ 2 + n * m + m ^ 2 := by
    have := norm_pos h
    have h2 : (0 : ℝ) < (((n : ℤ) ^ 2 + n * m + m ^ 2 : ℤ) : ℝ) := by push_cast at this ⊢; linarith
    exact_mod_cast h2
  refine ⟨?_, e, ?_, ?_⟩
  · by_contra hc
    have := mul_nonpos_of_nonneg_of_nonpos hd.le (not_lt.1 hc)
    linarith
  · by_contra hc
    have := mul_neg_of_pos_of_neg hd (not_le.1 hc)
    omega
  · by_contra hc
    have := mul_neg_of_pos_of_neg hd (not_le.1 hc)
    omega

theorem tube_qr : (0 : ℝ) < (n : ℝ) * A + m * B := by
  have := (tube_q h hA hB).1
  exact_mod_cast this

theorem tube_shift (x y k l : ℤ) (b : ℕ) : tsc n m A B (x + k * n - l * B) (y + k * m + l * A) b = tsc n m A B x y b + k ∧
    tsa n m A B (x + k * n - l * B) (y + k * m + l * A) b = tsa n m A B x y b + l := by
  have hq := tube_qr h hA hB
  unfold tsc tsa
  constructor
  · rw [eq_comm, div_add' _ _ _ hq.ne']
    congr 1
    push_cast; ring
  · rw [eq_comm, div_add' _ _ _ hq.ne']
    congr 1
    push_cast; ring

include hR

theorem tube_sc (x y : ℤ) (b : ℕ) :
    dot2 (tpt R x y b) (chiralVec (ta1 R) (ta2 R) n m) / len2 (chiralVec (ta1 R) (ta2 R) n m) ^ 2 = tsc n m A B x y b ∧
      dot2 (tpt R x y b) (chiralVec (ta1 R) (ta2 R) (-B) A) / len2 (chiralVec (ta1 R) (ta2 R) (-B) A) ^ 2 = tsa n m A B x y b :=
  tube_coords hR h hA hB _ _

theorem tube_cc : dot2 (chiralVec (ta1 R) (ta2 R) n m) (chiralVec (ta1 R) (ta2 R) n m) ≠ 0 := by
  rw [dot2_self_chiral (ta_primitive R)]
  have := norm_pos h
  positivity

theorem rollUp_along (p : ℝ × ℝ) (k : ℤ) :
    rollUp (chiralVec (ta1 R) (ta2 R) n m) (p + (k : ℝ) • chiralVec (ta1 R) (ta2 R) (-B) A) =
      rollUp (chiralVec (ta1 R) (ta2 R) n m) p + ![0, 0, k * len2 (chiralVec (ta1 R) (ta2 R) (-B) A)] := by
  have hcc := tube_cc hR h hA hB
  have hL := len2_pos hcc
  have hd := tubeDR_pos h
  have hdr : (0 : ℝ) < (tubeDR n m : ℝ) := by exact_mod_cast hd
  have h3 := sqrt3_pos
  have hac := tube_across (R := R) h hA hB
  set c := chiralVec (ta1 R) (ta2 R) n m with hc
  set a := chiralVec (ta1 R) (ta2 R) (-B) A with ha
  have hla : len2 a = √3 / (tubeDR n m : ℝ) * len2 c := by
    have e : dot2 a a = (√3 / (tubeDR n m : ℝ)) ^ 2 * dot2 c c := by
      rw [hac]
      unfold dot2
      simp only [Prod.smul_fst, Prod.smul_snd, smul_eq_mul]
      ring
    unfold len2
    rw [e, Real.sqrt_mul (by positivity), Real.sqrt_sq (by positivity)]
  have hz : (a.1 * c.2 - a.2 * c.1) / len2 c = len2 a := by
    rw [hla, div_eq_iff hL.ne', mul_assoc, ← sq, len2_sq, hac]
    unfold dot2
    simp only [Prod.smul_fst, Prod.smul_snd, smul_eq_mul]
    ring
  have hph : phase2 c a = 0 := by
    unfold phase2
    rw [show dot2 a c = 0 by rw [hac]; unfold dot2; simp only [Prod.smul_fst, Prod.smul_snd, smul_eq_mul]; ring]
    simp
  have := rollUp_screw hcc p a k
  rw [hz, hph, mul_zero] at this
  rw [← this]
  congr 1
  have h0 : rotZ 0 = 1 := by
    ext i j
    fin_cases i <;> fin_cases j <;> simp [rotZ]
  rw [h0, Matrix.one_mulVec]

theorem rollUp_coords {x y : ℤ} {b : ℕ} :
    (![cos (2 * π * tsc n m A B x y b) * len2 (chiralVec (ta1 R) (ta2 R) n m) / (2 * π),
       sin (2 * π * tsc n m A B x y b) * len2 (chiralVec (ta1 R) (ta2 R) n m) / (2 * π),
       tsa n m A B x y b * len2 (chiralVec (ta1 R) (ta2 R) (-B) A)] : Vec) = rollUp (chiralVec (ta1 R) (ta2 R) n m) (tpt R x y b) := by
  have hcc := tube_cc hR h hA hB
  have hL := len2_pos hcc
  have hd := tubeDR_pos h
  have hdr : (0 : ℝ) < (tubeDR n m : ℝ) := by exact_mod_cast hd
  have h3 := sqrt3_pos
  have hac := tube_across (R := R) h hA hB
  obtain ⟨e1, e2⟩ := tube_sc hR h hA hB x y b
  rw [rollUp_eq hcc]
  set c := chiralVec (ta1 R) (ta2 R) n m with hc
  set a := chiralVec (ta1 R) (ta2 R) (-B) A with ha
  have hla : len2 a = √3 / (tubeDR n m : ℝ) * len2 c := by
    have e : dot2 a a = (√3 / (tubeDR n m : ℝ)) ^ 2 * dot2 c c := by
      rw [hac]
      unfold dot2
      simp only [Prod.smul_fst, Prod.smul_snd, smul_eq_mul]
      ring
    unfold len2
    rw [e, Real.sqrt_mul (by positivity), Real.sqrt_sq (by positivity)]
  have hla0 : 0 < len2 a := by rw [hla]; positivity
  have hph : phase2 c (tpt R x y b) = 2 * π * tsc n m A B x y b := by
    unfold phase2
    rw [e1]; ring
  have hz : ((tpt R x y b).1 * c.2 - (tpt R x y b).2 * c.1) / len2 c = tsa n m A B x y b * len2 a := by
    rw [← e2, div_eq_iff hL.ne', show dot2 (tpt R x y b) a / len2 a ^ 2 * len2 a * len2 c = dot2 (tpt R x y b) a * len2 c / len2 a by
      field_simp, hla, hac]
    rw [eq_div_iff (by positivity)]
    unfold dot2
    simp only [Prod.smul_fst, Prod.smul_snd, smul_eq_mul]
    ring
  rw [hph, hz]
  congr 1
  · ring
  · congr 1
    ring

theorem tube_unique {x y x' y' i i' : ℤ} {b b' : ℕ} (hp : TubeCell n m A B x y b) (hp' : TubeCell n m A B x' y' b')
    (he : rollUp (chiralVec (ta1 R) (ta2 R) n m) (tpt R x y b + (i : ℝ) • chiralVec (ta1 R) (ta2 R) (-B) A) =
      rollUp (chiralVec (ta1 R) (ta2 R) n m) (tpt R x' y' b' + (i' : ℝ) • chiralVec (ta1 R) (ta2 R) (-B) A)) :
    (x = x' ∧ y = y' ∧ b = b') ∧ i = i' := by
  have hcc := tube_cc hR h hA hB
  obtain ⟨k, hk⟩ := (rollUp_inj hcc _ _).1 he
  have hcv : ∀ (k i : ℤ), (i : ℝ) • chiralVec (ta1 R) (ta2 R) (-B) A + (k : ℝ) • chiralVec (ta1 R) (ta2 R) n m =
      chiralVec (ta1 R) (ta2 R) (k * n - i * B) (k * m + i * A) := by
    intro k i
    unfold chiralVec
    push_cast
    module
  have hk' : tpt R (x' + 0 * n - i' * B) (y' + 0 * m + i' * A) b' = tpt R (x + k * n - i * B) (y + k * m + i * A) b := by
    have e1 := hcv 0 i'
    have e2 := hcv k i
    push_cast at e1
    rw [zero_smul, add_zero] at e1
    rw [add_assoc, e1, e2, tpt_add, tpt_add] at hk
    rw [show x' + 0 * (n : ℤ) - i' * B = x' + (0 * n - i' * B) by ring, show y' + 0 * (m : ℤ) + i' * A = y' + (0 * m + i' * A) by ring,
      show x + k * (n : ℤ) - i * B = x + (k * n - i * B) by ring, show y + k * (m : ℤ) + i * A = y + (k * m + i * A) by ring]
    exact hk
  obtain ⟨h1, h2, h3⟩ := tpt_inj hR hp'.1 hp.1 hk'
  subst h3
  obtain ⟨s1, s2⟩ := tube_shift h hA hB x' y' 0 i' b'
  obtain ⟨s3, s4⟩ := tube_shift h hA hB x y k i b'
  rw [h1, h2] at s1 s2
  rw [s3] at s1
  rw [s4] at s2
  obtain ⟨-, ⟨a1, a2⟩, a3, a4⟩ := hp
  obtain ⟨-, ⟨b1, b2⟩, b3, b4⟩ := hp'
  push_cast at s1
  have hk0 : k = 0 := by
    have c1 : (k : ℝ) < 1 := by linarith
    have c2 : (-1 : ℝ) < k := by linarith
    have : k < 1 := by exact_mod_cast c1
    have : -1 < k := by exact_mod_cast c2
    omega
  have hi : i = i' := by
    have c1 : ((i - i' : ℤ) : ℝ) < 1 := by push_cast; linarith
    have c2 : (-1 : ℝ) < ((i - i' : ℤ) : ℝ) := by push_cast; linarith
    have : i - i' < 1 := by exact_mod_cast c1
    have : -1 < i - i' := by exact_mod_cast c2
    omega
  subst hk0 hi
  refine ⟨⟨by linarith, by linarith, rfl⟩, rfl⟩

theorem tube_exists {x y : ℤ} {b : ℕ} (hb : b = 1 ∨ b = 2) : ∃ x' y' l : ℤ, TubeCell n m A B x' y' b ∧
    rollUp (chiralVec (ta1 R) (ta2 R) n m) (tpt R x y b) =
      rollUp (chiralVec (ta1 R) (ta2 R) n m) (tpt R x' y' b + (l : ℝ) • chiralVec (ta1 R) (ta2 R) (-B) A) := by
  have hcc := tube_cc hR h hA hB
  set k := -⌊tsc n m A B x y b⌋ with hk
  set l := -⌊tsa n m A B x y b⌋ with hl
  obtain ⟨s1, s2⟩ := tube_shift h hA hB x y k l b
  refine ⟨x + k * n - l * B, y + k * m + l * A, -l, ⟨hb, ⟨?_, ?_⟩, ?_, ?_⟩, ?_⟩
  · rw [s1, hk]; push_cast; linarith [Int.floor_le (tsc n m A B x y b)]
  · rw [s1, hk]; push_cast; linarith [Int.lt_floor_add_one (tsc n m A B x y b)]
  · rw [s2, hl]; push_cast; linarith [Int.floor_le (tsa n m A B x y b)]
  · rw [s2, hl]; push_cast; linarith [Int.lt_floor_add_one (tsa n m A B x y b)]
  · rw [rollUp_inj hcc]
    refine ⟨k, ?_⟩
    have : tpt R (x + k * n - l * B) (y + k * m + l * A) b =
        tpt R x y b + ((l : ℝ) • chiralVec (ta1 R) (ta2 R) (-B) A + (k : ℝ) • chiralVec (ta1 R) (ta2 R) n m) := by
      rw [show (l : ℝ) • chiralVec (ta1 R) (ta2 R) (-B) A + (k : ℝ) • chiralVec (ta1 R) (ta2 R) n m =
        chiralVec (ta1 R) (ta2 R) (k * n - l * B) (k * m + l * A) by
          unfold chiralVec
          push_cast
          module, tpt_add]
      congr 1 <;> ring
    rw [this]
    push_cast
    rw [neg_smul]
    abel

/-- The plane points in the list are different. -/
theorem tubePoints_nodup : (tubePoints n m (ta1 R) (ta2 R) (chiralVec (ta1 R) (ta2 R) n m) (chiralVec (ta1 R) (ta2 R) (-B) A)).Nodup := by
  have hq := tube_qr h hA hB
  have hinj : ∀ (x y x' y' : ℤ) (b b' : ℕ), (b = 1 ∨ b = 2) → (b' = 1 ∨ b' = 2) → tsc n m A B x y b = tsc n m A B x' y' b' →
      tsa n m A B x y b = tsa n m A B x' y' b' → x = x' ∧ y = y' ∧ b = b' := by
    intro x y x' y' b b' hb hb' e1 e2
    unfold tsc at e1
    unfold tsa at e2
    rw [div_left_inj' hq.ne'] at e1 e2
    generalize hX : ((x : ℝ) + ((b : ℝ) / 3 - 0.01)) = X at *
    generalize hY : ((y : ℝ) + ((b : ℝ) / 3 - 0.01)) = Y at *
    generalize hX' : ((x' : ℝ) + ((b' : ℝ) / 3 - 0.01)) = X' at *
    generalize hY' : ((y' : ℝ) + ((b' : ℝ) / 3 - 0.01)) = Y' at *
    have f1 : ((n : ℝ) * A + m * B) * (X - X') = 0 := by linear_combination (n : ℝ) * e1 - (B : ℝ) * e2
    have f2 : ((n : ℝ) * A + m * B) * (Y - Y') = 0 := by linear_combination (m : ℝ) * e1 + (A : ℝ) * e2
    have g1 := (mul_eq_zero.1 f1).resolve_left hq.ne'
    have g2 := (mul_eq_zero.1 f2).resolve_left hq.ne'
    apply tpt_inj hR hb hb'
    unfold tpt
    rw [hX, hY, hX', hY', sub_eq_zero.1 g1, sub_eq_zero.1 g2]
  have e1 : ((1 / 3 - 0.01 : ℝ)) = ((1 : ℕ) : ℝ) / 3 - 0.01 := by norm_num
  have e2 : ((2 / 3 - 0.01 : ℝ)) = ((2 : ℕ) : ℝ) / 3 - 0.01 := by norm_num
  have hrange : ∀ N : ℤ, ((List.range (2 * N).toNat).map fun i : ℕ => (i : ℤ) - N).Nodup := by
    intro N
    refine List.nodup_range.map ?_
    intro i j hij
    simp only at hij
    omega
  have hel : ∀ (x y : ℤ) (bb : ℝ × ℝ) (q : ℝ × ℝ), bb ∈ [((1 / 3 - 0.01 : ℝ), (1 / 3 - 0.01 : ℝ)), ((2 / 3 - 0.01 : ℝ), (2 / 3 - 0.01 : ℝ))] →
      q = (dot2 (((x : ℝ) + bb.1) • ta1 R + ((y : ℝ) + bb.2) • ta2 R) (chiralVec (ta1 R) (ta2 R) n m) / √(dot2 (chiralVec (ta1 R) (ta2 R) n m) (chiralVec (ta1 R) (ta2 R) n m)) ^ 2,
        dot2 (((x : ℝ) + bb.1) • ta1 R + ((y : ℝ) + bb.2) • ta2 R) (chiralVec (ta1 R) (ta2 R) (-B) A) / √(dot2 (chiralVec (ta1 R) (ta2 R) (-B) A) (chiralVec (ta1 R) (ta2 R) (-B) A)) ^ 2) →
      ∃ b : ℕ, (b = 1 ∨ b = 2) ∧ bb = ((b : ℝ) / 3 - 0.01, (b : ℝ) / 3 - 0.01) ∧ q = (tsc n m A B x y b, tsa n m A B x y b) := by
    intro x y bb q hbb hq
    simp only [List.mem_cons, List.not_mem_nil, or_false] at hbb
    rcases hbb with rfl | rfl
    · refine ⟨1, Or.inl rfl, by rw [e1], ?_⟩
      rw [hq, ← (tube_sc hR h hA hB x y 1).1, ← (tube_sc hR h hA hB x y 1).2]
      simp only [e1]
      rfl
    · refine ⟨2, Or.inr rfl, by rw [e2], ?_⟩
      rw [hq, ← (tube_sc hR h hA hB x y 2).1, ← (tube_sc hR h hA hB x y 2).2]
      simp only [e2]
      rfl
  unfold tubePoints
  simp only
  refine nodup_flatMap_of (hrange _) (fun x _ => nodup_flatMap_of (hrange _) (fun y _ => nodup_flatMap_of ?_ ?_ ?_) ?_) ?_
  · simp only [List.nodup_cons, List.mem_singleton, List.not_mem_nil, not_false_iff, List.nodup_nil, and_true]
    intro e
    have := congrArg Prod.fst e
    norm_num at this
  · intro bb _
    split <;> simp
  · intro bb hbb bb' hbb' q hq hq'
    split at hq
    · split at hq'
      · obtain ⟨b, hb, h1, h2⟩ := hel x y bb q hbb (List.mem_singleton.1 hq)
        obtain ⟨b', hb', h1', h2'⟩ := hel x y bb' q hbb' (List.mem_singleton.1 hq')
        rw [h2] at h2'
        obtain ⟨-, -, rfl⟩ := hinj _ _ _ _ _ _ hb hb' (congrArg Prod.fst h2') (congrArg Prod.snd h2')
        rw [h1, h1']
      · simp at hq'
    · simp at hq
  · intro y _ y' _ q hq hq'
    obtain ⟨bb, hbb, hq⟩ := List.mem_flatMap.1 hq
    obtain ⟨bb', hbb', hq'⟩ := List.mem_flatMap.1 hq'
    split at hq
    · split at hq'
      · obtain ⟨b, hb, h1, h2⟩ := hel x y bb q hbb (List.mem_singleton.1 hq)
        obtain ⟨b', hb', h1', h2'⟩ := hel x y' bb' q hbb' (List.mem_singleton.1 hq')
        rw [h2] at h2'
        exact (hinj _ _ _ _ _ _ hb hb' (congrArg Prod.fst h2') (congrArg Prod.snd h2')).2.1
      · simp at hq'
    · simp at hq
  · intro x _ x' _ q hq hq'
    obtain ⟨y, _, hq⟩ := List.mem_flatMap.1 hq
    obtain ⟨y', _, hq'⟩ := List.mem_flatMap.1 hq'
    obtain ⟨bb, hbb, hq⟩ := List.mem_flatMap.1 hq
    obtain ⟨bb', hbb', hq'⟩ := List.mem_flatMap.1 hq'
    split at hq
    · split at hq'
      · obtain ⟨b, hb, h1, h2⟩ := hel x y bb q hbb (List.mem_singleton.1 hq)
        obtain ⟨b', hb', h1', h2'⟩ := hel x' y' bb' q hbb' (List.mem_singleton.1 hq')
        rw [h2] at h2'
        exact (hinj _ _ _ _ _ _ hb hb' (congrArg Prod.fst h2') (congrArg Prod.snd h2')).1
      · simp at hq'
    · simp at hq

end

end Hotbit
