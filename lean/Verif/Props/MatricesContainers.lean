import Verif.Props.Matrices

/-!
# C29 for systems of atoms: the image list and its inverses
-/

set_option linter.unusedSimpArgs false

namespace Hotbit

open Matrix

theorem rawRotation_add (A : Atoms) (hA : Commuting A.ctype) (n m : Op) :
    A.rawRotation n * A.rawRotation m = A.rawRotation (n + m) := by
  unfold Atoms.rawRotation
  cases h : A.ctype <;> rw [h] at hA <;> simp only [Commuting] at hA <;>
    simp only [← rotZ_add, ← rotY_add, Pi.add_apply, Int.cast_add, Matrix.one_mul] <;>
    (try congr 1) <;> ring

theorem rawRotation_zero (A : Atoms) (hA : Commuting A.ctype) : A.rawRotation 0 = 1 := by
  unfold Atoms.rawRotation
  cases h : A.ctype <;> rw [h] at hA <;> simp only [Commuting] at hA <;>
    simp [rotZ_zero, rotY_zero]

theorem rawRotation_orth (A : Atoms) (hA : Commuting A.ctype) (n : Op) :
    (A.rawRotation n).transpose * A.rawRotation n = 1 := by
  unfold Atoms.rawRotation
  cases h : A.ctype <;> rw [h] at hA <;> simp only [Commuting] at hA <;>
    first | rw [rotZ_orth] | rw [rotY_orth] | simp

theorem rawTransform_sub (A : Atoms) (hA : Commuting A.ctype) (n : Op) (r s : Vec) :
    A.rawTransform r n - A.rawTransform s n = (A.rawRotation n) *ᵥ (r - s) := by
  rw [Matrix.mulVec_sub]
  unfold Atoms.rawTransform
  cases h : A.ctype <;> rw [h] at hA <;> simp only [Commuting] at hA
  case bravais =>
    simp only [Atoms.rawRotation, h, Matrix.one_mulVec]
    abel
  all_goals
    simp only [Atoms.rawRotation, h]
    abel

/-- The inverse operation: `e - n` when the first component is half of that of the operation `e`
which acts as the identity (half turn of an even wedge, glide of DoubleChiral), `-n` otherwise. -/
def undoOp (e : Op) (n : Op) : Op := open Classical in if 2 * n 0 = e 0 then e - n else -n

/-- `e` acts as the identity and has Bloch phase one at `k`. -/
def TrivialOp (A : Atoms) (k : Vec) (e : Op) : Prop :=
  (∀ r, A.rawTransform r e = r) ∧ A.rawRotation e = 1 ∧ blochPhase k e = 1

theorem blochPhase_add (k : Vec) (n m : Op) : blochPhase k (n + m) = blochPhase k n * blochPhase k m := by
  unfold blochPhase
  rw [← Complex.exp_add, ← mul_add, ← Complex.ofReal_add, ← Finset.sum_add_distrib]
  congr 4
  funext c
  simp [add_mul]

theorem blochPhase_zero (k : Vec) : blochPhase k 0 = 1 := by simp [blochPhase]

theorem blochPhase_conj (k : Vec) (n : Op) : starRingEnd ℂ (blochPhase k n) = blochPhase k (-n) := by
  unfold blochPhase
  rw [← Complex.exp_conj, map_mul, Complex.conj_I, Complex.conj_ofReal]
  simp

/-- `undoOp e n` undoes `n`. -/
theorem undoOp_sum (A : Atoms) (k : Vec) (e n : Op)
    (he : 2 * n 0 = e 0 → TrivialOp A k e) :
    (n + undoOp e n = 0 ∧ 2 * n 0 ≠ e 0) ∨ (n + undoOp e n = e ∧ TrivialOp A k e) := by
  unfold undoOp
  by_cases h : 2 * n 0 = e 0
  · rw [if_pos h]; right; exact ⟨by simp, he h⟩
  · rw [if_neg h]; left; exact ⟨by simp, h⟩

theorem undoOp_transform (A : Atoms) (hA : Commuting A.ctype) (k : Vec) (e n : Op)
    (he : 2 * n 0 = e 0 → TrivialOp A k e) :
    (∀ r, A.rawTransform (A.rawTransform r n) (undoOp e n) = r) ∧
    (∀ r, A.rawTransform (A.rawTransform r (undoOp e n)) n = r) ∧
    A.rawRotation (undoOp e n) = (A.rawRotation n).transpose ∧
    blochPhase k (undoOp e n) = starRingEnd ℂ (blochPhase k n) := by
  have hsum : (∀ r, A.rawTransform r (n + undoOp e n) = r) ∧ A.rawRotation (n + undoOp e n) = 1 ∧
      blochPhase k (n + undoOp e n) = 1 := by
    rcases undoOp_sum A k e n he with ⟨h, -⟩ | ⟨h, ht⟩
    · rw [h]; exact ⟨rawTransform_zero A hA, rawRotation_zero A hA, blochPhase_zero k⟩
    · rw [h]; exact ht
  refine ⟨fun r => by rw [rawTransform_add A hA, hsum.1], fun r => by
    rw [rawTransform_add A hA, add_comm, hsum.1], ?_, ?_⟩
  · have h1 := hsum.2.1
    rw [← rawRotation_add A hA] at h1
    have h2 := rawRotation_orth A hA n
    calc A.rawRotation (undoOp e n)
        = ((A.rawRotation n).transpose * A.rawRotation n) * A.rawRotation (undoOp e n) := by
          rw [h2, Matrix.one_mul]
      _ = _ := by rw [Matrix.mul_assoc, h1, Matrix.mul_one]
  · have h1 := hsum.2.2
    rw [blochPhase_add] at h1
    rw [blochPhase_conj]
    have h2 : blochPhase k (-n) * blochPhase k n = 1 := by
      rw [← blochPhase_add]; simp [blochPhase_zero]
    calc blochPhase k (undoOp e n)
        = (blochPhase k (-n) * blochPhase k n) * blochPhase k (undoOp e n) := by rw [h2, one_mul]
      _ = _ := by rw [mul_assoc, h1, mul_one]

theorem undoOp_invol (e n : Op) (hn : 2 * n 0 ≠ - e 0 ∨ e 0 = 0) : undoOp e (undoOp e n) = n := by
  unfold undoOp
  by_cases h : 2 * n 0 = e 0
  · rw [if_pos h, if_pos]
    · simp
    · simp only [Pi.sub_apply]; omega
  · rw [if_neg h, if_neg]
    · simp
    · simp only [Pi.neg_apply]; omega

/-- The positions and cutoffs with which images are selected. -/
noncomputable def imagePos (A : Atoms) (bohr : ℝ) : Op → ℕ → Vec := fun n j =>
  bohr⁻¹ • A.rawTransform ((A.positions[j]?).getD 0) n

theorem sum_sq_norm3 (x : Vec) : ∑ c, x c ^ 2 = norm3 x ^ 2 := by
  rw [norm3_sq, Fin.sum_univ_three]

theorem imagePos_inverse (A : Atoms) (hA : Commuting A.ctype) (bohr : ℝ) (k : Vec) (e n : Op)
    (he : 2 * n 0 = e 0 → TrivialOp A k e) (i j : ℕ) :
    imagePos A bohr (undoOp e n) i - imagePos A bohr 0 j
      = - ((A.rawRotation n).transpose *ᵥ (imagePos A bohr n j - imagePos A bohr 0 i)) := by
  obtain ⟨h1, h2, h3, -⟩ := undoOp_transform A hA k e n he
  unfold imagePos
  rw [rawTransform_zero A hA, rawTransform_zero A hA]
  set ri := (A.positions[i]?).getD 0
  set rj := (A.positions[j]?).getD 0
  have h4 := rawTransform_sub A hA (undoOp e n) ri (A.rawTransform rj n)
  rw [h1, h3] at h4
  rw [← smul_sub, h4, ← smul_sub, Matrix.mulVec_smul, ← smul_neg, ← Matrix.mulVec_neg, neg_sub]

/-- **C29 (images).** The list of interacting images of a commuting container is closed under
inversion: if the scanned operations are, and cutoffs are symmetric, an image is kept exactly when
its inverse is. -/
theorem c29_images_closed (A : Atoms) (hA : Commuting A.ctype) (bohr : ℝ) (k : Vec)
    (e : Op) (cut : ℕ → ℕ → ℝ) (scan : List Op) (hcut : ∀ i j, cut i j = cut j i)
    (hscan : ∀ n ∈ scan, undoOp e n ∈ scan) (he0 : (∀ n ∈ scan, 2 * n 0 ≠ - e 0) ∨ e 0 = 0)
    (he : TrivialOp A k e) (hinv0 : undoOp e 0 = 0) (n : Op)
    (hn : n ∈ selectImages A.atoms.length (imagePos A bohr) cut scan) :
    undoOp e n ∈ selectImages A.atoms.length (imagePos A bohr) cut scan := by
  unfold selectImages at hn ⊢
  rcases List.mem_cons.mp hn with rfl | hn
  · rw [hinv0]; exact List.mem_cons_self
  rw [List.mem_filter] at hn
  obtain ⟨hs, hd⟩ := hn
  rw [decide_eq_true_eq] at hd
  obtain ⟨hn0, i, hi, j, hj, hle⟩ := hd
  refine List.mem_cons.mpr (Or.inr ?_)
  rw [List.mem_filter]
  refine ⟨hscan n hs, ?_⟩
  rw [decide_eq_true_eq]
  refine ⟨?_, j, hj, i, hi, ?_⟩
  · intro h0
    apply hn0
    rw [← undoOp_invol e n (he0.imp (fun h => h n hs) id), h0, hinv0]
  · have h1 := imagePos_inverse A hA bohr k e n (fun _ => he) j i
    have h2 : ∑ c, (imagePos A bohr 0 i c - imagePos A bohr (undoOp e n) j c) ^ 2
        = norm3 (imagePos A bohr (undoOp e n) j - imagePos A bohr 0 i) ^ 2 := by
      rw [← sum_sq_norm3]
      refine Finset.sum_congr rfl fun c _ => ?_
      simp only [Pi.sub_apply]; ring
    have h3 : ∑ c, (imagePos A bohr 0 j c - imagePos A bohr n i c) ^ 2
        = norm3 (imagePos A bohr n i - imagePos A bohr 0 j) ^ 2 := by
      rw [← sum_sq_norm3]
      refine Finset.sum_congr rfl fun c _ => ?_
      simp only [Pi.sub_apply]; ring
    rw [h2, h1, norm3_neg, norm3_rot, ← h3, hcut]
    · exact hle
    · rw [Matrix.transpose_transpose]
      exact mul_eq_one_comm.mp (rawRotation_orth A hA n)

theorem selectImages_idFirst (N : ℕ) (pos : Op → ℕ → Vec) (cut : ℕ → ℕ → ℝ) (scan : List Op) :
    ∃ rest, selectImages N pos cut scan = 0 :: rest ∧ (0 : Op) ∉ rest := by
  refine ⟨_, rfl, ?_⟩
  simp

theorem selectImages_nodup (N : ℕ) (pos : Op → ℕ → Vec) (cut : ℕ → ℕ → ℝ) (scan : List Op)
    (h : scan.Nodup) : (selectImages N pos cut scan).Nodup := by
  unfold selectImages
  rw [List.nodup_cons]
  exact ⟨by simp, h.filter _⟩

/-- **C29 (inverse pairs).** For every container whose operations commute, every geometry, and every
k-point at which the identity operation `e` has phase one, the hypothesis `InversePairs` of
`c29_hermitian` holds for the image list that the program builds. -/
theorem c29_inverse_pairs (A : Atoms) (hA : Commuting A.ctype) (bohr : ℝ) (k : Vec)
    (no : ℕ → ℕ) (eps : ℕ → Fin 9 → ℝ) (seps : ℝ) (tab : String → String → SkTable) (J : SkJunk)
    (e : Op) (cut : ℕ → ℕ → ℝ) (scan : List Op) (hcut : ∀ i j, cut i j = cut j i)
    (hnd : scan.Nodup)
    (hscan : ∀ n ∈ scan, undoOp e n ∈ scan) (he0 : (∀ n ∈ scan, 2 * n 0 ≠ - e 0) ∨ e 0 = 0)
    (he : TrivialOp A k e) (hinv0 : undoOp e 0 = 0) :
    IdFirst (MatIn.ofAtoms A bohr no eps seps tab J cut scan) ∧
    InversePairs (MatIn.ofAtoms A bohr no eps seps tab J cut scan) k (undoOp e) := by
  have e1 : (MatIn.ofAtoms A bohr no eps seps tab J cut scan).ntuples
      = selectImages A.atoms.length (imagePos A bohr) cut scan := rfl
  refine ⟨by unfold IdFirst; rw [e1]; exact selectImages_idFirst _ _ _ _, ?_⟩
  refine
    { nodup := by rw [e1]; exact selectImages_nodup _ _ _ _ hnd
      mem := fun n hn => by
        rw [e1] at hn ⊢
        exact c29_images_closed A hA bohr k e cut scan hcut hscan he0 he hinv0 n hn
      invol := ?_
      zero := hinv0
      orth := fun n _ => rawRotation_orth A hA n
      rot := fun n _ => (undoOp_transform A hA k e n fun _ => he).2.2.1
      pos := fun n _ i _ => imagePos_inverse A hA bohr k e n (fun _ => he) i i
      phase := fun n _ => (undoOp_transform A hA k e n fun _ => he).2.2.2 }
  intro n hn
  rw [e1] at hn
  rcases List.mem_cons.mp hn with rfl | hn
  · rw [hinv0, hinv0]
  · exact undoOp_invol e n (he0.imp (fun h => h n (List.mem_of_mem_filter hn)) id)

end Hotbit
