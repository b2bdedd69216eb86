import Verif.Spec.Grids
import Verif.Props.GridPoints
import Verif.Props.AngularParts
import Mathlib.Tactic

/-!
# C104: basis orbitals on the grid
-/

namespace Hotbit

open Real

theorem clip100_zero : clip100 0 = 0 := by unfold clip100; norm_num

theorem clip100_range (x : ℝ) : -100 ≤ clip100 x ∧ clip100 x ≤ 100 := by
  unfold clip100; split_ifs <;> constructor <;> linarith

theorem clip100_of (x : ℝ) (h : |x| ≤ 100) : clip100 x = x := by
  obtain ⟨h1, h2⟩ := abs_le.1 h
  unfold clip100
  rw [if_neg (by linarith), if_neg (by linarith)]

/-- A real array is returned clipped. -/
theorem returnArray_real (shape : Fin 3 → ℤ) (v : ℤ → ℤ → ℤ → ℝ) (pad : Bool) :
    (returnArray { shape := shape, val := fun i j k => (v i j k : ℂ) } pad).val = fun i j k => (clip100 (v i j k) : ℂ) := by
  unfold returnArray
  have h : ∀ i j k, (clipC (v i j k : ℂ)) = (clip100 (v i j k) : ℂ) := by
    intro i j k
    apply Complex.ext <;> simp [clipC, clip100_zero]
  cases pad <;> simp only [h] <;> simp

theorem returnArray_shape (a : Arr3) (pad : Bool) :
    (returnArray a pad).shape = if pad then a.shape else fun i => a.shape i - 1 := by
  unfold returnArray; cases pad <;> simp

/-- The weight of the point of the partial grid that falls on grid point `p`. -/
noncomputable def stamp (g : GridData) (pwf : ℤ → ℤ → ℤ → ℝ) (x : Vec) (p : Fin 3 → ℤ) : ℝ :=
  haveI := Classical.dec (∀ i, |p i - pyRound (x i / g.dr i)| ≤ (g.pN i - 1) / 2)
  if ∀ i, |p i - pyRound (x i / g.dr i)| ≤ (g.pN i - 1) / 2 then
    pwf (p 0 - pyRound (x 0 / g.dr 0) + (g.pN 0 - 1) / 2) (p 1 - pyRound (x 1 / g.dr 1) + (g.pN 1 - 1) / 2)
      (p 2 - pyRound (x 2 / g.dr 2) + (g.pN 2 - 1) / 2)
  else 0

open Classical in
theorem addImage_spec (g : GridData) (hp : ∀ i, g.pN i % 2 = 1 ∧ 0 < g.pN i) (pwf wf : ℤ → ℤ → ℤ → ℝ) (im : GridImage) :
    ∃ wf', g.addImage pwf wf im = .ok wf' ∧ ∀ p : Fin 3 → ℤ, (∀ i, 0 ≤ p i ∧ p i < g.N i) →
      wf' (p 0) (p 1) (p 2) = wf (p 0) (p 1) (p 2) + if g.inReach im.pos then im.phase.re * stamp g pwf im.pos p else 0 := by
  unfold GridData.addImage
  by_cases hr : g.inReach im.pos
  · rw [if_neg (not_not.2 hr)]
    simp only
    split_ifs with h1 h2
    · refine ⟨wf, rfl, fun p hpr => ?_⟩
      obtain ⟨i, hi⟩ := h1
      have hs : stamp g pwf im.pos p = 0 := by
        unfold stamp
        rw [if_neg]
        intro hall
        have ha := abs_le.1 (hall i)
        have := hpr i; have := hp i
        simp only [placeAxis] at hi
        omega
      rw [hs]; simp
    · exfalso
      obtain ⟨i, hi⟩ := h2
      push Not at h1
      have h3 := h1 i
      have := hp i
      simp only [placeAxis] at hi h3
      omega
    · push Not at h1
      refine ⟨_, rfl, fun p hpr => ?_⟩
      by_cases hall : ∀ i, |p i - pyRound (im.pos i / g.dr i)| ≤ (g.pN i - 1) / 2
      · have hidx : ∀ i, (placeAxis (g.N i) (g.pN i) (pyRound (im.pos i / g.dr i))).1 ≤ p i ∧
            p i ≤ (placeAxis (g.N i) (g.pN i) (pyRound (im.pos i / g.dr i))).2.1 ∧
            (placeAxis (g.N i) (g.pN i) (pyRound (im.pos i / g.dr i))).2.2.1
              + (p i - (placeAxis (g.N i) (g.pN i) (pyRound (im.pos i / g.dr i))).1)
              = p i - pyRound (im.pos i / g.dr i) + (g.pN i - 1) / 2 := by
          intro i
          have ha := abs_le.1 (hall i)
          have := hpr i; have := hp i
          simp only [placeAxis]
          omega
        simp only [(hidx 0).1, (hidx 0).2.1, (hidx 1).1, (hidx 1).2.1, (hidx 2).1, (hidx 2).2.1, and_self, if_true,
          (hidx 0).2.2, (hidx 1).2.2, (hidx 2).2.2]
        rw [stamp, if_pos hall]
        simp
      · have hno : ¬ ((placeAxis (g.N 0) (g.pN 0) (pyRound (im.pos 0 / g.dr 0))).1 ≤ p 0 ∧
            p 0 ≤ (placeAxis (g.N 0) (g.pN 0) (pyRound (im.pos 0 / g.dr 0))).2.1 ∧
            (placeAxis (g.N 1) (g.pN 1) (pyRound (im.pos 1 / g.dr 1))).1 ≤ p 1 ∧
            p 1 ≤ (placeAxis (g.N 1) (g.pN 1) (pyRound (im.pos 1 / g.dr 1))).2.1 ∧
            (placeAxis (g.N 2) (g.pN 2) (pyRound (im.pos 2 / g.dr 2))).1 ≤ p 2 ∧
            p 2 ≤ (placeAxis (g.N 2) (g.pN 2) (pyRound (im.pos 2 / g.dr 2))).2.1) := by
          rintro ⟨a0, b0, a1, b1, a2, b2⟩
          apply hall
          have hgen : ∀ i, (placeAxis (g.N i) (g.pN i) (pyRound (im.pos i / g.dr i))).1 ≤ p i →
              p i ≤ (placeAxis (g.N i) (g.pN i) (pyRound (im.pos i / g.dr i))).2.1 →
              |p i - pyRound (im.pos i / g.dr i)| ≤ (g.pN i - 1) / 2 := by
            intro i ha hb
            simp only [placeAxis] at ha hb
            rw [abs_le]
            omega
          intro i
          fin_cases i
          · exact hgen 0 a0 b0
          · exact hgen 1 a1 b1
          · exact hgen 2 a2 b2
        rw [if_neg hno, stamp, if_neg hall]
        simp
  · rw [if_pos hr]
    exact ⟨wf, rfl, fun p _ => by rw [if_neg hr]; simp⟩

open Classical in
theorem images_spec (g : GridData) (hp : ∀ i, g.pN i % 2 = 1 ∧ 0 < g.pN i) (pwf : ℤ → ℤ → ℤ → ℝ) (ims : List GridImage) :
    ∀ wf, ∃ wf', ims.foldlM (g.addImage pwf) wf = .ok wf' ∧ ∀ p : Fin 3 → ℤ, (∀ i, 0 ≤ p i ∧ p i < g.N i) →
      wf' (p 0) (p 1) (p 2) = wf (p 0) (p 1) (p 2) +
        (ims.map fun im => if g.inReach im.pos then im.phase.re * stamp g pwf im.pos p else 0).sum := by
  induction ims with
  | nil => intro wf; exact ⟨wf, rfl, fun p _ => by simp⟩
  | cons im ims ih =>
    intro wf
    obtain ⟨w1, h1, h2⟩ := addImage_spec g hp pwf wf im
    obtain ⟨w2, h3, h4⟩ := ih w1
    refine ⟨w2, ?_, fun p hpr => ?_⟩
    · rw [List.foldlM_cons, h1]; exact h3
    · rw [h4 p hpr, h2 p hpr, List.map_cons, List.sum_cons]; ring

/-- The partial grid holds the orbital at the displacement of its points. -/
theorem atomic_spec (g : GridData) (R : ℝ → ℝ) (rr : ℝ) (a : Fin 9) (i j k : ℤ) :
    g.atomic R rr a i j k = orbitalAt g.cutoff rr R a ![g.pgrid 0 i, g.pgrid 1 j, g.pgrid 2 k] := by
  unfold GridData.atomic orbitalAt
  simp only
  generalize √(_ + _ + _) = d
  by_cases h1 : d > g.cutoff ∨ d > rr
  · rw [if_pos h1, if_neg]
    rintro ⟨h2, h3, -⟩
    rcases h1 with h | h <;> linarith
  · rw [if_neg h1]
    push Not at h1
    by_cases h2 : |R d| > 1e-7
    · rw [if_pos h2, if_pos ⟨h1.1, h1.2, h2⟩]
    · rw [if_neg h2, if_neg fun h => h2 h.2.2]

theorem stamp_atomic {bohr h cutoff : ℝ} {cell : Mat} {g : GridData} (hg : gridInit bohr cell h cutoff = .ok g)
    (R : ℝ → ℝ) (rr : ℝ) (a : Fin 9) (x : Vec) (p : Fin 3 → ℤ) [Decidable (∀ i, |p i - pyRound (x i / g.dr i)| ≤ (g.pN i - 1) / 2)] :
    stamp g (g.atomic R rr a) x p = if ∀ i, |p i - pyRound (x i / g.dr i)| ≤ (g.pN i - 1) / 2 then
      orbitalAt g.cutoff rr R a (gridDisp g.dr x p) else 0 := by
  unfold stamp
  congr! 1
  rw [atomic_spec]
  congr 1
  have hgen : ∀ i, g.pgrid i (p i - pyRound (x i / g.dr i) + (g.pN i - 1) / 2) = gridDisp g.dr x p i := by
    intro i
    obtain ⟨h1, -⟩ := c103_partial_grid hg i
    have : (2 : ℤ) * ((g.pN i - 1) / 2) = g.pN i - 1 := by omega
    have h2 : (2 : ℝ) * (((g.pN i - 1) / 2 : ℤ) : ℝ) = g.pN i - 1 := by exact_mod_cast this
    unfold GridData.pgrid gridDisp
    rw [← h2]; push_cast; ring
  funext i
  fin_cases i
  · exact hgen 0
  · exact hgen 1
  · exact hgen 2

open Classical in
/-- C104: no exception is raised, and the value of a basis orbital at every point of the grid is the sum over the images of the
atom in reach, each weighted with the real part of its phase, of the orbital centred on the grid point closest to the image; orbitals
reach `(pN-1)/2` points along each axis and the sum is clipped to [-100, 100]. -/
theorem c104_basis {bohr h cutoff : ℝ} {cell : Mat} {g : GridData} (hg : gridInit bohr cell h cutoff = .ok g)
    (hpos : ∀ i, 0 < g.pN i) (R : ℝ → ℝ) (rr : ℝ) (a : Fin 9) (images : List GridImage) (pad : Bool) :
    ∃ A, g.basisOrbital (g.atomic R rr a) images pad = .ok A ∧
      A.shape = (if pad then g.N else fun i => g.N i - 1) ∧
      ∀ p : Fin 3 → ℤ, (∀ i, 0 ≤ p i ∧ p i < g.N i) → A.val (p 0) (p 1) (p 2) =
        (clip100 (images.map fun im => if (∀ i, -g.cutoff ≤ im.pos i ∧ im.pos i ≤ g.L i + g.cutoff) ∧
            (∀ i, |p i - pyRound (im.pos i / g.dr i)| ≤ (g.pN i - 1) / 2)
          then im.phase.re * orbitalAt g.cutoff rr R a (gridDisp g.dr im.pos p) else 0).sum : ℂ) := by
  have hp : ∀ i, g.pN i % 2 = 1 ∧ 0 < g.pN i := fun i => ⟨(c103_partial_grid hg i).1, hpos i⟩
  obtain ⟨wf, h1, h2⟩ := images_spec g hp (g.atomic R rr a) images (fun _ _ _ => 0)
  refine ⟨returnArray { shape := g.N, val := fun i j k => (wf i j k : ℂ) } pad, ?_, ?_, ?_⟩
  · unfold GridData.basisOrbital
    rw [h1]; rfl
  · rw [returnArray_shape]
  · intro p hpr
    rw [returnArray_real]
    simp only
    rw [h2 p hpr, zero_add]
    congr 4
    funext im
    rw [stamp_atomic hg]
    have hreach : g.inReach im.pos ↔ ∀ i, -g.cutoff ≤ im.pos i ∧ im.pos i ≤ g.L i + g.cutoff := by
      unfold GridData.inReach
      constructor
      · intro hh i; have := hh i; push Not at this; exact this
      · intro hh i; have := hh i; push Not; exact this
    rw [hreach]
    split_ifs <;> simp_all

/-- C104: the displacement used differs from the true one by at most half the spacing along each axis. -/
theorem c104_shift (g : GridData) (x : Vec) (p : Fin 3 → ℤ) (i : Fin 3) (hdr : 0 < g.dr i) :
    |gridDisp g.dr x p i - (p i * g.dr i - x i)| ≤ g.dr i / 2 := by
  unfold gridDisp
  have h := abs_pyRound_sub_le (x i / g.dr i)
  have e : (p i - pyRound (x i / g.dr i) : ℝ) * g.dr i - (p i * g.dr i - x i) =
      -((pyRound (x i / g.dr i) : ℝ) - x i / g.dr i) * g.dr i := by
    field_simp; ring
  rw [e, abs_mul, abs_neg, abs_of_pos hdr]
  nlinarith

/-- C104: along each axis the part of the orbital that is kept reaches at least to three quarters of a spacing below the cutoff. -/
theorem c104_box {bohr h cutoff : ℝ} {cell : Mat} {g : GridData} (hg : gridInit bohr cell h cutoff = .ok g) (i : Fin 3)
    (hdr : 0 < g.dr i) : g.cutoff - 3 / 4 * g.dr i ≤ (((g.pN i - 1) / 2 : ℤ) : ℝ) * g.dr i := by
  obtain ⟨-, -, -, -, hp⟩ := gridInit_spec hg
  have h1 := (c103_partial_grid hg i).1
  have : (2 : ℤ) * ((g.pN i - 1) / 2) = g.pN i - 1 := by omega
  have h2 : (2 : ℝ) * (((g.pN i - 1) / 2 : ℤ) : ℝ) = g.pN i - 1 := by exact_mod_cast this
  have h3 := abs_le.1 (abs_pyRound_sub_le (g.cutoff * 2 / g.dr i))
  have h4 : (pyRound (g.cutoff * 2 / g.dr i) : ℝ) ≤ g.pN i := by
    have : pyRound (g.cutoff * 2 / g.dr i) ≤ g.pN i := by rw [hp]; split_ifs <;> omega
    exact_mod_cast this
  have h5 : g.cutoff * 2 / g.dr i * g.dr i = g.cutoff * 2 := by field_simp
  nlinarith

/-- C104 fails for complex phases: a Bloch orbital with the phase `i` is returned as zero. -/
theorem c104_bloch_fails {bohr h cutoff : ℝ} {cell : Mat} {g : GridData} (hg : gridInit bohr cell h cutoff = .ok g)
    (hpos : ∀ i, 0 < g.pN i) (R : ℝ → ℝ) (rr : ℝ) (a : Fin 9) (x : Vec) (pad : Bool) :
    ∃ A, g.basisOrbital (g.atomic R rr a) [⟨x, Complex.I⟩] pad = .ok A ∧
      ∀ p : Fin 3 → ℤ, (∀ i, 0 ≤ p i ∧ p i < g.N i) → A.val (p 0) (p 1) (p 2) = 0 ∧
        (orbitalAt g.cutoff rr R a (gridDisp g.dr x p) ≠ 0 →
          A.val (p 0) (p 1) (p 2) ≠ Complex.I * (orbitalAt g.cutoff rr R a (gridDisp g.dr x p) : ℝ)) := by
  obtain ⟨A, h1, -, h3⟩ := c104_basis hg hpos R rr a [⟨x, Complex.I⟩] pad
  refine ⟨A, h1, fun p hp => ?_⟩
  have h0 : A.val (p 0) (p 1) (p 2) = 0 := by
    rw [h3 p hp]
    simp [clip100_zero]
  refine ⟨h0, fun hne => ?_⟩
  rw [h0]
  exact (mul_ne_zero Complex.I_ne_zero (Complex.ofReal_ne_zero.2 hne)).symm

/-- A grid meeting the hypotheses. -/
example : ∃ g, gridInit 0.529177 (Matrix.diagonal fun _ => 10) 0.2 3 = .ok g ∧ ∀ i, 0 < g.pN i ∧ 0 < g.dr i := by
  obtain ⟨g, hg, -⟩ := c103_spacing_fails
  refine ⟨g, hg, fun i => ?_⟩
  obtain ⟨hL, hN, hdr, hc, hp⟩ := gridInit_spec hg
  have hN0 : g.N i = 94 := by
    rw [hN, hL]
    apply pyRound_eq_of_abs_lt
    rw [Matrix.diagonal_apply_eq, abs_lt]
    norm_num
  have hd : g.dr i = 10 / 0.529177 / 93 := by
    rw [hdr, hN0, hL, Matrix.diagonal_apply_eq]; norm_num
  refine ⟨?_, by rw [hd]; norm_num⟩
  have : pyRound (g.cutoff * 2 / g.dr i) = 56 := by
    rw [hd, hc]
    apply pyRound_eq_of_abs_lt
    rw [abs_lt]
    norm_num
  rw [hp, this]; norm_num

end Hotbit
