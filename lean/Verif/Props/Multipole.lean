import Verif.Lemmas.MultipoleRotation

/-!
# Multipole moments: indices, solid harmonics, shifts and rotations
(C44, C60, C77, C78)
-/

namespace Hotbit

open Finset Complex

/-! ### C44 -/

/-- C44: `lm2index` is a bijection from the pairs `1 ≤ m ≤ l` onto `0,1,2,…`. -/
theorem c44_bijection (j : ℕ) : ∃! p : ℕ × ℕ, (1 ≤ p.2 ∧ p.2 ≤ p.1) ∧ lm2index p.1 p.2 = j := by
  have ex : ∃ p : ℕ × ℕ, (1 ≤ p.2 ∧ p.2 ≤ p.1) ∧ lm2index p.1 p.2 = j := by
    induction j with
    | zero => exact ⟨(1, 1), by simp, by simp [lm2index]⟩
    | succ j ih =>
      obtain ⟨⟨l, m⟩, ⟨h1, h2⟩, h⟩ := ih
      rcases Nat.lt_or_ge m l with hm | hm
      · refine ⟨(l, m + 1), ⟨by simp, by simpa using hm⟩, ?_⟩
        have := lm2index_add l m 1
        push_cast at *
        omega
      · obtain rfl : m = l := le_antisymm h2 hm
        refine ⟨(m + 1, 1), ⟨by simp, by simp⟩, ?_⟩
        have a := lm2index_succ m 1
        have b := lm2index_add m 1 (m - 1)
        rw [add_sub_cancel] at b
        push_cast at *
        omega
  obtain ⟨p, hp, h⟩ := ex
  refine ⟨p, ⟨hp, h⟩, ?_⟩
  rintro ⟨l, m⟩ ⟨⟨h1, h2⟩, h'⟩
  obtain ⟨a, b⟩ := lm2index_inj h1 h2 hp.1 hp.2 (h'.trans h.symm)
  exact Prod.ext a b

/-- C44: the array has exactly the cells that are needed for `l ≤ l_max`. -/
theorem c44_size (lmax l m : ℕ) (h1 : 1 ≤ m) (h2 : m ≤ l) :
    (0 ≤ lm2index l m ∧ lm2index l m < lmSize lmax) ↔ l ≤ lmax := by
  unfold lmSize
  constructor
  · rintro ⟨_, h⟩
    by_contra hl
    have := lm2index_mono (le_refl lmax) (not_le.1 hl) h1
    omega
  · intro hl
    have := lm2index_nonneg l m h1 h2 lmax hl
    omega

/-- C44: the size is `l_max (l_max+1)/2`. -/
theorem c44_size_value (lmax : ℕ) : lmSize lmax = lmax * (lmax + 1) / 2 := by
  unfold lmSize lm2index
  have : (lmax : ℤ) * (lmax + 1) = lmax * (lmax - 1) + lmax * 2 := by ring
  rw [this, Int.add_mul_ediv_right _ _ (by norm_num)]
  ring

example : lm2index 3 2 = 4 ∧ lmSize 3 = 6 := by simp [lm2index, lmSize]

/-! ### C60 -/

/-- C60: `solid_harmonic_R` computes the regular solid harmonics. -/
theorem c60_regular (r : Vec) (h : r ≠ 0) (lmax : ℕ) (junk : Moments) :
    let R := solidR (cartToSph r).1 (cartToSph r).2.1 (cartToSph r).2.2 lmax junk
    (∀ l ≤ lmax, (R.l0 l : ℂ) = regularR l 0 r) ∧
    ∀ l m : ℕ, 1 ≤ m → m ≤ l → l ≤ lmax → R.lm (lm2index l m) = regularR l m r := by
  have hs := solidR_isSolid r h lmax junk
  exact ⟨fun l hl => by rw [regularR_eq l 0 (by omega)]; exact hs.1 l hl,
    fun l m h1 h2 h3 => by rw [regularR_eq l m h2]; exact hs.2 l m h1 h2 h3⟩

/-- C60: `solid_harmonic_I` computes the irregular solid harmonics. -/
theorem c60_irregular (r : Vec) (lmax : ℕ) (junk : Moments) :
    let J := solidI (cartToSph r).1 (cartToSph r).2.1 (cartToSph r).2.2 lmax junk
    (∀ l ≤ lmax, (J.l0 l : ℂ) = irregularI l 0 r) ∧
    ∀ l m : ℕ, 1 ≤ m → m ≤ l → l ≤ lmax → J.lm (lm2index l m) = irregularI l m r :=
  ⟨fun l hl => solidI_l0 r lmax junk l hl, fun l m h1 h2 h3 => solidI_lm r lmax junk l m h1 h2 h3⟩

/-- C60: the Python routine handles the origin as well. -/
theorem c60_python (r : Vec) (lmax : ℕ) :
    (∀ l ≤ lmax, ((pySolidR r lmax).l0 l : ℂ) = regularR l 0 r) ∧
    ∀ l m : ℕ, 1 ≤ m → m ≤ l → l ≤ lmax → (pySolidR r lmax).lm (lm2index l m) = regularR l m r := by
  have hs := pySolidR_isSolid r lmax
  exact ⟨fun l hl => by rw [regularR_eq l 0 (by omega)]; exact hs.1 l hl,
    fun l m h1 h2 h3 => by rw [regularR_eq l m h2]; exact hs.2 l m h1 h2 h3⟩

/-- C60: values on the axis. -/
theorem c60_axis (z : ℝ) (lmax : ℕ) :
    (∀ l ≤ lmax, (pySolidR ![0, 0, z] lmax).l0 l = z ^ l / l.factorial) ∧
    ∀ l m : ℕ, 1 ≤ m → m ≤ l → l ≤ lmax → (pySolidR ![0, 0, z] lmax).lm (lm2index l m) = 0 := by
  have hs := pySolidR_isSolid ![0, 0, z] lmax
  have hv : ∀ (l : ℕ) (m : ℤ), solV l m ![0, 0, z] = if m = 0 then (z : ℂ) ^ l / (l.factorial : ℂ) else 0 := by
    intro l m
    have := solS_axis z l m
    unfold solV
    simpa using this
  constructor
  · intro l hl
    have := hs.1 l hl
    rw [hv, if_pos rfl] at this
    exact_mod_cast this
  · intro l m h1 h2 h3
    rw [hs.2 l m h1 h2 h3, hv, if_neg (by omega)]

/-- C60: the origin is the unit monopole. -/
theorem c60_origin (lmax l : ℕ) (hl : l ≤ lmax) : (pySolidR 0 lmax).l0 l = if l = 0 then 1 else 0 := by
  have := (c60_axis 0 lmax).1 l hl
  have h0 : (![0, 0, 0] : Vec) = 0 := by ext i; fin_cases i <;> rfl
  rw [h0] at this
  rw [this]
  by_cases h : l = 0 <;> simp [h]

/-- C60: `get_moments` returns the moments of the charges. -/
theorem c60_moments (lmax : ℕ) (qr : List (ℝ × Vec)) (c : Vec) :
    IsMoments lmax (getMoments lmax qr c) qr c := getMoments_isMoments lmax qr c

/-- The first moments of charges: total charge. -/
theorem c60_monopole (lmax : ℕ) (qr : List (ℝ × Vec)) (c : Vec) :
    (getMoments lmax qr c).l0 0 = (qr.map Prod.fst).sum := by
  have := ((isMoments_iff _ _ _ _).1 (c60_moments lmax qr c)).1 0 (by omega)
  have h : momV qr c 0 0 = (((qr.map Prod.fst).sum : ℝ) : ℂ) := by
    unfold momV
    simp only [solV, solS]
    clear this
    induction qr with
    | nil => simp
    | cons a qr ih => simpa using ih
  rw [h] at this
  exact_mod_cast this

theorem solV_one_one (v : Vec) : solV 1 1 v = ⟨-v 0 / 2, -v 1 / 2⟩ := by
  have : solV 1 1 v = (((-v 0 / 2 : ℝ) : ℂ)) + ((-v 1 / 2 : ℝ) : ℂ) * I := by
    simp [solV, solS]; ring
  rw [this]
  apply Complex.ext <;> simp

/-- C60: the vector that the code builds for the dipole correction is the dipole moment. -/
theorem c60_dipole (lmax : ℕ) (hl : 1 ≤ lmax) (qr : List (ℝ × Vec)) (c : Vec) (M : Moments)
    (hM : IsMoments lmax M qr c) :
    -2 * (M.lm 0).re = (qr.map fun a => a.1 * (a.2 0 - c 0)).sum ∧
    2 * (M.lm 0).im = (qr.map fun a => a.1 * (a.2 1 - c 1)).sum ∧
    M.l0 1 = (qr.map fun a => a.1 * (a.2 2 - c 2)).sum := by
  have hM' := (isMoments_iff _ _ _ _).1 hM
  have h1 := hM'.2 1 1 (by omega) (by omega) hl
  have h0 := hM'.1 1 hl
  have e : lm2index ((1 : ℕ) : ℤ) ((1 : ℕ) : ℤ) = 0 := by simp [lm2index]
  rw [e] at h1
  have d1 : momV qr c 1 1 = ⟨-(qr.map fun a => a.1 * (a.2 0 - c 0)).sum / 2, (qr.map fun a => a.1 * (a.2 1 - c 1)).sum / 2⟩ := by
    unfold momV
    clear hM hM' h1 h0
    induction qr with
    | nil => simp [Complex.ext_iff]
    | cons a qr ih =>
      simp only [List.map_cons, List.sum_cons, ih]
      rw [solV_one_one]
      apply Complex.ext
      · simp only [Complex.add_re, Complex.re_ofReal_mul, Complex.conj_re, Pi.sub_apply]; ring
      · simp only [Complex.add_im, Complex.im_ofReal_mul, Complex.conj_im, Pi.sub_apply]; ring
  have d0 : momV qr c 1 0 = (((qr.map fun a => a.1 * (a.2 2 - c 2)).sum : ℝ) : ℂ) := by
    unfold momV
    clear hM hM' h1 h0 d1
    induction qr with
    | nil => simp
    | cons a qr ih =>
      simp only [List.map_cons, List.sum_cons, ih]
      simp [solV, solS]
  have h1' : M.lm 0 = _ := h1.trans d1
  rw [d0] at h0
  refine ⟨by rw [h1']; ring, by rw [h1']; ring, by exact_mod_cast h0⟩

/-- Two charges that do not coincide: the hypotheses of the theorems above. -/
example : IsMoments 5 (getMoments 5 [(1, ![1, 2, 3]), (-1, ![0, 0, 1])] ![0, 1, 0])
    [(1, ![1, 2, 3]), (-1, ![0, 0, 1])] ![0, 1, 0] := c60_moments _ _ _

/-! ### C77 -/

/-- C77: `multipole_to_multipole` adds the child's charges, exactly and for every shift. -/
theorem c77_shift (lmax : ℕ) (child M junk : Moments) (qr qr' : List (ℝ × Vec)) (c c' : Vec)
    (hc : IsMoments lmax child qr c) (hM : IsMoments lmax M qr' c') :
    IsMoments lmax (m2m (c - c') lmax child M junk) (qr' ++ qr) c' :=
  m2m_isMoments lmax child M junk qr qr' c c' hc hM

/-- C77: shifting all charges and the centre leaves the moments. -/
theorem c77_translate (lmax : ℕ) (M : Moments) (qr : List (ℝ × Vec)) (c t : Vec) (hM : IsMoments lmax M qr c) :
    IsMoments lmax M (qr.map fun a => (a.1, a.2 + t)) (c + t) := by
  have : ∀ l m, pointMoment (qr.map fun a => (a.1, a.2 + t)) (c + t) l m = pointMoment qr c l m := by
    intro l m
    unfold pointMoment
    simp only [List.map_map, Function.comp_def, add_sub_add_right_eq_sub]
  exact ⟨fun l hl => by rw [this]; exact hM.1 l hl, fun l m a b d => by rw [this]; exact hM.2 l m a b d⟩

example : IsMoments 4 (m2m (![0, 1, 0] - ![0, 0, 2]) 4 (getMoments 4 [(1, ![1, 2, 3])] ![0, 1, 0])
    (getMoments 4 [(2, ![0, 5, 3])] ![0, 0, 2]) Moments.zero) ([(2, ![0, 5, 3])] ++ [(1, ![1, 2, 3])]) ![0, 0, 2] :=
  c77_shift _ _ _ _ _ _ _ _ (c60_moments _ _ _) (c60_moments _ _ _)

/-! ### C78 -/

/-- C78: `transform_multipole` gives the moments of the rotated charges, for every orthogonal matrix. -/
theorem c78_rotate (T : Mat) (h : T * T.transpose = 1) (lmax : ℕ) (M : Moments) (qr : List (ℝ × Vec)) (c : Vec)
    (hM : IsMoments lmax M qr c) :
    IsMoments lmax (transformMoments T lmax M) (qr.map fun a => (a.1, c + T.mulVec (a.2 - c))) c :=
  transform_isMoments T h lmax M qr c hM

/-- C78: an image of the charges under `x ↦ s + T x` has the rotated moments about the image of the centre. -/
theorem c78_image (T : Mat) (h : T * T.transpose = 1) (lmax : ℕ) (M : Moments) (qr : List (ℝ × Vec)) (c s : Vec)
    (hM : IsMoments lmax M qr c) :
    IsMoments lmax (transformMoments T lmax M) (qr.map fun a => (a.1, s + T.mulVec a.2)) (s + T.mulVec c) := by
  have := c77_translate lmax _ _ _ (s + T.mulVec c - c) (c78_rotate T h lmax M qr c hM)
  rw [List.map_map] at this
  have e : c + (s + T.mulVec c - c) = s + T.mulVec c := by abel
  rw [e] at this
  convert this using 2
  funext a
  simp only [Function.comp_apply, Matrix.mulVec_sub]
  congr 1
  abel

example : (!![0, -1, 0; 1, 0, 0; 0, 0, 1] : Mat) * (!![0, -1, 0; 1, 0, 0; 0, 0, 1] : Mat).transpose = 1 := by
  ext i j; fin_cases i <;> fin_cases j <;> simp [Matrix.mul_apply, Fin.sum_univ_three]

end Hotbit
