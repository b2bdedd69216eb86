import Mathlib.Tactic
import Verif.Model.SlakoTable
import Verif.Lemmas.SegmentArea
import Verif.Props.SkfRepulsion

/-!
# The grid of the two-centre integrals (C98)
-/

namespace Hotbit

open Real MeasureTheory Set

/-! ### One element -/

/-- Where the line `z = h` meets the circle of radius `R`. -/
theorem th_facts {h R : ℝ} (h0 : 0 < h) (hR : h ≤ R) :
    cos (arccos (h / R)) = h / R ∧ 0 ≤ arccos (h / R) ∧ arccos (h / R) < π / 2 ∧
    (∀ θ, 0 ≤ θ → θ ≤ π → θ < arccos (h / R) → h < R * cos θ) ∧
    (∀ θ, 0 ≤ θ → θ ≤ π → arccos (h / R) ≤ θ → R * cos θ ≤ h) := by
  have hRp : 0 < R := h0.trans_le hR
  have hx : 0 < h / R := by positivity
  have hx1 : h / R ≤ 1 := (div_le_one hRp).2 hR
  have hc : cos (arccos (h / R)) = h / R := cos_arccos (by linarith) hx1
  refine ⟨hc, arccos_nonneg _, arccos_lt_pi_div_two.2 hx, fun θ h1 _ h3 => ?_, fun θ _ h2 h3 => ?_⟩
  · have := cos_lt_cos_of_nonneg_of_le_pi h1 (arccos_le_pi _) h3
    rw [hc, div_lt_iff₀ hRp] at this
    linarith
  · have := cos_le_cos_of_nonneg_of_le_pi (arccos_nonneg _) h2 h3
    rw [hc, le_div_iff₀ hRp] at this
    linarith

/-- What is to be shown of an element. -/
def CellOk (h Ra Rb Ta Tb : ℝ) : Option (ℝ × ℝ × ℝ) → Prop
  | none => h < Ra * cos Tb ∧ segmentArea h Ra Rb Ta Tb = 0
  | some (r0, t0, A) => A = segmentArea h Ra Rb Ta Tb ∧ Ra ≤ r0 ∧ r0 ≤ (Ra + Rb) / 2 ∧ Ta ≤ t0 ∧ t0 ≤ Tb

theorem cell_ok {h Ra Rb Ta Tb : ℝ} (h0 : 0 < h) (hRa : 0 < Ra) (hab : Ra < Rb) (hT0 : 0 ≤ Ta) (hT : Ta < Tb)
    (hTpi : Tb ≤ π) :
    IntervalIntegrable (radialArea h Ra Rb) volume Ta Tb ∧
    ∃ c, polarCell h Ra Rb Ta Tb = .ok c ∧ CellOk h Ra Rb Ta Tb c := by
  have hcos : ∀ θ, Ta ≤ θ → θ ≤ Tb → cos θ ≤ cos Ta ∧ cos Tb ≤ cos θ := fun θ h1 h2 =>
    ⟨cos_le_cos_of_nonneg_of_le_pi hT0 (by linarith) h1, cos_le_cos_of_nonneg_of_le_pi (by linarith) hTpi h2⟩
  have hRb : 0 < Rb := hRa.trans hab
  have hzero : ∀ x y : ℝ, 0.5 * (x + y) = (x + y) / 2 := fun x y => by norm_num; ring
  unfold polarCell
  simp only
  split_ifs with c1 c2 c3 c4 c5 c6
  · -- inside
    obtain ⟨e1, e2⟩ := segment_area (h := h) (ra := Ra) (rb := Rb) (ta := Ta) (a := Ta) (b := Ta) (tb := Tb) h0.le hRa.le
      hab.le le_rfl le_rfl hT.le (fun _ _ h => absurd h (lt_irrefl _)) (by simp) (by simp)
      (fun θ hθ => (mul_le_mul_of_nonneg_left (hcos θ hθ.1.le hθ.2.le).1 hRb.le).trans c1)
    refine ⟨e1, _, rfl, ?_, ?_, ?_, ?_, ?_⟩
    · rw [e2]; ring
    all_goals rw [hzero]
    all_goals linarith
  · -- corner 1
    obtain ⟨c21, c22, c23⟩ := c2
    have hhR : h ≤ Rb := by
      have := mul_le_mul_of_nonneg_left (cos_le_one Ta) hRb.le
      linarith
    obtain ⟨f1, f2, f3, f4, f5⟩ := th_facts h0 hhR
    have k1 : Ta < arccos (h / Rb) := by
      by_contra hn
      have := f5 Ta hT0 (by linarith) (not_lt.1 hn)
      linarith
    have k2 : arccos (h / Rb) ≤ Tb := by
      by_contra hn
      have := f4 Tb (by linarith) hTpi (not_le.1 hn)
      linarith
    obtain ⟨e1, e2⟩ := segment_area (h := h) (ra := Ra) (rb := Rb) (ta := Ta) (a := Ta) (b := arccos (h / Rb)) (tb := Tb)
      h0.le hRa.le hab.le le_rfl k1.le k2
      (fun θ hθ _ => cos_pos_of_mem_Ioo ⟨by linarith [hθ.1, pi_pos], by linarith [hθ.2]⟩) (by simp)
      (fun θ hθ => ⟨(mul_le_mul_of_nonneg_left (hcos θ hθ.1.le (hθ.2.le.trans k2)).1 hRa.le).trans c22,
        f4 θ (hT0.trans hθ.1.le) (by linarith [hθ.2]) hθ.2⟩)
      (fun θ hθ => f5 θ (f2.trans hθ.1.le) (by linarith [hθ.2]) hθ.1.le)
    refine ⟨e1, _, rfl, ?_, ?_, ?_, ?_, ?_⟩
    · rw [e2, show (0.5 : ℝ) = 1 / 2 by norm_num]; ring
    all_goals rw [hzero]
    all_goals linarith
  · -- corners 1 and 2
    obtain ⟨c31, c32, c33, c34⟩ := c3
    have hhR : h ≤ Ra := by
      have := mul_le_mul_of_nonneg_left (cos_le_one Ta) hRa.le
      linarith
    obtain ⟨f1, f2, f3, f4, f5⟩ := th_facts h0 hhR
    obtain ⟨g1, g2, g3, g4, g5⟩ := th_facts h0 (hhR.trans hab.le)
    have k1 : Ta < arccos (h / Ra) := by
      by_contra hn
      have := f5 Ta hT0 (by linarith) (not_lt.1 hn)
      linarith
    have k2 : arccos (h / Rb) ≤ Tb := by
      by_contra hn
      have := g4 Tb (by linarith) hTpi (not_le.1 hn)
      linarith
    have k3 : arccos (h / Ra) ≤ arccos (h / Rb) :=
      arccos_le_arccos (div_le_div_of_nonneg_left h0.le hRa hab.le)
    obtain ⟨e1, e2⟩ := segment_area (h := h) (ra := Ra) (rb := Rb) (ta := Ta) (a := arccos (h / Ra)) (b := arccos (h / Rb))
      (tb := Tb) h0.le hRa.le hab.le k1.le k3 k2
      (fun θ hθ _ => cos_pos_of_mem_Ioo ⟨by linarith [hθ.1, pi_pos], by linarith [hθ.2]⟩)
      (fun θ hθ => f4 θ (hT0.trans hθ.1.le) (by linarith [hθ.2]) hθ.2)
      (fun θ hθ => ⟨f5 θ (f2.trans hθ.1.le) (by linarith [hθ.2]) hθ.1.le,
        g4 θ (f2.trans hθ.1.le) (by linarith [hθ.2]) hθ.2⟩)
      (fun θ hθ => g5 θ (g2.trans hθ.1.le) (by linarith [hθ.2]) hθ.1.le)
    refine ⟨e1, _, rfl, ?_, ?_, ?_, ?_, ?_⟩
    · rw [e2, show (0.5 : ℝ) = 1 / 2 by norm_num]
      have : Tb - Ta ≠ 0 := by linarith
      field_simp
      ring
    all_goals rw [hzero]
    all_goals linarith
  · -- only corner 3 inside
    obtain ⟨c41, c42, c43, c44⟩ := c4
    have hhR : h ≤ Ra := by
      have := mul_le_mul_of_nonneg_left (cos_le_one Ta) hRa.le
      linarith
    obtain ⟨f1, f2, f3, f4, f5⟩ := th_facts h0 hhR
    have hcb : 0 < cos Tb := by
      by_contra hn
      have := mul_nonpos_of_nonneg_of_nonpos hRb.le (not_lt.1 hn)
      linarith
    have k1 : Ta < arccos (h / Ra) := by
      by_contra hn
      have := f5 Ta hT0 (by linarith) (not_lt.1 hn)
      linarith
    have k2 : arccos (h / Ra) ≤ Tb := by
      by_contra hn
      have := f4 Tb (by linarith) hTpi (not_le.1 hn)
      linarith
    obtain ⟨e1, e2⟩ := segment_area (h := h) (ra := Ra) (rb := Rb) (ta := Ta) (a := arccos (h / Ra)) (b := Tb)
      (tb := Tb) h0.le hRa.le hab.le k1.le k2 le_rfl
      (fun θ hθ _ => hcb.trans_le (hcos θ (k1.le.trans hθ.1) hθ.2).2)
      (fun θ hθ => f4 θ (hT0.trans hθ.1.le) (by linarith [hθ.2]) hθ.2)
      (fun θ hθ => ⟨f5 θ (f2.trans hθ.1.le) (by linarith [hθ.2]) hθ.1.le,
        c43.trans_le (mul_le_mul_of_nonneg_left (hcos θ (k1.le.trans hθ.1.le) hθ.2.le).2 hRb.le)⟩)
      (by simp)
    have l1 : Ra ≤ h / cos Tb := (le_div_iff₀ hcb).2 c44
    have l2 : h / cos Tb ≤ Rb := (div_le_iff₀ hcb).2 c43.le
    refine ⟨e1, _, rfl, ?_, ?_, ?_, ?_, ?_⟩
    · rw [e2, show (0.5 : ℝ) = 1 / 2 by norm_num]; ring
    all_goals rw [hzero]
    all_goals linarith
  · -- corners 1 and 4
    obtain ⟨c51, c52, c53, c54⟩ := c5
    have hcb : 0 < cos Tb := by
      by_contra hn
      have := mul_nonpos_of_nonneg_of_nonpos hRb.le (not_lt.1 hn)
      linarith
    obtain ⟨e1, e2⟩ := segment_area (h := h) (ra := Ra) (rb := Rb) (ta := Ta) (a := Ta) (b := Tb)
      (tb := Tb) h0.le hRa.le hab.le le_rfl hT.le le_rfl
      (fun θ hθ _ => hcb.trans_le (hcos θ hθ.1 hθ.2).2) (by simp)
      (fun θ hθ => ⟨(mul_le_mul_of_nonneg_left (hcos θ hθ.1.le hθ.2.le).1 hRa.le).trans c53,
        c52.trans_le (mul_le_mul_of_nonneg_left (hcos θ hθ.1.le hθ.2.le).2 hRb.le)⟩)
      (by simp)
    have l1 : Ra ≤ h / cos Tb := (le_div_iff₀ hcb).2 c54
    have l2 : h / cos Tb ≤ Rb := (div_le_iff₀ hcb).2 c52.le
    refine ⟨e1, _, rfl, ?_, ?_, ?_, ?_, ?_⟩
    · rw [e2, show (0.5 : ℝ) = 1 / 2 by norm_num]; ring
    all_goals rw [hzero]
    all_goals linarith
  · -- outside
    have hcb : 0 < cos Tb := by
      by_contra hn
      have := mul_nonpos_of_nonneg_of_nonpos hRa.le (not_lt.1 hn)
      linarith
    obtain ⟨e1, e2⟩ := segment_area (h := h) (ra := Ra) (rb := Rb) (ta := Ta) (a := Tb) (b := Tb)
      (tb := Tb) h0.le hRa.le hab.le hT.le le_rfl le_rfl
      (fun _ _ h => absurd h (lt_irrefl _))
      (fun θ hθ => c6.trans_le (mul_le_mul_of_nonneg_left (hcos θ hθ.1.le hθ.2.le).2 hRa.le)) (by simp) (by simp)
    refine ⟨e1, _, rfl, c6, ?_⟩
    rw [e2]
    ring
  · -- impossible
    exfalso
    have d1 : Ra * cos Tb ≤ Ra * cos Ta := mul_le_mul_of_nonneg_left (hcos Tb hT.le le_rfl).1 hRa.le
    have c1' := not_le.1 c1
    by_cases z2 : Ra * cos Ta ≤ h
    · by_cases z4 : Rb * cos Tb ≤ h
      · exact c2 ⟨c1', z2, z4⟩
      · exact c5 ⟨c1', not_le.1 z4, z2, d1.trans z2⟩
    · have z2' := not_le.1 z2
      by_cases z3 : Ra * cos Tb ≤ h
      · by_cases z4 : Rb * cos Tb ≤ h
        · exact c3 ⟨c1', z2', z3, z4⟩
        · exact c4 ⟨c1', z2', not_le.1 z4, z3⟩
      · exact c6 (not_le.1 z3)

/-- **C98.** Every element of the polar grid has a centre and an area ("Illegal coordinates" is never raised): the
area is that of the part of the ring segment below the plane between the atoms, exactly, and the centre lies between the
radii and angles of the segment; an element is left out only if no part of it is below the plane. -/
theorem c98_cell {h Ra Rb Ta Tb : ℝ} (h0 : 0 < h) (hRa : 0 < Ra) (hab : Ra < Rb) (hT0 : 0 ≤ Ta) (hT : Ta < Tb)
    (hTpi : Tb ≤ π) :
    (polarCell h Ra Rb Ta Tb = .ok none ∧ segmentArea h Ra Rb Ta Tb = 0) ∨
    ∃ r0 t0, polarCell h Ra Rb Ta Tb = .ok (some (r0, t0, segmentArea h Ra Rb Ta Tb)) ∧
      Ra ≤ r0 ∧ r0 ≤ Rb ∧ Ta ≤ t0 ∧ t0 ≤ Tb := by
  obtain ⟨-, c, hc, ok⟩ := cell_ok h0 hRa hab hT0 hT hTpi
  cases c with
  | none => exact Or.inl ⟨hc, ok.2⟩
  | some p =>
    obtain ⟨r0, t0, A⟩ := p
    obtain ⟨a, b, c, d, e⟩ := ok
    subst a
    exact Or.inr ⟨r0, t0, hc, b, by linarith, d, e⟩

example : (0 : ℝ) < 1 ∧ (0 : ℝ) < 1 ∧ (1 : ℝ) < 2 ∧ (0 : ℝ) ≤ 0 ∧ (0 : ℝ) < π / 2 ∧ π / 2 ≤ π := by
  refine ⟨by norm_num, by norm_num, by norm_num, le_rfl, by positivity, by linarith [pi_pos]⟩

/-- **C98.** But the centre need not be below the plane: of an element with only its lowest corner below, it is always
above. -/
theorem c98_centre_fails {h Ra Rb Ta Tb : ℝ} (h0 : 0 < h) (hRa : 0 < Ra) (hab : Ra < Rb) (hT0 : 0 ≤ Ta) (hT : Ta < Tb)
    (hTpi : Tb ≤ π) (z2 : h < Ra * cos Ta) (z3 : Ra * cos Tb < h) (z4 : h < Rb * cos Tb) :
    ∃ r0 t0 A, polarCell h Ra Rb Ta Tb = .ok (some (r0, t0, A)) ∧ h < r0 * cos t0 := by
  have hRb : 0 < Rb := hRa.trans hab
  have z1 : h < Rb * cos Ta := z4.trans_le (mul_le_mul_of_nonneg_left
    (cos_le_cos_of_nonneg_of_le_pi hT0 hTpi hT.le) hRb.le)
  have hhR : h ≤ Ra := by
    have := mul_le_mul_of_nonneg_left (cos_le_one Ta) hRa.le
    linarith
  obtain ⟨f1, f2, f3, f4, f5⟩ := th_facts h0 hhR
  refine ⟨0.5 * (Ra + h / cos Tb), 0.5 * (arccos (h / Ra) + Tb),
    0.5 * h ^ 2 * (tan Tb - tan (arccos (h / Ra))) - 0.5 * Ra ^ 2 * (Tb - arccos (h / Ra)), ?_, ?_⟩
  · unfold polarCell
    simp only
    rw [if_neg (not_le.2 z1), if_neg (fun hh => absurd hh.2.1 (not_le.2 z2)),
      if_neg (fun hh => absurd hh.2.2.2 (not_le.2 z4)), if_pos ⟨z1, z2, z4, z3.le⟩]
  · have hcb : 0 < cos Tb := by
      by_contra hn
      have := mul_nonpos_of_nonneg_of_nonpos hRb.le (not_lt.1 hn)
      linarith
    set a := arccos (h / Ra) with ha
    have hTb2 : Tb < π / 2 := by
      by_contra hn
      have := cos_nonpos_of_pi_div_two_le_of_le (not_lt.1 hn) (by linarith)
      linarith
    have hab' : a < Tb := by
      by_contra hn
      have h1 := cos_le_cos_of_nonneg_of_le_pi (by linarith) (by linarith) (not_lt.1 hn)
      rw [f1, div_le_iff₀ hRa] at h1
      linarith
    have hca : 0 < cos a := by rw [f1]; positivity
    have hRa' : Ra = h / cos a := by
      rw [f1]
      field_simp
    set m := (a + Tb) / 2 with hm
    set k := (Tb - a) / 2 with hk
    have e1 : a = m - k := by rw [hm, hk]; ring
    have e2 : Tb = m + k := by rw [hm, hk]; ring
    have hkp : 0 < k := by rw [hk]; linarith
    have hk1 : cos k < 1 := by
      rw [← cos_zero]
      exact cos_lt_cos_of_nonneg_of_le_pi le_rfl (by rw [hk]; linarith) hkp
    have hck : 0 < cos k := cos_pos_of_mem_Ioo ⟨by linarith, by rw [hk]; linarith⟩
    have hcm : 0 < cos m := cos_pos_of_mem_Ioo ⟨by rw [hm]; linarith, by rw [hm]; linarith⟩
    rw [show 0.5 * (a + Tb) = m by rw [hm]; norm_num; ring, hRa']
    have ca : cos a = cos m * cos k + sin m * sin k := by rw [e1, cos_sub]
    have cb : cos Tb = cos m * cos k - sin m * sin k := by rw [e2, cos_add]
    have : 0.5 * (h / cos a + h / cos Tb) * cos m = h * (cos m ^ 2 * cos k / (cos a * cos Tb)) := by
      rw [show (0.5 : ℝ) = 1 / 2 by norm_num]
      have : cos a + cos Tb = 2 * cos m * cos k := by rw [ca, cb]; ring
      field_simp
      linear_combination this
    rw [this]
    have hlt : cos a * cos Tb < cos m ^ 2 * cos k := by
      rw [ca, cb]
      have s1 := sin_sq_add_cos_sq m
      have s2 := sin_sq_add_cos_sq k
      have : (cos m * cos k + sin m * sin k) * (cos m * cos k - sin m * sin k) = cos m ^ 2 - sin k ^ 2 := by
        linear_combination cos m ^ 2 * s2 - sin k ^ 2 * s1
      rw [this]
      have hm1 : cos m ≤ 1 := cos_le_one m
      have hm2 : cos m ^ 2 ≤ 1 := by nlinarith
      have := mul_pos (sub_pos.2 hk1) (show 0 < 1 + cos k - cos m ^ 2 by linarith)
      nlinarith
    have hpos : 0 < cos a * cos Tb := mul_pos hca hcb
    have : 1 < cos m ^ 2 * cos k / (cos a * cos Tb) := (one_lt_div hpos).2 hlt
    nlinarith

example : (1 : ℝ) < 1.2 * cos 0 ∧ 1.2 * cos (π / 4) < 1 ∧ 1 < 2 * cos (π / 4) := by
  rw [cos_zero, cos_pi_div_four]
  have h1 : (1.4 : ℝ) < √2 := lt_sqrt_of_sq_lt (by norm_num)
  have h2 : √2 < 1.5 := by
    rw [sqrt_lt' (by norm_num)]
    norm_num
  refine ⟨by norm_num, by linarith, by linarith⟩

/-! ### The whole grid -/

theorem unit_getD {n i : ℕ} (hn : 2 ≤ n) (hi : i < n) : (linspace 0 1 n).getD i 0 = i / ((n : ℝ) - 1) := by
  rw [linspace_getD (by omega) hi]
  unfold repGrid
  ring

theorem unit_mono {n : ℕ} (hn : 2 ≤ n) {p i j : ℕ} (hp : 1 ≤ p) (hij : i < j) (hj : j < n) :
    0 ≤ (linspace 0 1 n).getD i 0 ∧ (linspace 0 1 n).getD i 0 ^ p < (linspace 0 1 n).getD j 0 ^ p ∧
      (linspace 0 1 n).getD j 0 ≤ 1 := by
  rw [unit_getD hn (hij.trans hj), unit_getD hn hj]
  have hn' : (2 : ℝ) ≤ n := by exact_mod_cast hn
  have hd : 0 < (n : ℝ) - 1 := by linarith
  have hij' : (i : ℝ) < j := by exact_mod_cast hij
  have hj' : (j : ℝ) ≤ n - 1 := by
    have : j + 1 ≤ n := hj
    have : (j : ℝ) + 1 ≤ n := by exact_mod_cast this
    linarith
  refine ⟨by positivity, ?_, (div_le_one hd).2 hj'⟩
  exact pow_lt_pow_left₀ (div_lt_div_of_pos_right hij' hd) (by positivity) (by omega)

theorem polarT_mono {nt p i j : ℕ} (hn : 2 ≤ nt) (hp : 1 ≤ p) (hij : i < j) (hj : j < nt) :
    0 ≤ polarT nt p i ∧ polarT nt p i < polarT nt p j ∧ polarT nt p j ≤ π := by
  obtain ⟨a, b, c⟩ := unit_mono hn hp hij hj
  have hpi := pi_pos
  unfold polarT
  refine ⟨by positivity, by nlinarith, ?_⟩
  have : (linspace 0 1 nt).getD j 0 ^ p ≤ 1 := pow_le_one₀ (by
    obtain ⟨a', -, -⟩ := unit_mono hn hp hij hj
    have := unit_getD hn hj
    have hn' : (2 : ℝ) ≤ nt := by exact_mod_cast hn
    have hd : 0 < (nt : ℝ) - 1 := by linarith
    rw [this]; positivity) c
  nlinarith

theorem polarT_ends {nt p : ℕ} (hn : 2 ≤ nt) (hp : 1 ≤ p) : polarT nt p 0 = 0 ∧ polarT nt p (nt - 1) = π := by
  have hn' : (2 : ℝ) ≤ nt := by exact_mod_cast hn
  unfold polarT
  rw [unit_getD hn (by omega), unit_getD hn (by omega), Nat.cast_sub (by omega)]
  constructor
  · simp
    omega
  · rw [Nat.cast_one, div_self (by linarith)]
    simp

theorem polarR_mono {rmax : ℝ} (hr : 1 / 10 ^ 7 < rmax) {nr q i j : ℕ} (hn : 2 ≤ nr) (hq : 1 ≤ q) (hij : i < j) (hj : j < nr) :
    0 < polarR rmax nr q i ∧ polarR rmax nr q i < polarR rmax nr q j ∧ polarR rmax nr q j ≤ rmax := by
  obtain ⟨a, b, c⟩ := unit_mono hn hq hij hj
  unfold polarR
  have h1 : 0 < rmax - 1 / 10 ^ 7 := by linarith
  have : (linspace 0 1 nr).getD j 0 ^ q ≤ 1 := pow_le_one₀ (by
    have := unit_getD hn hj
    have hn' : (2 : ℝ) ≤ nr := by exact_mod_cast hn
    have hd : 0 < (nr : ℝ) - 1 := by linarith
    rw [this]; positivity) c
  refine ⟨by positivity, by nlinarith, by nlinarith⟩

theorem polarR_ends {rmax : ℝ} {nr q : ℕ} (hn : 2 ≤ nr) (hq : 1 ≤ q) :
    polarR rmax nr q 0 = 1 / 10 ^ 7 ∧ polarR rmax nr q (nr - 1) = rmax := by
  have hn' : (2 : ℝ) ≤ nr := by exact_mod_cast hn
  unfold polarR
  rw [unit_getD hn (by omega), unit_getD hn (by omega), Nat.cast_sub (by omega)]
  constructor
  · simp
    left
    omega
  · rw [Nat.cast_one, div_self (by linarith)]
    simp

/-- What holds of the elements of the grid. -/
def GoodCell (c : ℝ × ℝ × ℝ × ℝ) : Prop := 0 < c.1 ∧ c.1 < c.2.1 ∧ 0 ≤ c.2.2.1 ∧ c.2.2.1 < c.2.2.2 ∧ c.2.2.2 ≤ π

theorem polarCells_good {rmax : ℝ} (hr : 1 / 10 ^ 7 < rmax) {nt nr p q : ℕ} (hnt : 2 ≤ nt) (hnr : 2 ≤ nr) (hp : 1 ≤ p)
    (hq : 1 ≤ q) : ∀ c ∈ polarCells rmax nt nr p q, GoodCell c ∧ c.2.1 ≤ rmax ∧ c.1 ≤ polarR rmax nr q (nr - 2) := by
  intro c hc
  simp only [polarCells, List.mem_flatMap, List.mem_map, List.mem_range] at hc
  obtain ⟨j, hj, i, hi, rfl⟩ := hc
  obtain ⟨a1, a2, a3⟩ := polarR_mono hr hnr hq (show i < i + 1 by omega) (by omega)
  obtain ⟨b1, b2, b3⟩ := polarT_mono hnt hp (show j < j + 1 by omega) (by omega)
  refine ⟨⟨a1, a2, b1, b2, b3⟩, a3, ?_⟩
  rcases Nat.lt_or_ge i (nr - 2) with h | h
  · exact (polarR_mono hr hnr hq h (by omega)).2.1.le
  · rw [show nr - 2 = i by omega]

/-- The loop over the elements. -/
theorem polarLoop_ok {Rz wf : ℝ} (hR : 0 < Rz) {cells : List (ℝ × ℝ × ℝ × ℝ)} (hg : ∀ c ∈ cells, GoodCell c) {bound : Bool}
    (hb : bound = true ∨ ∀ c ∈ cells.head?, c.1 * cos c.2.2.2 ≤ Rz / 2) :
    ∃ pts, polarLoop Rz wf cells bound = .ok pts ∧
      ∀ x ∈ pts, 0 < x.2 ∧ 0 ≤ x.1.1 ∧ √(x.1.1 ^ 2 + x.1.2 ^ 2) < wf ∧ √(x.1.1 ^ 2 + (Rz - x.1.2) ^ 2) < wf ∧
        ∃ c ∈ cells, x.2 = segmentArea (Rz / 2) c.1 c.2.1 c.2.2.1 c.2.2.2 ∧
          √(x.1.1 ^ 2 + x.1.2 ^ 2) ≤ (c.1 + c.2.1) / 2 := by
  induction cells generalizing bound with
  | nil => exact ⟨[], rfl, by simp⟩
  | cons c cs ih =>
    obtain ⟨Ra, Rb, Ta, Tb⟩ := c
    obtain ⟨g1, g2, g3, g4, g5⟩ := hg _ (List.mem_cons_self)
    simp only at g1 g2 g3 g4 g5
    obtain ⟨-, c, hc, ok⟩ := cell_ok (h := Rz / 2) (by positivity) g1 g2 g3 g4 g5
    cases c with
    | none =>
      have hbt : bound = true := by
        rcases hb with h | h
        · exact h
        · have := h (Ra, Rb, Ta, Tb) (by simp)
          simp only at this
          have := ok.1
          linarith
      obtain ⟨pts, h1, h2⟩ := ih (fun c hc => hg c (List.mem_cons_of_mem _ hc)) (bound := true) (Or.inl rfl)
      refine ⟨pts, ?_, fun x hx => ?_⟩
      · rw [polarLoop]
        simp only [hc, bind, Except.bind]
        rw [if_pos hbt, hbt, h1]
      · obtain ⟨a, b, c, d, c', hc', e⟩ := h2 x hx
        exact ⟨a, b, c, d, c', List.mem_cons_of_mem _ hc', e⟩
    | some t =>
      obtain ⟨r0, t0, A⟩ := t
      obtain ⟨o1, o2, o3, o4, o5⟩ := ok
      obtain ⟨pts, h1, h2⟩ := ih (fun c hc => hg c (List.mem_cons_of_mem _ hc)) (bound := true) (Or.inl rfl)
      have hr0 : 0 < r0 := g1.trans_le o2
      have hd : 0 ≤ r0 * sin t0 := mul_nonneg hr0.le (sin_nonneg_of_nonneg_of_le_pi (g3.trans o4) (o5.trans g5))
      have hrr : √((r0 * sin t0) ^ 2 + (r0 * cos t0) ^ 2) = r0 := by
        rw [show (r0 * sin t0) ^ 2 + (r0 * cos t0) ^ 2 = r0 ^ 2 by
          linear_combination r0 ^ 2 * sin_sq_add_cos_sq t0]
        exact sqrt_sq hr0.le
      have hrest : ∀ x ∈ pts, 0 < x.2 ∧ 0 ≤ x.1.1 ∧ √(x.1.1 ^ 2 + x.1.2 ^ 2) < wf ∧
          √(x.1.1 ^ 2 + (Rz - x.1.2) ^ 2) < wf ∧ ∃ c ∈ (Ra, Rb, Ta, Tb) :: cs,
            x.2 = segmentArea (Rz / 2) c.1 c.2.1 c.2.2.1 c.2.2.2 ∧
            √(x.1.1 ^ 2 + x.1.2 ^ 2) ≤ (c.1 + c.2.1) / 2 := by
        intro x hx
        obtain ⟨a, b, c, d, c', hc', e⟩ := h2 x hx
        exact ⟨a, b, c, d, c', List.mem_cons_of_mem _ hc', e⟩
      by_cases hk : A > 0 ∧ √((r0 * sin t0) ^ 2 + (r0 * cos t0) ^ 2) < wf ∧
          √((r0 * sin t0) ^ 2 + (Rz - r0 * cos t0) ^ 2) < wf
      · refine ⟨((r0 * sin t0, r0 * cos t0), A) :: pts, ?_, ?_⟩
        · rw [polarLoop]
          simp only [hc, bind, Except.bind, h1]
          rw [if_pos hk]
          rfl
        · intro x hx
          rcases List.mem_cons.1 hx with rfl | hx
          · exact ⟨hk.1, hd, hk.2.1, hk.2.2, (Ra, Rb, Ta, Tb), List.mem_cons_self, o1, by
              change √((r0 * sin t0) ^ 2 + (r0 * cos t0) ^ 2) ≤ (Ra + Rb) / 2
              rw [hrr]; exact o3⟩
          · exact hrest x hx
      · refine ⟨pts, ?_, hrest⟩
        rw [polarLoop]
        simp only [hc, bind, Except.bind, h1]
        rw [if_neg hk]
        rfl

theorem polarLoop_grid {wf Rz : ℝ} (hwf : 1 / 10 ^ 7 < wf) (hR : 1 / 10 ^ 3 ≤ Rz) {nt nr p q : ℕ} (hnt : 2 ≤ nt)
    (hnr : 2 ≤ nr) (hp : 1 ≤ p) (hq : 1 ≤ q) :
    ∃ pts, polarLoop Rz wf (polarCells wf nt nr p q) false = .ok pts ∧
      ∀ x ∈ pts, 0 < x.2 ∧ 0 ≤ x.1.1 ∧ √(x.1.1 ^ 2 + x.1.2 ^ 2) < wf ∧ √(x.1.1 ^ 2 + (Rz - x.1.2) ^ 2) < wf ∧
        ∃ c ∈ polarCells wf nt nr p q, x.2 = segmentArea (Rz / 2) c.1 c.2.1 c.2.2.1 c.2.2.2 ∧
          √(x.1.1 ^ 2 + x.1.2 ^ 2) ≤ (c.1 + c.2.1) / 2 := by
  have hgood := polarCells_good hwf hnt hnr hp hq
  refine polarLoop_ok (lt_of_lt_of_le (by norm_num) hR) (fun c hc => (hgood c hc).1) (Or.inr fun c hc => ?_)
  have hhead : (polarCells wf nt nr p q).head? =
      some (polarR wf nr q 0, polarR wf nr q 1, polarT nt p 0, polarT nt p 1) := by
    obtain ⟨a, rfl⟩ := Nat.exists_eq_add_of_le hnt
    obtain ⟨b, rfl⟩ := Nat.exists_eq_add_of_le hnr
    unfold polarCells
    rw [show 2 + a - 1 = a + 1 by omega, show 2 + b - 1 = b + 1 by omega, List.range_succ_eq_map, List.range_succ_eq_map]
    simp
  rw [hhead] at hc
  simp only [Option.mem_def, Option.some.injEq] at hc
  subst hc
  simp only
  rw [(polarR_ends hnr hq).1]
  have := cos_le_one (polarT nt p 1)
  nlinarith

theorem mirror_mirror (Rz : ℝ) (x : (ℝ × ℝ) × ℝ) : mirrorPoint Rz (mirrorPoint Rz x) = x := by
  unfold mirrorPoint
  obtain ⟨⟨d, z⟩, A⟩ := x
  simp

/-- **C98.** The grid, when it is made: the points have positive areas and are closer than the range to both atoms,
and the grid is its own mirror image; the only thing that can go wrong is that there are no points. -/
theorem c98_grid {wf Rz : ℝ} (hwf : 1 / 10 ^ 7 < wf) (hR : 1 / 10 ^ 3 ≤ Rz) {nt nr p q : ℕ} (hnt : 2 ≤ nt)
    (hnr : 2 ≤ nr) (hp : 1 ≤ p) (hq : 1 ≤ q) :
    makePolarGrid wf Rz nt nr p q = .error .indexError ∨
    ∃ pts, makePolarGrid wf Rz nt nr p q = .ok pts ∧ pts ≠ [] ∧
      (∀ x ∈ pts, 0 < x.2 ∧ 0 ≤ x.1.1 ∧ √(x.1.1 ^ 2 + x.1.2 ^ 2) < wf ∧ √(x.1.1 ^ 2 + (Rz - x.1.2) ^ 2) < wf) ∧
      (pts.map fun x => ((x.1.1, Rz - x.1.2), x.2)).Perm pts := by
  obtain ⟨pts, h1, h2⟩ := polarLoop_grid hwf hR hnt hnr hp hq
  have hmir : (fun x : (ℝ × ℝ) × ℝ => ((x.1.1, Rz - x.1.2), x.2)) = mirrorPoint Rz := by
    funext x
    unfold mirrorPoint
    congr 2
    ring
  unfold makePolarGrid
  simp only [h1, bind, Except.bind]
  split_ifs with he
  · exact Or.inl rfl
  · refine Or.inr ⟨_, rfl, ?_, ?_, ?_⟩
    · intro h
      simp at h
      simp [h] at he
    · intro x hx
      rcases List.mem_append.1 hx with hx | hx
      · obtain ⟨a, b, c, d, -⟩ := h2 x hx
        exact ⟨a, b, c, d⟩
      · obtain ⟨y, hy, rfl⟩ := List.mem_map.1 hx
        obtain ⟨a, b, c, d, -⟩ := h2 y hy
        refine ⟨a, b, ?_, ?_⟩
        · rw [← hmir]
          exact d
        · rw [← hmir]
          simp only [sub_sub_cancel]
          exact c
    · rw [hmir, List.map_append, List.map_map]
      have : (mirrorPoint Rz ∘ mirrorPoint Rz) = id := funext (mirror_mirror Rz)
      rw [this, List.map_id]
      exact List.perm_append_comm

/-- **C98.** Distances just below twice the range, for which integrals are asked, always fail: there are no points,
and the program stops with an `IndexError`. -/
theorem c98_empty_fails {wf Rz : ℝ} (hwf : 1 / 10 ^ 7 < wf) (hR : 1 / 10 ^ 3 ≤ Rz) {nt nr p q : ℕ} (hnt : 2 ≤ nt)
    (hnr : 2 ≤ nr) (hp : 1 ≤ p) (hq : 1 ≤ q) (hfar : wf + (polarR wf nr q (nr - 2) + wf) / 2 ≤ Rz) :
    makePolarGrid wf Rz nt nr p q = .error .indexError := by
  obtain ⟨pts, h1, h2⟩ := polarLoop_grid hwf hR hnt hnr hp hq
  have hgood := polarCells_good hwf hnt hnr hp hq
  have : pts = [] := by
    rw [List.eq_nil_iff_forall_not_mem]
    intro x hx
    obtain ⟨a, b, c, d, cl, hcl, -, e⟩ := h2 x hx
    obtain ⟨g1, g2, g3⟩ := hgood cl hcl
    have hz : x.1.2 ≤ √(x.1.1 ^ 2 + x.1.2 ^ 2) := le_sqrt_of_sq_le (by nlinarith [sq_nonneg x.1.1])
    have hz2 : Rz - x.1.2 ≤ √(x.1.1 ^ 2 + (Rz - x.1.2) ^ 2) := le_sqrt_of_sq_le (by nlinarith [sq_nonneg x.1.1])
    linarith
  unfold makePolarGrid
  simp only [h1, bind, Except.bind, this]
  rfl

/-- With the default of 50 radii and a range of 8 Bohr all distances from 15.9 to 16 are affected, although
integrals are asked for up to 16. -/
example : (8 : ℝ) + (polarR 8 50 2 (50 - 2) + 8) / 2 ≤ 15.9 := by
  unfold polarR
  rw [unit_getD (by norm_num) (by norm_num)]
  norm_num

/-! ### The areas add up -/

theorem radial_add {h ra rb rc θ : ℝ} (h0 : 0 ≤ h) (hra : 0 ≤ ra) (hab : ra ≤ rb) (hbc : rb ≤ rc) :
    radialArea h ra rb θ + radialArea h rb rc θ = radialArea h ra rc θ := by
  unfold radialArea
  exact intervalIntegral.integral_add_adjacent_intervals (radial_all h ra rb θ h0 hra hab).1
    (radial_all h rb rc θ h0 (hra.trans hab) hbc).1

theorem area_radii {h ta tb : ℝ} (h0 : 0 < h) (hT0 : 0 ≤ ta) (hT : ta < tb) (hTpi : tb ≤ π) (R : ℕ → ℝ) {n : ℕ}
    (hR0 : 0 < R 0) (hR : ∀ i < n, R i < R (i + 1)) :
    (∑ i ∈ Finset.range n, segmentArea h (R i) (R (i + 1)) ta tb = segmentArea h (R 0) (R n) ta tb) ∧
      IntervalIntegrable (radialArea h (R 0) (R n)) volume ta tb := by
  have hmono : ∀ k ≤ n, R 0 ≤ R k := by
    intro k hk
    induction k with
    | zero => exact le_rfl
    | succ k ih => exact (ih (by omega)).trans (hR k (by omega)).le
  induction n with
  | zero =>
    have hz : radialArea h (R 0) (R 0) = fun _ => 0 := by
      funext θ
      unfold radialArea
      simp
    refine ⟨?_, by rw [hz]; simp⟩
    rw [segmentArea_eq, hz]
    simp
  | succ n ih =>
    obtain ⟨e1, e2⟩ := ih (fun i hi => hR i (by omega)) (fun k hk => hmono k (by omega))
    have e3 := (cell_ok h0 (lt_of_lt_of_le hR0 (hmono n (by omega))) (hR n (by omega)) hT0 hT hTpi).1
    have hadd : radialArea h (R 0) (R (n + 1)) = fun θ => radialArea h (R 0) (R n) θ + radialArea h (R n) (R (n + 1)) θ :=
      funext fun θ => (radial_add h0.le hR0.le (hmono n (by omega)) (hR n (by omega)).le).symm
    constructor
    · rw [Finset.sum_range_succ, e1]
      simp only [segmentArea_eq]
      rw [hadd, intervalIntegral.integral_add e2 e3]
    · rw [hadd]
      exact e2.add e3

/-- **C98.** The areas of all elements add up to the area of the half plane up to the range, below the plane between the
atoms: no part is missing or counted twice. -/
theorem c98_cover {wf Rz : ℝ} (hwf : 1 / 10 ^ 7 < wf) (hR : 0 < Rz) {nt nr p q : ℕ} (hnt : 2 ≤ nt)
    (hnr : 2 ≤ nr) (hp : 1 ≤ p) (hq : 1 ≤ q) :
    ((polarCells wf nt nr p q).map fun c => segmentArea (Rz / 2) c.1 c.2.1 c.2.2.1 c.2.2.2).sum =
      segmentArea (Rz / 2) (1 / 10 ^ 7) wf 0 π := by
  have hR2 : 0 < Rz / 2 := by positivity
  have hrow : ∀ j < nt - 1, (∑ i ∈ Finset.range (nr - 1), segmentArea (Rz / 2) (polarR wf nr q i) (polarR wf nr q (i + 1))
      (polarT nt p j) (polarT nt p (j + 1)) = segmentArea (Rz / 2) (1 / 10 ^ 7) wf (polarT nt p j) (polarT nt p (j + 1))) ∧
      IntervalIntegrable (radialArea (Rz / 2) (1 / 10 ^ 7) wf) volume (polarT nt p j) (polarT nt p (j + 1)) := by
    intro j hj
    obtain ⟨b1, b2, b3⟩ := polarT_mono hnt hp (show j < j + 1 by omega) (by omega)
    have := area_radii hR2 b1 b2 b3 (polarR wf nr q) (n := nr - 1)
      (by rw [(polarR_ends hnr hq).1]; norm_num)
      (fun i hi => (polarR_mono hwf hnr hq (show i < i + 1 by omega) (by omega)).2.1)
    rwa [(polarR_ends hnr hq).1, (polarR_ends hnr hq).2] at this
  have hlist : ((polarCells wf nt nr p q).map fun c => segmentArea (Rz / 2) c.1 c.2.1 c.2.2.1 c.2.2.2).sum =
      ∑ j ∈ Finset.range (nt - 1), ∑ i ∈ Finset.range (nr - 1), segmentArea (Rz / 2) (polarR wf nr q i)
        (polarR wf nr q (i + 1)) (polarT nt p j) (polarT nt p (j + 1)) := by
    unfold polarCells
    rw [List.map_flatMap, List.flatMap_def, List.sum_flatten, List.map_map]
    simp only [Function.comp_def, List.map_map]
    simp only [list_range_sum]
  rw [hlist, Finset.sum_congr rfl (fun j hj => (hrow j (Finset.mem_range.1 hj)).1)]
  have hall := intervalIntegral.sum_integral_adjacent_intervals (f := radialArea (Rz / 2) (1 / 10 ^ 7) wf) (μ := volume)
    (a := polarT nt p) (n := nt - 1) (fun j hj => (hrow j hj).2)
  rw [(polarT_ends hnt hp).1, (polarT_ends hnt hp).2] at hall
  exact hall

end Hotbit
