import Verif.Model.FdForces
import Mathlib.Analysis.Calculus.Deriv.MeanValue
import Mathlib.Analysis.Calculus.Deriv.Pow
import Mathlib.Analysis.Calculus.Deriv.Mul
import Mathlib.Analysis.Calculus.Deriv.Comp
import Mathlib.Analysis.Calculus.Deriv.Add

/-! # C128: checking forces, fields and stress by finite differences -/

namespace Hotbit

/-! ## What is meant -/

/-- The structure with one coordinate of one atom moved by `t`. -/
noncomputable def movedBy {n : ℕ} (P : Places n) (a : Fin n) (c : Fin 3) (t : ℝ) : Places n :=
  fun b d => if b = a ∧ d = c then P b d + t else P b d

/-- The strain with the only component `t` at `i`, `j`, applied to cell and positions. -/
noncomputable def strainedBy {n : ℕ} (s : Mat × Places n) (i j : Fin 3) (t : ℝ) : Mat × Places n :=
  (s.1 * (1 + Matrix.single i j t), fun a => Matrix.vecMul (s.2 a) (1 + Matrix.single i j t))

/-- `f` has the derivatives `f1`, `f2`, `f3` up to `h` on both sides of zero, the third bounded by `M`. -/
def ThriceDifferentiable (f f1 f2 f3 : ℝ → ℝ) (h M : ℝ) : Prop :=
  ∀ t, |t| ≤ h → HasDerivAt f (f1 t) t ∧ HasDerivAt f1 (f2 t) t ∧ HasDerivAt f2 (f3 t) t ∧ |f3 t| ≤ M

/-! ## Central differences -/

theorem nonpos_of_deriv {g g' : ℝ → ℝ} {h : ℝ} (h0 : g 0 ≤ 0) (hd : ∀ t ∈ Set.Icc 0 h, HasDerivAt g (g' t) t)
    (hs : ∀ t ∈ Set.Icc 0 h, g' t ≤ 0) : ∀ t ∈ Set.Icc 0 h, g t ≤ 0 := by
  have ha : AntitoneOn g (Set.Icc 0 h) := by
    refine antitoneOn_of_deriv_nonpos (convex_Icc 0 h) (fun t ht => (hd t ht).continuousAt.continuousWithinAt)
      (fun t ht => (hd t (interior_subset ht)).differentiableAt.differentiableWithinAt) fun t ht => ?_
    rw [(hd t (interior_subset ht)).deriv]
    exact hs t (interior_subset ht)
  intro t ht
  exact (ha ⟨le_rfl, ht.1.trans ht.2⟩ ht ht.1).trans h0

theorem central_upper {f f1 f2 f3 : ℝ → ℝ} {h M : ℝ} (hh : 0 < h) (hf : ThriceDifferentiable f f1 f2 f3 h M) :
    f h - f (-h) - 2 * h * f1 0 ≤ M * h ^ 3 / 3 := by
  have neg : ∀ {u u' : ℝ → ℝ} {t : ℝ}, HasDerivAt u (u' (-t)) (-t) → HasDerivAt (fun t => u (-t)) (-(u' (-t))) t := by
    intro u u' t hu
    have := HasDerivAt.scomp t hu (hasDerivAt_neg t)
    simp only [smul_eq_mul, neg_mul, one_mul] at this
    exact this
  have mem : ∀ t ∈ Set.Icc 0 h, |t| ≤ h ∧ |-t| ≤ h := fun t ht => by
    rw [abs_neg, abs_of_nonneg ht.1]; exact ⟨ht.2, ht.2⟩
  have s3 : ∀ t ∈ Set.Icc 0 h, f2 t - f2 (-t) - 2 * M * t ≤ 0 := by
    refine nonpos_of_deriv (g' := fun t => f3 t - -(f3 (-t)) - 2 * M) (by simp) (fun t ht => ?_) fun t ht => ?_
    · have := ((hf t (mem t ht).1).2.2.1.sub (neg (hf (-t) (mem t ht).2).2.2.1)).sub
        ((hasDerivAt_id t).const_mul (2 * M))
      exact this.congr_deriv (by simp)
    · have a1 := (abs_le.mp (hf t (mem t ht).1).2.2.2).2
      have a2 := (abs_le.mp (hf (-t) (mem t ht).2).2.2.2).2
      linarith
  have s2 : ∀ t ∈ Set.Icc 0 h, f1 t + f1 (-t) - 2 * f1 0 - M * t ^ 2 ≤ 0 := by
    refine nonpos_of_deriv (g' := fun t => f2 t - f2 (-t) - 2 * M * t) (by simp; linarith) (fun t ht => ?_) s3
    have := (((hf t (mem t ht).1).2.1.add (neg (hf (-t) (mem t ht).2).2.1)).sub_const (2 * f1 0)).sub
      ((hasDerivAt_pow 2 t).const_mul M)
    refine this.congr_deriv ?_
    simp
    ring
  have s1 : ∀ t ∈ Set.Icc 0 h, f t - f (-t) - 2 * t * f1 0 - M * t ^ 3 / 3 ≤ 0 := by
    refine nonpos_of_deriv (g' := fun t => f1 t + f1 (-t) - 2 * f1 0 - M * t ^ 2) (by simp) (fun t ht => ?_) s2
    have := (((hf t (mem t ht).1).1.sub (neg (hf (-t) (mem t ht).2).1)).sub
      (((hasDerivAt_id t).const_mul 2).mul_const (f1 0))).sub
      (((hasDerivAt_pow 3 t).const_mul M).div_const 3)
    refine this.congr_deriv ?_
    simp
    ring
  have := s1 h ⟨hh.le, le_rfl⟩
  linarith

theorem central_error {f f1 f2 f3 : ℝ → ℝ} {h M : ℝ} (hh : 0 < h) (hf : ThriceDifferentiable f f1 f2 f3 h M) :
    |(f h - f (-h)) / (2 * h) - f1 0| ≤ M * h ^ 2 / 6 := by
  have u := central_upper hh hf
  have l := central_upper (f := fun t => -f t) (f1 := fun t => -f1 t) (f2 := fun t => -f2 t) (f3 := fun t => -f3 t)
    hh fun t ht => ⟨(hf t ht).1.neg, (hf t ht).2.1.neg, (hf t ht).2.2.1.neg, by simpa using (hf t ht).2.2.2⟩
  have e : (f h - f (-h)) / (2 * h) - f1 0 = (f h - f (-h) - 2 * h * f1 0) / (2 * h) := by
    field_simp
  rw [e, abs_le]
  constructor
  · rw [le_div_iff₀ (by positivity)]
    nlinarith
  · rw [div_le_iff₀ (by positivity)]
    nlinarith

/-! ## The loops -/

theorem putCoord_moved {n : ℕ} (P : Places n) (a : Fin n) (c : Fin 3) (t : ℝ) :
    putCoord P a c (P a c + t) = movedBy P a c t := by
  funext b d
  by_cases hb : b = a
  · subst hb
    by_cases hd : d = c
    · subst hd; simp [putCoord, movedBy]
    · simp [putCoord, movedBy, hd]
  · simp [putCoord, movedBy, hb]

theorem putCoord_twice {n : ℕ} (P : Places n) (a : Fin n) (c : Fin 3) (u v : ℝ) :
    putCoord (putCoord P a c u) a c v = putCoord P a c v := by
  simp [putCoord]

theorem fdAxis_value {n : ℕ} (E : Places n → ℝ) (dx : ℝ) (P : Places n) (a : Fin n) (c : Fin 3) :
    fdAxis E dx (P a) a c P = (E (movedBy P a c (-dx)), E (movedBy P a c dx), P) := by
  have h0 : putCoord P a c (P a c) = P := by simp [putCoord]
  simp only [fdAxis, putCoord_twice, h0, ← putCoord_moved, sub_eq_add_neg]

/-- The difference quotient of the three coordinates. -/
noncomputable def fdQuotient {n : ℕ} (E : Fin n → Places n → ℝ) (dx : ℝ) (P : Places n) : Places n := fun a c =>
  -(E a (movedBy P a c dx) - E a (movedBy P a c (-dx))) / (2 * dx)

theorem fdAtom_value {n : ℕ} (E : Fin n → Places n → ℝ) (dx : ℝ) (P f : Places n) (a : Fin n) :
    fdAtom E dx (P, f) a = (P, Function.update f a (fdQuotient E dx P a)) := by
  simp only [fdAtom, fdAxis_value]
  congr 2
  funext c
  fin_cases c <;> simp [fdQuotient]

theorem fdLoop_value {n : ℕ} (E : Fin n → Places n → ℝ) (dx : ℝ) (P : Places n) (l : List (Fin n)) (f : Places n) :
    l.foldl (fdAtom E dx) (P, f) = (P, fun a => if a ∈ l then fdQuotient E dx P a else f a) := by
  induction l generalizing f with
  | nil => simp
  | cons b l ih =>
    rw [List.foldl_cons, fdAtom_value, ih]
    congr 1
    funext a
    by_cases h : a ∈ l
    · simp [h]
    · by_cases hb : a = b
      · subst hb; simp [h]
      · simp [h, hb]

theorem fdLoop_all {n : ℕ} (E : Fin n → Places n → ℝ) (dx : ℝ) (P f : Places n) :
    (List.finRange n).foldl (fdAtom E dx) (P, f) = (P, fdQuotient E dx P) := by
  rw [fdLoop_value]
  simp

theorem maxDeviation_ok {n : ℕ} (hn : 0 < n) (x y : Places n) : ∃ m, maxDeviation x y = .ok m ∧
    (∀ a c, |x a c - y a c| ≤ m) ∧ ∃ a c, |x a c - y a c| = m := by
  have h : (Finset.univ : Finset (Fin n × Fin 3)).Nonempty := ⟨(⟨0, hn⟩, 0), Finset.mem_univ _⟩
  refine ⟨_, dif_pos h, fun a c => ?_, ?_⟩
  · exact Finset.le_sup' (fun p : Fin n × Fin 3 => |x p.1 p.2 - y p.1 p.2|) (Finset.mem_univ (a, c))
  · obtain ⟨p, -, hp⟩ := Finset.exists_mem_eq_sup' h fun p : Fin n × Fin 3 => |x p.1 p.2 - y p.1 p.2|
    exact ⟨p.1, p.2, hp.symm⟩

/-! ## Forces and fields -/

/-- The checks of forces and fields give difference quotients of the structure they got, report the largest
deviation, and leave the structure as it was. -/
theorem c128_check {n : ℕ} (hn : 0 < n) (energy : Places n → ℝ) (forces : Places n → Places n)
    (potential : Places n → Fin n → ℝ) (field : Places n → Places n) (dx : ℝ) (P : Places n) :
    (∃ r, checkForces energy forces dx P = .ok r ∧ r.after = P ∧ r.reported = forces P ∧
      (∀ a c, r.numerical a c = -(energy (movedBy P a c dx) - energy (movedBy P a c (-dx))) / (2 * dx)) ∧
      (∀ a c, |r.numerical a c - r.reported a c| ≤ r.deviation) ∧
      ∃ a c, |r.numerical a c - r.reported a c| = r.deviation) ∧
    ∃ r, checkField potential field dx P = .ok r ∧ r.after = P ∧ r.reported = field P ∧
      (∀ a c, r.numerical a c = -(potential (movedBy P a c dx) a - potential (movedBy P a c (-dx)) a) / (2 * dx)) ∧
      (∀ a c, |r.numerical a c - r.reported a c| ≤ r.deviation) ∧
      ∃ a c, |r.numerical a c - r.reported a c| = r.deviation := by
  constructor
  · obtain ⟨m, hm, hle, heq⟩ := maxDeviation_ok hn (fdQuotient (fun _ => energy) dx P) (forces P)
    refine ⟨⟨fdQuotient (fun _ => energy) dx P, forces P, m, P⟩, ?_, rfl, rfl, fun a c => rfl, hle, heq⟩
    simp only [checkForces, fdLoop_all, hm, Bind.bind, Except.bind, pure, Except.pure]
  · obtain ⟨m, hm, hle, heq⟩ := maxDeviation_ok hn (fdQuotient (fun a P => potential P a) dx P) (field P)
    refine ⟨⟨fdQuotient (fun a P => potential P a) dx P, field P, m, P⟩, ?_, rfl, rfl, fun a c => rfl, hle, heq⟩
    simp only [checkField, fdLoop_all, hm, Bind.bind, Except.bind, pure, Except.pure]

/-- If the forces are minus the gradient of the energy, the reported deviation is at most `M dx²/6`, with the
bound `M` of the third derivatives; if they are not, it is at least the error of each force less this. -/
theorem c128_accuracy {n : ℕ} (energy : Places n → ℝ) (forces : Places n → Places n) (dx : ℝ) (hdx : 0 < dx)
    (P : Places n) (g1 g2 g3 : Fin n → Fin 3 → ℝ → ℝ) (M : ℝ)
    (hE : ∀ a c, ThriceDifferentiable (fun t => energy (movedBy P a c t)) (g1 a c) (g2 a c) (g3 a c) dx M)
    (r : FdResult n) (hr : checkForces energy forces dx P = .ok r) :
    ((∀ a c, forces P a c = -g1 a c 0) → r.deviation ≤ M * dx ^ 2 / 6) ∧
    (∀ a c, |forces P a c - -g1 a c 0| ≤ r.deviation + M * dx ^ 2 / 6) := by
  have hn : 0 < n := by
    by_contra h
    have h0 : n = 0 := by omega
    subst h0
    have he : ¬ (Finset.univ : Finset (Fin 0 × Fin 3)).Nonempty := by
      rintro ⟨⟨a, _⟩, -⟩
      exact a.elim0
    simp [checkForces, maxDeviation, he, Bind.bind, Except.bind] at hr
  obtain ⟨⟨r', hr', -, hrep, hnum, hle, a0, c0, heq⟩, -⟩ := c128_check hn energy forces (fun _ _ => 0) forces dx P
  rw [hr] at hr'
  obtain rfl := Except.ok.inj hr'
  have hc : ∀ a c, |r.numerical a c - -g1 a c 0| ≤ M * dx ^ 2 / 6 := by
    intro a c
    have := central_error hdx (hE a c)
    rw [hnum, ← abs_neg]
    refine le_of_eq_of_le ?_ this
    congr 1
    ring
  constructor
  · intro hf
    rw [← heq, hrep, hf]
    exact hc a0 c0
  · intro a c
    have h1 := hle a c
    rw [hrep] at h1
    have h2 := hc a c
    have : forces P a c - -g1 a c 0 = (r.numerical a c - -g1 a c 0) - (r.numerical a c - forces P a c) := by ring
    rw [this]
    refine (abs_sub _ _).trans ?_
    linarith

/-- No atoms: a `ValueError`. -/
theorem c128_empty (energy : Places 0 → ℝ) (forces : Places 0 → Places 0) (dx : ℝ) (P : Places 0) :
    checkForces energy forces dx P = .error .valueError := by
  have he : ¬ (Finset.univ : Finset (Fin 0 × Fin 3)).Nonempty := by
    rintro ⟨⟨a, _⟩, -⟩
    exact a.elim0
  simp [checkForces, maxDeviation, he, Bind.bind, Except.bind]

/-- An atom in a quartic well, one step from the centre in the direction of x. -/
example : ∃ (energy : Places 1 → ℝ) (P : Places 1) (g1 g2 g3 : Fin 1 → Fin 3 → ℝ → ℝ) (M dx : ℝ), 0 < dx ∧
    (∀ a c, ThriceDifferentiable (fun t => energy (movedBy P a c t)) (g1 a c) (g2 a c) (g3 a c) dx M) ∧
    g1 0 0 0 = 4 := by
  refine ⟨fun P => (P 0 0) ^ 4, fun _ => ![1, 0, 0],
    fun _ c t => if c = 0 then 4 * (1 + t) ^ 3 else 0, fun _ c t => if c = 0 then 12 * (1 + t) ^ 2 else 0,
    fun _ c t => if c = 0 then 24 * (1 + t) else 0, 48, 1, one_pos, ?_, by norm_num⟩
  intro a c t ht
  have hab := abs_le.mp ht
  by_cases hc : c = 0
  · subst hc
    have h1 : ∀ s : ℝ, movedBy (fun _ => ![1, 0, 0] : Places 1) a 0 s 0 0 = 1 + s := by
      intro s
      have : a = 0 := Subsingleton.elim _ _
      simp [movedBy, this]
    have hb : HasDerivAt (fun s : ℝ => 1 + s) 1 t := by simpa using (hasDerivAt_id t).const_add 1
    simp only [h1, if_true]
    refine ⟨(hb.fun_pow 4).congr_deriv (by norm_num), ((hb.fun_pow 3).const_mul 4).congr_deriv (by norm_num; ring),
      ((hb.fun_pow 2).const_mul 12).congr_deriv (by norm_num; ring), ?_⟩
    rw [abs_le]
    constructor <;> nlinarith
  · have h1 : ∀ s : ℝ, movedBy (fun _ => ![1, 0, 0] : Places 1) a c s 0 0 = 1 := by
      intro s
      simp [movedBy, Ne.symm hc]
    simp only [h1, if_neg hc]
    exact ⟨hasDerivAt_const _ _, hasDerivAt_const _ _, hasDerivAt_const _ _, by norm_num⟩

/-! ## Stress -/

theorem updateRow_single (i j : Fin 3) (t : ℝ) :
    (1 : Mat).updateRow i (Function.update ((1 : Mat) i) j ((1 : Mat) i j + t)) = 1 + Matrix.single i j t := by
  ext k l
  by_cases hk : k = i
  · subst hk
    by_cases hl : l = j
    · subst hl; simp
    · simp [hl, Matrix.single_apply, Ne.symm hl]
  · simp [Matrix.updateRow_ne hk, Matrix.single_apply, Ne.symm hk]

theorem det_strain (i j : Fin 3) {t : ℝ} (ht : |t| < 1) : IsUnit (1 + Matrix.single i j t : Mat).det := by
  have h := abs_lt.mp ht
  rw [isUnit_iff_ne_zero, Matrix.det_fin_three]
  fin_cases i <;> fin_cases j <;> simp [Matrix.single_apply] <;> linarith

/-- A structure whose positions are those of `s` carried along with the cell. -/
def Follows {n : ℕ} (s st : Mat × Places n) : Prop :=
  IsUnit st.1.det ∧ ∀ a, st.2 a = Matrix.vecMul (s.2 a) (s.1⁻¹ * st.1)

theorem setCell_follows {n : ℕ} {s st : Mat × Places n} (hs : IsUnit s.1.det) (h : Follows s st) (i j : Fin 3) {t : ℝ}
    (ht : |t| < 1) : setCellScaled st (s.1 * (1 + Matrix.single i j t)) = strainedBy s i j t ∧
      Follows s (strainedBy s i j t) := by
  have e : ∀ X : Mat, s.1⁻¹ * (s.1 * X) = X := fun X => by
    rw [← Matrix.mul_assoc, Matrix.nonsing_inv_mul _ hs, Matrix.one_mul]
  constructor
  · simp only [setCellScaled, strainedBy]
    congr 1
    funext a
    rw [h.2, Matrix.vecMul_vecMul, Matrix.mul_assoc, ← Matrix.mul_assoc st.1, Matrix.mul_nonsing_inv _ h.1,
      Matrix.one_mul, e]
  · refine ⟨?_, fun a => ?_⟩
    · simp only [strainedBy, Matrix.det_mul]
      exact hs.mul (det_strain i j ht)
    · simp only [strainedBy, e]

theorem virialPart_value {n : ℕ} (energy : Mat → Places n → ℝ) {de : ℝ} (hde : |de| < 1) {s st : Mat × Places n}
    (hs : IsUnit s.1.det) (h : Follows s st) (i j : Fin 3) :
    virialPart energy de s.1 i j st =
      ((energy (strainedBy s i j de).1 (strainedBy s i j de).2 -
        energy (strainedBy s i j (-de)).1 (strainedBy s i j (-de)).2) / (2 * de), strainedBy s i j de) := by
  have hde' : |-de| < 1 := by rwa [abs_neg]
  obtain ⟨e1, f1⟩ := setCell_follows hs h i j hde'
  obtain ⟨e2, -⟩ := setCell_follows hs f1 i j hde
  simp only [virialPart, sub_eq_add_neg (a := (1 : Mat) i j), updateRow_single, e1, e2]

/-- The difference quotient of the energy under strain. -/
noncomputable def strainQuotient {n : ℕ} (energy : Mat → Places n → ℝ) (de : ℝ) (s : Mat × Places n) (i j : Fin 3) : ℝ :=
  (energy (strainedBy s i j de).1 (strainedBy s i j de).2 -
    energy (strainedBy s i j (-de)).1 (strainedBy s i j (-de)).2) / (2 * de)

theorem virialFold {n : ℕ} (energy : Mat → Places n → ℝ) {de : ℝ} (hde : |de| < 1) {s : Mat × Places n}
    (hs : IsUnit s.1.det) (l : List (Fin 3 × Fin 3)) (m : Mat) (st : Mat × Places n) (h : Follows s st) :
    let r := l.foldl (fun st ij =>
      let r := virialPart energy de s.1 ij.1 ij.2 st.2
      (st.1.updateRow ij.1 (Function.update (st.1 ij.1) ij.2 r.1), r.2)) (m, st)
    (∀ i j, r.1 i j = if (i, j) ∈ l then strainQuotient energy de s i j else m i j) ∧
    r.2 = (match l.getLast? with | some p => strainedBy s p.1 p.2 de | none => st) := by
  induction l generalizing m st with
  | nil => simp
  | cons p l ih =>
    have hf := (setCell_follows hs h p.1 p.2 hde).2
    simp only [List.foldl_cons, virialPart_value energy hde hs h]
    have := ih (m.updateRow p.1 (Function.update (m p.1) p.2 (strainQuotient energy de s p.1 p.2)))
      (strainedBy s p.1 p.2 de) hf
    simp only [strainQuotient] at this ⊢
    refine ⟨fun i j => ?_, ?_⟩
    · rw [this.1 i j]
      by_cases hl : (i, j) ∈ l
      · simp [hl]
      · by_cases hp : (i, j) = p
        · subst hp; simp [hl]
        · simp only [hl, if_false, List.mem_cons, hp, or_self]
          by_cases hi : i = p.1
          · have hj : j ≠ p.2 := fun e => hp (Prod.ext hi e)
            subst hi
            simp [hj]
          · rw [Matrix.updateRow_ne hi]
    · rw [this.2]
      cases hl : l.getLast? with
      | none =>
        have : l = [] := List.getLast?_eq_none_iff.mp hl
        subst this
        simp
      | some q =>
        rw [List.getLast?_cons, hl]
        rfl

theorem virialLoop_value {n : ℕ} (energy : Mat → Places n → ℝ) {de : ℝ} (hde : |de| < 1) {s : Mat × Places n}
    (hs : IsUnit s.1.det) : (∀ i j, (virialLoop energy de s).1 i j = strainQuotient energy de s i j) ∧
      (virialLoop energy de s).2 = strainedBy s 2 2 de := by
  have hF : Follows s s := ⟨hs, fun a => by rw [Matrix.nonsing_inv_mul _ hs, Matrix.vecMul_one]⟩
  have h := virialFold energy hde hs ((List.finRange 3).flatMap fun i => (List.finRange 3).map fun j => (i, j)) 0 s hF
  refine ⟨fun i j => ?_, ?_⟩
  · rw [virialLoop, h.1 i j, if_pos]
    simp
  · rw [virialLoop, h.2]
    rfl

/-- The order of the components of a stress. -/
def voigtPairs : Fin 6 → Fin 3 × Fin 3 := ![(0, 0), (1, 1), (2, 2), (1, 2), (0, 2), (0, 1)]

/-- The numerical stress is the difference quotient of the energy under strain of cell and positions,
symmetrised and per volume. -/
theorem c128_stress {n : ℕ} (energy : Mat → Places n → ℝ) (stress : Mat → Places n → Fin 6 → ℝ) (volume : Mat → ℝ)
    (de : ℝ) (hde : |de| < 1) (s : Mat × Places n) (hs : IsUnit s.1.det) (k : Fin 6) :
    (checkVirial energy stress volume de s).1 k =
      (strainQuotient energy de s (voigtPairs k).1 (voigtPairs k).2 +
        strainQuotient energy de s (voigtPairs k).2 (voigtPairs k).1) / 2 / volume s.1 := by
  have h := (virialLoop_value energy hde hs).1
  simp only [checkVirial, h]
  fin_cases k <;> simp [voigtPairs]

/-- Afterwards cell and positions stay strained: every structure with a volume is changed by the check. -/
theorem c128_virial_fails {n : ℕ} (energy : Mat → Places n → ℝ) (stress : Mat → Places n → Fin 6 → ℝ)
    (volume : Mat → ℝ) (de : ℝ) (hde : |de| < 1) (h0 : de ≠ 0) (s : Mat × Places n) (hs : IsUnit s.1.det) :
    (checkVirial energy stress volume de s).2.2 = strainedBy s 2 2 de ∧
    (checkVirial energy stress volume de s).2.2 ≠ s := by
  have h : (checkVirial energy stress volume de s).2.2 = strainedBy s 2 2 de := (virialLoop_value energy hde hs).2
  refine ⟨h, fun e => ?_⟩
  rw [h] at e
  have e1 : s.1 * (1 + Matrix.single 2 2 de) = s.1 := congrArg Prod.fst e
  have e2 : (1 + Matrix.single 2 2 de : Mat) = 1 := by
    have := congrArg (fun X => s.1⁻¹ * X) e1
    simpa only [← Matrix.mul_assoc, Matrix.nonsing_inv_mul _ hs, Matrix.one_mul] using this
  have e3 := congrFun (congrFun e2 2) 2
  simp at e3
  exact h0 e3

example : |(1 : ℝ) / 10 ^ 6| < 1 ∧ IsUnit (1 : Mat).det := ⟨by norm_num [abs_of_pos], by simp⟩

end Hotbit
