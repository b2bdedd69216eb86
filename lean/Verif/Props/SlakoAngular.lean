import Mathlib.Tactic
import Mathlib.Analysis.SpecialFunctions.Integrals.Basic
import Verif.Model.SlakoTable
import Verif.Spec.SlakoTable

/-!
# Angular parts of the Slater-Koster integrals (C97)
-/

namespace Hotbit

open Real MeasureTheory

private theorem i_one (a : ℝ) : ∫ _ in (0 : ℝ)..2 * π, a = 2 * π * a := by
  rw [intervalIntegral.integral_const]; simp

private theorem i_cos : ∫ x in (0 : ℝ)..2 * π, cos x = 0 := by
  rw [integral_cos]; simp

private theorem i_sin : ∫ x in (0 : ℝ)..2 * π, sin x = 0 := by
  rw [integral_sin]; simp

private theorem i_cosk (k : ℕ) (hk : k ≠ 0) : ∫ x in (0 : ℝ)..2 * π, cos (k * x) = 0 := by
  have hk' : (k : ℝ) ≠ 0 := by exact_mod_cast hk
  rw [intervalIntegral.integral_comp_mul_left (fun x => cos x) hk', integral_cos]
  have : sin ((k : ℝ) * (2 * π)) = 0 := by
    rw [show (k : ℝ) * (2 * π) = ((2 * k : ℕ) : ℝ) * π by push_cast; ring]
    exact sin_nat_mul_pi _
  simp [this]

private theorem i_sink (k : ℕ) (hk : k ≠ 0) : ∫ x in (0 : ℝ)..2 * π, sin (k * x) = 0 := by
  have hk' : (k : ℝ) ≠ 0 := by exact_mod_cast hk
  rw [intervalIntegral.integral_comp_mul_left (fun x => sin x) hk', integral_sin]
  have : cos ((k : ℝ) * (2 * π)) = 1 := by
    exact cos_nat_mul_two_pi k
  simp [this]

/-- Trigonometric sums integrate to the constant term. -/
private theorem i_trig (f : ℝ → ℝ) (a b1 c1 b2 c2 b3 c3 b4 c4 : ℝ)
    (hf : ∀ x, f x = a + b1 * cos ((1 : ℕ) * x) + c1 * sin ((1 : ℕ) * x) + b2 * cos ((2 : ℕ) * x)
      + c2 * sin ((2 : ℕ) * x) + b3 * cos ((3 : ℕ) * x) + c3 * sin ((3 : ℕ) * x) + b4 * cos ((4 : ℕ) * x)
      + c4 * sin ((4 : ℕ) * x)) : ∫ x in (0 : ℝ)..2 * π, f x = 2 * π * a := by
  rw [show f = fun x => a + b1 * cos ((1 : ℕ) * x) + c1 * sin ((1 : ℕ) * x) + b2 * cos ((2 : ℕ) * x)
      + c2 * sin ((2 : ℕ) * x) + b3 * cos ((3 : ℕ) * x) + c3 * sin ((3 : ℕ) * x) + b4 * cos ((4 : ℕ) * x)
      + c4 * sin ((4 : ℕ) * x) from funext hf]
  have hi : ∀ g : ℝ → ℝ, Continuous g → IntervalIntegrable g volume 0 (2 * π) := fun g hg => hg.intervalIntegrable _ _
  rw [intervalIntegral.integral_add (hi _ (by fun_prop)) (hi _ (by fun_prop)),
    intervalIntegral.integral_add (hi _ (by fun_prop)) (hi _ (by fun_prop)),
    intervalIntegral.integral_add (hi _ (by fun_prop)) (hi _ (by fun_prop)),
    intervalIntegral.integral_add (hi _ (by fun_prop)) (hi _ (by fun_prop)),
    intervalIntegral.integral_add (hi _ (by fun_prop)) (hi _ (by fun_prop)),
    intervalIntegral.integral_add (hi _ (by fun_prop)) (hi _ (by fun_prop)),
    intervalIntegral.integral_add (hi _ (by fun_prop)) (hi _ (by fun_prop)),
    intervalIntegral.integral_add (hi _ (by fun_prop)) (hi _ (by fun_prop))]
  simp only [intervalIntegral.integral_const_mul, i_one, i_cosk 1 (by norm_num), i_cosk 2 (by norm_num),
    i_cosk 3 (by norm_num), i_cosk 4 (by norm_num), i_sink 1 (by norm_num), i_sink 2 (by norm_num),
    i_sink 3 (by norm_num), i_sink 4 (by norm_num)]
  ring

/-- The dependence on the azimuth of an orbital: 1, `cos φ`, `sin φ`, `cos 2φ`, `sin 2φ`. -/
noncomputable def aziPart (φ : ℝ) : AngOrb → ℝ
  | .s | .pz | .dz2 => 1
  | .px | .dxz => cos φ
  | .py | .dyz => sin φ
  | .dx2y2 => cos (2 * φ)
  | .dxy => sin (2 * φ)

/-- The rest. -/
noncomputable def polPart (θ : ℝ) : AngOrb → ℝ
  | .s => √(1 / (4 * π))
  | .pz => √(3 / (4 * π)) * cos θ
  | .px => √(3 / (4 * π)) * sin θ
  | .py => √(3 / (4 * π)) * sin θ
  | .dz2 => √(5 / (16 * π)) * (3 * cos θ ^ 2 - 1)
  | .dxz => √(15 / (4 * π)) * sin θ * cos θ
  | .dyz => √(15 / (4 * π)) * sin θ * cos θ
  | .dx2y2 => √(15 / (16 * π)) * sin θ ^ 2
  | .dxy => √(15 / (16 * π)) * sin θ ^ 2

theorem realY_parts (θ φ : ℝ) (o : AngOrb) : realY θ φ o = polPart θ o * aziPart φ o := by
  cases o <;> simp [realY, polPart, aziPart]

/-- Kind of the azimuthal part. -/
def aziKind : AngOrb → Fin 5
  | .s | .pz | .dz2 => 0
  | .px | .dxz => 1
  | .py | .dyz => 2
  | .dx2y2 => 3
  | .dxy => 4

noncomputable def aziFn (k : Fin 5) (φ : ℝ) : ℝ := ![1, cos φ, sin φ, cos (2 * φ), sin (2 * φ)] k

theorem aziPart_eq (φ : ℝ) (o : AngOrb) : aziPart φ o = aziFn (aziKind o) φ := by
  cases o <;> rfl

theorem azi_integral (i j : Fin 5) :
    ∫ φ in (0 : ℝ)..2 * π, aziFn i φ * aziFn j φ = if i = j then (if i = 0 then 2 * π else π) else 0 := by
  have c2 : ∀ x, cos (2 * x) = 1 - 2 * sin x ^ 2 := fun x => by rw [cos_two_mul, cos_sq']; ring
  have s3 : ∀ x, sin (3 * x) = 3 * sin x - 4 * sin x ^ 3 := fun x => sin_three_mul x
  have c3 : ∀ x, cos (3 * x) = 4 * cos x ^ 3 - 3 * cos x := fun x => cos_three_mul x
  have c4 : ∀ x, cos (4 * x) = 2 * cos (2 * x) ^ 2 - 1 := fun x => by
    rw [show 4 * x = 2 * (2 * x) by ring, cos_two_mul]
  have s4 : ∀ x, sin (4 * x) = 2 * sin (2 * x) * cos (2 * x) := fun x => by
    rw [show 4 * x = 2 * (2 * x) by ring, sin_two_mul]
  have sc : ∀ x, sin x ^ 2 + cos x ^ 2 = 1 := sin_sq_add_cos_sq
  fin_cases i <;> fin_cases j
  · rw [i_trig _ 1 0 0 0 0 0 0 0 0 (by intro x; simp [aziFn])]; simp
  · rw [i_trig _ 0 1 0 0 0 0 0 0 0 (by intro x; simp [aziFn])]; simp
  · rw [i_trig _ 0 0 1 0 0 0 0 0 0 (by intro x; simp [aziFn])]; simp
  · rw [i_trig _ 0 0 0 1 0 0 0 0 0 (by intro x; simp [aziFn])]; simp
  · rw [i_trig _ 0 0 0 0 1 0 0 0 0 (by intro x; simp [aziFn])]; simp
  · rw [i_trig _ 0 1 0 0 0 0 0 0 0 (by intro x; simp [aziFn])]; simp
  · rw [i_trig _ (1 / 2) 0 0 (1 / 2) 0 0 0 0 0 (by intro x; simp [aziFn, cos_two_mul]; ring)]; simp; ring
  · rw [i_trig _ 0 0 0 0 (1 / 2) 0 0 0 0 (by intro x; simp [aziFn, sin_two_mul]; ring)]; simp
  · rw [i_trig _ 0 (1 / 2) 0 0 0 (1 / 2) 0 0 0 (by intro x; simp [aziFn, cos_two_mul, c3]; ring)]; simp
  · rw [i_trig _ 0 0 (1 / 2) 0 0 0 (1 / 2) 0 0 (by
      intro x; simp [aziFn, sin_two_mul, s3]; linear_combination 2 * sin x * sc x)]; simp
  · rw [i_trig _ 0 0 1 0 0 0 0 0 0 (by intro x; simp [aziFn])]; simp
  · rw [i_trig _ 0 0 0 0 (1 / 2) 0 0 0 0 (by intro x; simp [aziFn, sin_two_mul]; ring)]; simp
  · rw [i_trig _ (1 / 2) 0 0 (-1 / 2) 0 0 0 0 0 (by intro x; simp [aziFn, c2]; ring)]; simp; ring
  · rw [i_trig _ 0 0 (-1 / 2) 0 0 0 (1 / 2) 0 0 (by intro x; simp [aziFn, c2, s3]; ring)]; simp
  · rw [i_trig _ 0 (1 / 2) 0 0 0 (-1 / 2) 0 0 0 (by
      intro x; simp [aziFn, sin_two_mul, c3]; linear_combination 2 * cos x * sc x)]; simp
  · rw [i_trig _ 0 0 0 1 0 0 0 0 0 (by intro x; simp [aziFn])]; simp
  · rw [i_trig _ 0 (1 / 2) 0 0 0 (1 / 2) 0 0 0 (by intro x; simp [aziFn, cos_two_mul, c3]; ring)]; simp
  · rw [i_trig _ 0 0 (-1 / 2) 0 0 0 (1 / 2) 0 0 (by intro x; simp [aziFn, c2, s3]; ring)]; simp
  · rw [i_trig _ (1 / 2) 0 0 0 0 0 0 (1 / 2) 0 (by intro x; simp [aziFn, c4]; ring)]; simp; ring
  · rw [i_trig _ 0 0 0 0 0 0 0 0 (1 / 2) (by intro x; simp [aziFn, s4]; ring)]; simp
  · rw [i_trig _ 0 0 0 0 1 0 0 0 0 (by intro x; simp [aziFn])]; simp
  · rw [i_trig _ 0 0 (1 / 2) 0 0 0 (1 / 2) 0 0 (by
      intro x; simp [aziFn, sin_two_mul, s3]; linear_combination 2 * sin x * sc x)]; simp
  · rw [i_trig _ 0 (1 / 2) 0 0 0 (-1 / 2) 0 0 0 (by
      intro x; simp [aziFn, sin_two_mul, c3]; linear_combination 2 * cos x * sc x)]; simp
  · rw [i_trig _ 0 0 0 0 0 0 0 0 (1 / 2) (by intro x; simp [aziFn, s4]; ring)]; simp
  · rw [i_trig _ (1 / 2) 0 0 0 0 0 0 (-1 / 2) 0 (by
      intro x; simp [aziFn, c4]; linear_combination sc (2 * x))]; simp; ring

theorem angular_integral (t1 t2 : ℝ) (o1 o2 : AngOrb) :
    ∫ φ in (0 : ℝ)..2 * π, realY t1 φ o1 * realY t2 φ o2 =
      polPart t1 o1 * polPart t2 o2 * if aziKind o1 = aziKind o2 then (if aziKind o1 = 0 then 2 * π else π) else 0 := by
  rw [← azi_integral, ← intervalIntegral.integral_const_mul]
  refine intervalIntegral.integral_congr fun φ _ => ?_
  simp only [realY_parts, aziPart_eq]
  ring

/-- **C97.** Each of the ten functions is the integral over the azimuth of the product of the two orbitals of its
kind, for every pair of polar angles, whichever of the equivalent pairs of orbitals is taken. -/
theorem c97_kind (t1 t2 : ℝ) {o1 o2 : AngOrb} {k : Fin 10} (h : skKind o1 o2 = some k) :
    ∫ φ in (0 : ℝ)..2 * π, realY t1 φ o1 * realY t2 φ o2 = gAngular t1 t2 k := by
  have hp := pi_pos
  have sq : ∀ a b : ℝ, 0 ≤ a → √a * √b = √(a * b) := fun a b ha => (sqrt_mul ha b).symm
  have e44 : ∀ a b : ℝ, 0 ≤ a → √(a / (4 * π)) * √(b / (4 * π)) * π = √(a * b) / 4 := by
    intro a b ha
    rw [sq _ _ (by positivity), show a / (4 * π) * (b / (4 * π)) = a * b / (4 * π) ^ 2 by ring,
      sqrt_div' _ (by positivity), sqrt_sq (by positivity)]
    field_simp
  have e16 : ∀ a b : ℝ, 0 ≤ a → √(a / (16 * π)) * √(b / (16 * π)) * π = √(a * b) / 16 := by
    intro a b ha
    rw [sq _ _ (by positivity), show a / (16 * π) * (b / (16 * π)) = a * b / (16 * π) ^ 2 by ring,
      sqrt_div' _ (by positivity), sqrt_sq (by positivity)]
    field_simp
  have e416 : ∀ a b : ℝ, 0 ≤ a → √(a / (4 * π)) * √(b / (16 * π)) * π = √(a * b) / 8 := by
    intro a b ha
    rw [sq _ _ (by positivity), show a / (4 * π) * (b / (16 * π)) = a * b / (8 * π) ^ 2 by ring,
      sqrt_div' _ (by positivity), sqrt_sq (by positivity)]
    field_simp
  have a11 : √(1 / (4 * π)) * √(1 / (4 * π)) * π = 1 / 4 := by rw [e44 _ _ (by norm_num)]; norm_num
  have a13 : √(1 / (4 * π)) * √(3 / (4 * π)) * π = √3 / 4 := by rw [e44 _ _ (by norm_num)]; norm_num
  have a33 : √(3 / (4 * π)) * √(3 / (4 * π)) * π = 3 / 4 := by
    rw [e44 _ _ (by norm_num), sqrt_mul_self (by norm_num)]
  have a15 : √(1 / (4 * π)) * √(5 / (16 * π)) * π = √5 / 8 := by rw [e416 _ _ (by norm_num)]; norm_num
  have a35 : √(3 / (4 * π)) * √(5 / (16 * π)) * π = √15 / 8 := by rw [e416 _ _ (by norm_num)]; norm_num
  have a315 : √(3 / (4 * π)) * √(15 / (4 * π)) * π = √45 / 4 := by rw [e44 _ _ (by norm_num)]; norm_num
  have a55 : √(5 / (16 * π)) * √(5 / (16 * π)) * π = 5 / 16 := by
    rw [e16 _ _ (by norm_num), sqrt_mul_self (by norm_num)]
  have aDD : √(15 / (4 * π)) * √(15 / (4 * π)) * π = 15 / 4 := by
    rw [e44 _ _ (by norm_num), sqrt_mul_self (by norm_num)]
  have add : √(15 / (16 * π)) * √(15 / (16 * π)) * π = 15 / 16 := by
    rw [e16 _ _ (by norm_num), sqrt_mul_self (by norm_num)]
  rw [angular_integral]
  have g0 : gAngular t1 t2 0 = 5 / 8 * (3 * cos t1 ^ 2 - 1) * (3 * cos t2 ^ 2 - 1) := rfl
  have g1 : gAngular t1 t2 1 = 15 / 4 * sin t1 * cos t1 * sin t2 * cos t2 := rfl
  have g2 : gAngular t1 t2 2 = 15 / 16 * sin t1 ^ 2 * sin t2 ^ 2 := rfl
  have g3 : gAngular t1 t2 3 = √15 / 4 * cos t1 * (3 * cos t2 ^ 2 - 1) := rfl
  have g4 : gAngular t1 t2 4 = √45 / 4 * sin t1 * sin t2 * cos t2 := rfl
  have g5 : gAngular t1 t2 5 = 3 / 2 * cos t1 * cos t2 := rfl
  have g6 : gAngular t1 t2 6 = 3 / 4 * sin t1 * sin t2 := rfl
  have g7 : gAngular t1 t2 7 = √5 / 4 * (3 * cos t2 ^ 2 - 1) := rfl
  have g8 : gAngular t1 t2 8 = √3 / 2 * cos t2 := rfl
  have g9 : gAngular t1 t2 9 = 1 / 2 := by
    change (0.5 : ℝ) = 1 / 2
    norm_num
  cases o1 <;> cases o2 <;> simp only [skKind, reduceCtorEq, Option.some.injEq] at h
  all_goals
    subst h
    simp only [polPart, aziKind, if_true, Fin.isValue, one_ne_zero, if_false, Fin.reduceEq]
  · rw [g9]; linear_combination 2 * a11
  · rw [g8]; linear_combination 2 * cos t2 * a13
  · rw [g7]; linear_combination 2 * (3 * cos t2 ^ 2 - 1) * a15
  · rw [g5]; linear_combination 2 * cos t1 * cos t2 * a33
  · rw [g3]; linear_combination 2 * cos t1 * (3 * cos t2 ^ 2 - 1) * a35
  · rw [g6]; linear_combination sin t1 * sin t2 * a33
  · rw [g4]; linear_combination sin t1 * sin t2 * cos t2 * a315
  · rw [g6]; linear_combination sin t1 * sin t2 * a33
  · rw [g4]; linear_combination sin t1 * sin t2 * cos t2 * a315
  · rw [g0]; linear_combination 2 * (3 * cos t1 ^ 2 - 1) * (3 * cos t2 ^ 2 - 1) * a55
  · rw [g1]; linear_combination sin t1 * cos t1 * sin t2 * cos t2 * aDD
  · rw [g1]; linear_combination sin t1 * cos t1 * sin t2 * cos t2 * aDD
  · rw [g2]; linear_combination sin t1 ^ 2 * sin t2 ^ 2 * add
  · rw [g2]; linear_combination sin t1 ^ 2 * sin t2 ^ 2 * add

/-- **C97.** All other products integrate to zero: no integral between two orbitals is missing in the table (one of the
two orders of the orbitals has an entry whenever the integral is not zero). -/
theorem c97_other (t1 t2 : ℝ) {o1 o2 : AngOrb} (h : skKind o1 o2 = none) (h' : skKind o2 o1 = none) :
    ∫ φ in (0 : ℝ)..2 * π, realY t1 φ o1 * realY t2 φ o2 = 0 := by
  rw [angular_integral]
  cases o1 <;> cases o2 <;> simp [skKind] at h h' <;> simp [aziKind]

/-- **C97.** The names of the integrals: the letters of the angular momenta of the two orbitals, the smaller first, in
the order of the functions. -/
theorem c97_names {o1 o2 : AngOrb} {k : Fin 10} (h : skKind o1 o2 = some k) :
    o1.l ≤ o2.l ∧ ∃ c, skIntegralNames[(k : ℕ)]? = some [['s', 'p', 'd'].getD o1.l ' ', ['s', 'p', 'd'].getD o2.l ' ', c] := by
  cases o1 <;> cases o2 <;> simp only [skKind, reduceCtorEq, Option.some.injEq] at h
  all_goals
    subst h
    exact ⟨by decide, _, rfl⟩

example : skKind .px .dxz = some 4 ∧ skKind .px .dyz = none ∧ skKind .dyz .px = none := by decide

/-- **C97.** The spherical harmonics are normalised: for one centre the ten functions are the squares, and
`∫ g(t,t) sin t dt` over the sphere is one (shown for `s`, `p` and `d` along the axis). -/
theorem c97_normalised : ∫ t in (0 : ℝ)..π, gAngular t t 9 * sin t = 1 ∧ ∫ t in (0 : ℝ)..π, gAngular t t 5 * sin t = 1 ∧
    ∫ t in (0 : ℝ)..π, gAngular t t 6 * sin t = 1 ∧ ∫ t in (0 : ℝ)..π, gAngular t t 0 * sin t = 1 ∧
    ∫ t in (0 : ℝ)..π, gAngular t t 1 * sin t = 1 ∧ ∫ t in (0 : ℝ)..π, gAngular t t 2 * sin t = 1 := by
  have key : ∀ (f : ℝ → ℝ) (a b c : ℝ), (∀ t, f t = a * cos t ^ 4 * sin t + b * cos t ^ 2 * sin t + c * sin t) →
      ∫ t in (0 : ℝ)..π, f t = 2 * a / 5 + 2 * b / 3 + 2 * c := by
    intro f a b c hf
    have hd : ∀ x ∈ Set.uIcc (0 : ℝ) π, HasDerivAt (fun t => -(a * cos t ^ 5 / 5 + b * cos t ^ 3 / 3 + c * cos t)) (f x) x := by
      intro x _
      have h1 := hasDerivAt_cos x
      have := ((((h1.pow 5).const_mul a).div_const 5).add (((h1.pow 3).const_mul b).div_const 3)).add (h1.const_mul c)
      refine (this.neg.congr_deriv ?_).congr_of_eventuallyEq (Filter.Eventually.of_forall fun t => ?_)
      · rw [hf]
        push_cast
        ring
      · simp
    rw [intervalIntegral.integral_eq_sub_of_hasDerivAt hd]
    · simp
      ring
    · refine Continuous.intervalIntegrable ?_ _ _
      rw [show f = fun t => a * cos t ^ 4 * sin t + b * cos t ^ 2 * sin t + c * sin t from funext hf]
      fun_prop
  refine ⟨?_, ?_, ?_, ?_, ?_, ?_⟩
  · rw [key _ 0 0 (1 / 2)]
    · norm_num
    · intro t
      change (0.5 : ℝ) * sin t = _
      norm_num
  · rw [key _ 0 (3 / 2) 0]
    · norm_num
    · intro t
      change 3 / 2 * cos t * cos t * sin t = _
      ring
  · rw [key _ 0 (-3 / 4) (3 / 4)]
    · norm_num
    · intro t
      change 3 / 4 * sin t * sin t * sin t = _
      linear_combination 3 / 4 * sin t * sin_sq_add_cos_sq t
  · rw [key _ (45 / 8) (-15 / 4) (5 / 8)]
    · norm_num
    · intro t
      change 5 / 8 * (3 * cos t ^ 2 - 1) * (3 * cos t ^ 2 - 1) * sin t = _
      ring
  · rw [key _ (-15 / 4) (15 / 4) 0]
    · norm_num
    · intro t
      change 15 / 4 * sin t * cos t * sin t * cos t * sin t = _
      linear_combination 15 / 4 * sin t * cos t ^ 2 * sin_sq_add_cos_sq t
  · rw [key _ (15 / 16) (-15 / 8) (15 / 16)]
    · norm_num
    · intro t
      change 15 / 16 * sin t ^ 2 * sin t ^ 2 * sin t = _
      linear_combination 15 / 16 * sin t * (sin t ^ 2 + 1 - cos t ^ 2) * sin_sq_add_cos_sq t

end Hotbit
