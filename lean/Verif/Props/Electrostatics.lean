import Verif.Model.Electrostatics
import Verif.Props.Coulomb
import Verif.Props.Elements
import Mathlib.Analysis.Calculus.Deriv.Slope

/-!
# C28, C54: gamma functions, electrostatic Hamiltonian, energy and forces
-/

namespace Hotbit

open Real Matrix Filter Topology

set_option linter.unusedSimpArgs false

/-! ## C54 -/

theorem gaussG_hasDerivAt (fi fj d : ℝ) (hd : d ≠ 0) :
    HasDerivAt (gaussG fi fj) (-gaussDG fi fj d) d := by
  unfold gaussG gaussDG
  generalize gaussConst fi fj = c
  have h1 : HasDerivAt (fun d : ℝ => erfc (c * d)) (-(2 / √π * exp (-(c * d) ^ 2)) * c) d :=
    HasDerivAt.comp (h₂ := erfc) (h := fun d => c * d) d (erfc_hasDerivAt (c * d))
      (by simpa using (hasDerivAt_id d).const_mul c)
  have h2 := h1.neg.div (hasDerivAt_id d) hd
  refine h2.congr_deriv ?_
  simp only [id, Pi.neg_apply]
  field_simp
  ring

theorem slaterEqG_hasDerivAt (a d : ℝ) (hd : d ≠ 0) :
    HasDerivAt (slaterEqG a) (-slaterEqDG a d) d := by
  have hf : slaterEqG a = fun d => -(48 + 33 * (a * d) + (a * d) * (a * d) * (9 + a * d)) *
      (exp (-(a * d)) / (48 * d)) := rfl
  have hx : HasDerivAt (fun d : ℝ => a * d) a d := by simpa using (hasDerivAt_id d).const_mul a
  have hp : HasDerivAt (fun d : ℝ => -(48 + 33 * (a * d) + (a * d) * (a * d) * (9 + a * d)))
      (-(33 * a + ((a * (a * d) + (a * d) * a) * (9 + a * d) + (a * d) * (a * d) * a))) d :=
    (((hx.const_mul 33).const_add 48).add ((hx.mul hx).mul (hx.const_add 9))).neg
  have he : HasDerivAt (fun d : ℝ => exp (-(a * d)) / (48 * d))
      ((exp (-(a * d)) * (-a) * (48 * d) - exp (-(a * d)) * 48) / (48 * d) ^ 2) d :=
    (hx.neg.exp).div (by simpa using (hasDerivAt_id d).const_mul (48 : ℝ)) (by simpa using hd)
  rw [hf]
  refine (hp.mul he).congr_deriv ?_
  simp only [slaterEqDG, slaterEqG]
  field_simp
  ring

theorem slaterNeG_hasDerivAt (ti tj d : ℝ) (hd : d ≠ 0) :
    HasDerivAt (slaterNeG ti tj) (-slaterNeDG ti tj d) d := by
  have key : ∀ t f1 f2 : ℝ, HasDerivAt (fun d : ℝ => exp (-t * d) * (f1 + f2 / d))
      (exp (-t * d) * (-t) * (f1 + f2 / d) + exp (-t * d) * (-f2 / d ^ 2)) d := by
    intro t f1 f2
    have h1 : HasDerivAt (fun d : ℝ => exp (-t * d)) (exp (-t * d) * (-t)) d := by
      have : HasDerivAt (fun d : ℝ => -t * d) (-t) d := by
        simpa using (hasDerivAt_id d).const_mul (-t)
      exact this.exp
    have h2 : HasDerivAt (fun d : ℝ => f1 + f2 / d) (-f2 / d ^ 2) d := by
      have := ((hasDerivAt_const d f2).div (hasDerivAt_id d) hd).const_add f1
      refine this.congr_deriv ?_
      simp
    exact h1.mul h2
  have := (key ti (slaterF1 ti tj) (slaterF2 ti tj)).add (key tj (slaterFj1 ti tj) (slaterFj2 ti tj))
  refine this.congr_deriv ?_
  simp only [slaterNeDG]
  field_simp
  ring

/-- C54: for both charge densities the stored derivative is minus the radial derivative of the
stored correction, at every positive distance. -/
theorem c54_derivative (cd : ChargeDensity) (wi wj d : ℝ) (hd : 0 < d) :
    HasDerivAt (corrG cd wi wj) (-corrDG cd wi wj d) d := by
  cases cd with
  | gaussian => exact gaussG_hasDerivAt wi wj d hd.ne'
  | slater =>
    show HasDerivAt (slaterG wi wj) (-slaterDG wi wj d) d
    unfold slaterG slaterDG
    by_cases h : |wi - wj| < 1e-6
    · simp only [if_pos h]; exact slaterEqG_hasDerivAt _ d hd.ne'
    · simp only [if_neg h]; exact slaterNeG_hasDerivAt wi wj d hd.ne'

/-- C54: the corrections do not depend on the order of the two atoms. -/
theorem c54_symmetric (cd : ChargeDensity) (wi wj d : ℝ) :
    corrG cd wi wj d = corrG cd wj wi d ∧ corrDG cd wi wj d = corrDG cd wj wi d := by
  cases cd with
  | gaussian =>
    have : gaussConst wi wj = gaussConst wj wi := by simp [gaussConst, add_comm]
    simp [corrG, corrDG, gaussG, gaussDG, this]
  | slater =>
    have h1 : slaterAvg wi wj = slaterAvg wj wi := by
      simp only [slaterAvg]; ring
    have h2 : slaterF1 wi wj = slaterFj1 wj wi := by
      unfold slaterF1 slaterFj1; rw [show (wi ^ 2 - wj ^ 2) ^ 2 = (wj ^ 2 - wi ^ 2) ^ 2 by ring]
    have h2' : slaterF1 wj wi = slaterFj1 wi wj := by
      unfold slaterF1 slaterFj1; rw [show (wi ^ 2 - wj ^ 2) ^ 2 = (wj ^ 2 - wi ^ 2) ^ 2 by ring]
    have h3 : slaterF2 wi wj = slaterFj2 wj wi := by
      unfold slaterF2 slaterFj2
      rw [show (wj ^ 2 - wi ^ 2) ^ 3 = -(wi ^ 2 - wj ^ 2) ^ 3 by ring, one_div_neg_eq_neg_one_div]
      ring
    have h3' : slaterF2 wj wi = slaterFj2 wi wj := by
      unfold slaterF2 slaterFj2
      rw [show (wj ^ 2 - wi ^ 2) ^ 3 = -(wi ^ 2 - wj ^ 2) ^ 3 by ring, one_div_neg_eq_neg_one_div]
      ring
    simp only [corrG, corrDG, slaterG, slaterDG, abs_sub_comm wj wi, h1]
    constructor
    · split
      · rfl
      · rw [slaterNeG, slaterNeG, h2, h3, h2', h3', add_comm]
    · split
      · rfl
      · rw [slaterNeDG, slaterNeDG, h2, h3, h2', h3', add_comm]

/-- `f(d)/d` tends to the derivative of `f` at zero if `f 0 = 0`. -/
theorem tendsto_div_of_hasDerivAt (f : ℝ → ℝ) (f' : ℝ) (h0 : f 0 = 0) (h : HasDerivAt f f' 0) :
    Tendsto (fun d => f d / d) (𝓝[>] 0) (𝓝 f') := by
  have := (hasDerivAt_iff_tendsto_slope.1 h).mono_left
    (nhdsWithin_mono 0 (fun x (hx : (0 : ℝ) < x) => hx.ne'))
  refine this.congr fun d => ?_
  simp [slope_def_field, h0]

/-- C54: for two equal atoms the Gaussian gamma function tends to the Hubbard `U`, if the width
is the one belonging to `U` (`electrostatics.py:46-47`). -/
theorem c54_gaussian_limit (U : ℝ) (hU : 0 < U) :
    Tendsto (fun d => 1 / d + gaussG (√(8 * log 2 / π) / U) (√(8 * log 2 / π) / U) d) (𝓝[>] 0)
      (𝓝 U) := by
  have hl : 0 < log 2 := Real.log_pos (by norm_num)
  have hc : gaussConst (√(8 * log 2 / π) / U) (√(8 * log 2 / π) / U) = U * √π / 2 := by
    unfold gaussConst
    rw [div_pow, Real.sq_sqrt (by positivity)]
    have : log 2 / (8 * log 2 / π / U ^ 2 + 8 * log 2 / π / U ^ 2) = (U * √π / 4) ^ 2 := by
      rw [div_pow, mul_pow, Real.sq_sqrt Real.pi_pos.le]
      field_simp
      ring
    rw [this, Real.sqrt_sq (by positivity)]
    ring
  set c := gaussConst (√(8 * log 2 / π) / U) (√(8 * log 2 / π) / U) with hcdef
  have h1 : HasDerivAt (fun d : ℝ => 1 - erfc (c * d)) (2 / √π * c) 0 := by
    have := (HasDerivAt.comp (h₂ := erfc) (h := fun d => c * d) 0 (erfc_hasDerivAt (c * 0))
      (by simpa using (hasDerivAt_id (0 : ℝ)).const_mul c)).const_sub 1
    refine this.congr_deriv ?_
    simp
  have h2 := tendsto_div_of_hasDerivAt _ _ (by simp [erfc_zero]) h1
  have hp : √π ≠ 0 := (Real.sqrt_pos.2 Real.pi_pos).ne'
  have h3 : 2 / √π * c = U := by rw [hc]; field_simp
  rw [h3] at h2
  refine h2.congr fun d => ?_
  unfold gaussG
  rw [← hcdef]
  ring

/-- C54: the Slater gamma function of any two atoms with exponents `ti`, `tj` tends, in both
branches of the code, to the on-site value of Elstner et al.; for two equal atoms this is `U`. -/
theorem c54_slater_limit (ti tj : ℝ) (hi : 0 < ti) (hj : 0 < tj) :
    Tendsto (fun d => 1 / d + slaterG ti tj d) (𝓝[>] 0)
      (𝓝 ((ti * tj / (ti + tj) + (ti * tj) ^ 2 / (ti + tj) ^ 3) / 2)) := by
  by_cases h : |ti - tj| < 1e-6
  · have hg : slaterG ti tj = slaterEqG (slaterAvg ti tj) := by
      funext d; simp only [slaterG, if_pos h]
    rw [hg]
    have hval : (ti * tj / (ti + tj) + (ti * tj) ^ 2 / (ti + tj) ^ 3) / 2 =
        slaterAvg ti tj * (15 / 48) := by
      simp only [slaterAvg]
      have : ti + tj ≠ 0 := by positivity
      field_simp
      ring
    rw [hval]
    generalize slaterAvg ti tj = a
    have hx : HasDerivAt (fun d : ℝ => a * d) a 0 := by simpa using (hasDerivAt_id (0 : ℝ)).const_mul a
    have hp : HasDerivAt (fun d : ℝ => (48 + 33 * (a * d) + (a * d) * (a * d) * (9 + a * d)))
        (33 * a + ((a * (a * 0) + (a * 0) * a) * (9 + a * 0) + (a * 0) * (a * 0) * a)) 0 :=
      ((hx.const_mul 33).const_add 48).add ((hx.mul hx).mul (hx.const_add 9))
    have h1 := (((hp.mul (hx.neg.exp)).div_const 48).const_sub 1)
    have h2 := tendsto_div_of_hasDerivAt _ _ (by norm_num) h1
    have h3 := h2.congr' (f₂ := fun d => 1 / d + slaterEqG a d) ?_
    · convert h3 using 2
      simp
      ring
    · filter_upwards [self_mem_nhdsWithin] with d hd
      have hd' : d ≠ 0 := (show (0 : ℝ) < d from hd).ne'
      simp only [slaterEqG, Pi.mul_apply, Pi.neg_apply]
      field_simp
      ring
  · have hg : slaterG ti tj = slaterNeG ti tj := by
      funext d; simp only [slaterG, if_neg h]
    rw [hg]
    have hne : ti ≠ tj := by
      intro e; apply h; rw [e, sub_self, abs_zero]; norm_num
    have hq : ti ^ 2 - tj ^ 2 ≠ 0 := by
      have : ti ^ 2 - tj ^ 2 = (ti - tj) * (ti + tj) := by ring
      rw [this]
      exact mul_ne_zero (sub_ne_zero.2 hne) (by positivity)
    have hsum : slaterF2 ti tj + slaterFj2 ti tj = -1 := by
      unfold slaterF2 slaterFj2
      field_simp
      ring
    have he : ∀ t : ℝ, HasDerivAt (fun d : ℝ => exp (-t * d)) (-t) 0 := by
      intro t
      have : HasDerivAt (fun d : ℝ => -t * d) (-t) 0 := by
        simpa using (hasDerivAt_id (0 : ℝ)).const_mul (-t)
      simpa using this.exp
    have hterm : ∀ t f1 f2 : ℝ, HasDerivAt (fun d : ℝ => exp (-t * d) * (f1 * d + f2))
        (-t * f2 + f1) 0 := by
      intro t f1 f2
      have h2 : HasDerivAt (fun d : ℝ => f1 * d + f2) f1 0 := by
        simpa using ((hasDerivAt_id (0 : ℝ)).const_mul f1).add_const f2
      have := (he t).mul h2
      refine this.congr_deriv ?_
      simp
    have h1 := ((hterm ti (slaterF1 ti tj) (slaterF2 ti tj)).add
      (hterm tj (slaterFj1 ti tj) (slaterFj2 ti tj))).const_add 1
    have h2 := tendsto_div_of_hasDerivAt _ _ (by simp [hsum]) h1
    have h3 := h2.congr' (f₂ := fun d => 1 / d + slaterNeG ti tj d) ?_
    · convert h3 using 2
      unfold slaterF1 slaterF2 slaterFj1 slaterFj2
      have h4 : ti + tj ≠ 0 := by positivity
      field_simp
      ring
    · filter_upwards [self_mem_nhdsWithin] with d hd
      have hd' : d ≠ 0 := (show (0 : ℝ) < d from hd).ne'
      simp only [slaterNeG, Pi.add_apply]
      field_simp

/-- C54: two atoms with the same `U` (Slater exponents `16 U/5`). -/
theorem c54_slater_limit_equal (U : ℝ) (hU : 0 < U) :
    Tendsto (fun d => 1 / d + slaterG (16 * U / 5) (16 * U / 5) d) (𝓝[>] 0) (𝓝 U) := by
  have := c54_slater_limit (16 * U / 5) (16 * U / 5) (by positivity) (by positivity)
  convert this using 2
  field_simp
  ring


/-! ## C28 -/

theorem auxFill_none (v : ℕ → ℝ) : ∀ (bs : List (ℕ × ℕ)) (i : ℕ) (aux : ℕ → ℝ) (m : ℕ),
    (∀ b o n : ℕ, bs[b]? = some (o, n) → ¬ (o ≤ m ∧ m < o + n)) → auxFill v bs i aux m = aux m := by
  intro bs
  induction bs with
  | nil => intro i aux m _; rfl
  | cons b bs ih =>
    obtain ⟨o, n⟩ := b
    intro i aux m h
    rw [auxFill, ih _ _ _ fun b o' n' hb => h (b + 1) o' n' (by simpa using hb)]
    rw [if_neg (h 0 o n (by simp))]

theorem auxFill_block (v : ℕ → ℝ) : ∀ (bs : List (ℕ × ℕ)) (i : ℕ) (aux : ℕ → ℝ) (m a o n : ℕ),
    bs[a]? = some (o, n) → o ≤ m → m < o + n →
    (∀ b o' n', bs[b]? = some (o', n') → o' ≤ m → m < o' + n' → b = a) →
    auxFill v bs i aux m = v (i + a) := by
  intro bs
  induction bs with
  | nil => intro i aux m a o n h; simp at h
  | cons b bs ih =>
    obtain ⟨o1, n1⟩ := b
    intro i aux m a o n h h1 h2 hu
    rw [auxFill]
    cases a with
    | zero =>
      simp only [List.getElem?_cons_zero, Option.some.injEq, Prod.mk.injEq] at h
      obtain ⟨rfl, rfl⟩ := h
      rw [auxFill_none, if_pos ⟨h1, h2⟩, Nat.add_zero]
      intro b o' n' hb hcon
      have := hu (b + 1) o' n' (by simpa using hb) hcon.1 hcon.2
      omega
    | succ a =>
      rw [ih _ _ m a o n (by simpa using h) h1 h2]
      · congr 1; omega
      · intro b o' n' hb c1 c2
        have := hu (b + 1) o' n' (by simpa using hb) c1 c2
        omega

/-- C28: the matrix element of `h1` between two orbitals is the mean of the potentials of their
atoms, minus the mean of the external potentials there (which are dropped if none of them exceeds
`1e-12`). -/
theorem c28_element (elements : String → Option ElementData) (symbols : List String)
    (t : OrbTables) (h : orbInit elements symbols = .ok t) (eps ext : ℕ → ℝ) (m n a b : ℕ)
    (ha : t.atomOf m = .ok a) (hb : t.atomOf n = .ok b) :
    ((∃ i < symbols.length, 1e-12 < |ext i|) → constructH1 t symbols.length eps ext m n =
      (eps a + eps b) / 2 - (ext a + ext b) / 2) ∧
    ((∀ i < symbols.length, |ext i| ≤ 1e-12) → constructH1 t symbols.length eps ext m n =
      (eps a + eps b) / 2) := by
  have key : ∀ m a, t.atomOf m = .ok a → ∀ v, auxFill v t.blocks 0 (fun _ => 0) m = v a := by
    intro m a ha v
    have hm : m < t.norb := by
      by_contra hcon
      rw [((c23_orbital elements symbols t h m).2 (by omega)).1] at ha
      simp at ha
    obtain ⟨a', o, n', hblk, h1, h2, hu, hat, -⟩ := (c23_orbital elements symbols t h m).1 hm
    rw [ha] at hat
    simp only [Except.ok.injEq] at hat
    subst hat
    rw [auxFill_block v t.blocks 0 _ m a o n' hblk h1 h2 hu, Nat.zero_add]
  constructor
  · intro hext
    simp only [constructH1, if_pos hext, key m a ha, key n b hb]
    ring
  · intro hext
    have : ¬ ∃ i < symbols.length, (1e-12 : ℝ) < |ext i| := by
      rintro ⟨i, hi, hlt⟩; exact absurd (hext i hi) (by linarith)
    simp only [constructH1, if_neg this, key m a ha, key n b hb]
    ring

/-- C28: `h1` is symmetric. -/
theorem c28_symmetric (t : OrbTables) (N : ℕ) (eps ext : ℕ → ℝ) (m n : ℕ) :
    constructH1 t N eps ext m n = constructH1 t N eps ext n m := by
  simp only [constructH1]
  split <;> ring

/-- C28: a constant added to all potentials is added to every element of `h1`. -/
theorem c28_shift (elements : String → Option ElementData) (symbols : List String)
    (t : OrbTables) (h : orbInit elements symbols = .ok t) (eps ext : ℕ → ℝ) (c : ℝ) (m n : ℕ)
    (hm : m < t.norb) (hn : n < t.norb) :
    constructH1 t symbols.length (fun i => eps i + c) ext m n =
      constructH1 t symbols.length eps ext m n + c := by
  obtain ⟨a, -, -, -, -, -, -, ha, -⟩ := (c23_orbital elements symbols t h m).1 hm
  obtain ⟨b, -, -, -, -, -, -, hb, -⟩ := (c23_orbital elements symbols t h n).1 hn
  have h1 := c28_element elements symbols t h eps ext m n a b ha hb
  have h2 := c28_element elements symbols t h (fun i => eps i + c) ext m n a b ha hb
  by_cases hext : ∃ i < symbols.length, (1e-12 : ℝ) < |ext i|
  · rw [h1.1 hext, h2.1 hext]; ring
  · have hext' : ∀ i < symbols.length, |ext i| ≤ 1e-12 := fun i hi => by
      by_contra hcon; exact hext ⟨i, hi, by linarith⟩
    rw [h1.2 hext', h2.2 hext']; ring

example : ∃ t, orbInit exElements ["H", "O", "H"] = .ok t ∧ t.norb = 6 ∧
    t.atomOf 2 = .ok 1 ∧ t.atomOf 5 = .ok 2 :=
  ⟨_, rfl, rfl, rfl, rfl⟩

/-- What `construct_Gamma_matrix(A)` followed by `set_dq(q)` leaves behind (cutoff `cut` for both the
correction and the `DirectCoulomb` solver): correction matrix, its derivative, the solver. -/
def EsState (cd : ChargeDensity) (bohr : ℝ) (U w : ℕ → ℝ) (cut : Option ℝ) (A : Atoms) (q : List ℝ)
    (G : ℕ → ℕ → ℝ) (dG : ℕ → ℕ → Vec) (s : DC) : Prop :=
  ∃ nb, getNeighbors A cut = .ok nb ∧ G = corrMatrix cd bohr U w (nb.getD []) ∧
    dG = corrDMatrix cd bohr w (nb.getD []) ∧ Fresh cut A q s

/-- `coulomb_energy()` then returns `e`. -/
def EsEnergy (cd : ChargeDensity) (bohr : ℝ) (U w : ℕ → ℝ) (cut : Option ℝ) (A : Atoms)
    (q : List ℝ) (e : ℝ) : Prop :=
  ∃ G dG s phi, EsState cd bohr U w cut A q G dG s ∧ dcPotential s = .ok phi ∧
    e = coulombEnergy true A.positions.length (chg q)
      (epsilonOf A.positions.length G bohr (fun i => phi.getD i 0) (chg q))

/-- `gamma_forces()` then returns `f`. -/
def EsForces (cd : ChargeDensity) (bohr : ℝ) (U w : ℕ → ℝ) (cut : Option ℝ) (A : Atoms)
    (q : List ℝ) (f : ℕ → Vec) : Prop :=
  ∃ G dG s E, EsState cd bohr U w cut A q G dG s ∧ dcGetField s = .ok E ∧
    f = gammaForces true A.positions.length dG bohr (fun i => E.getD i 0) (chg q)

theorem esState_exists (cd : ChargeDensity) (bohr : ℝ) (U w : ℕ → ℝ) (cut : Option ℝ) (A : Atoms)
    (q : List ℝ) (hc : cut.isSome ∨ A.isCluster = true) :
    ∃ s, EsState cd bohr U w cut A q (corrMatrix cd bohr U w (nbList A cut))
      (corrDMatrix cd bohr w (nbList A cut)) s := by
  obtain ⟨s, hs⟩ := fresh_exists cut A q hc
  refine ⟨s, _, getNeighbors_eq A cut hc, ?_, ?_, hs⟩ <;> rw [getD_nb]

theorem esState_eq (cd : ChargeDensity) (bohr : ℝ) (U w : ℕ → ℝ) (cut : Option ℝ) (A : Atoms)
    (q : List ℝ) (G : ℕ → ℕ → ℝ) (dG : ℕ → ℕ → Vec) (s : DC)
    (h : EsState cd bohr U w cut A q G dG s) :
    G = corrMatrix cd bohr U w (nbList A cut) ∧ dG = corrDMatrix cd bohr w (nbList A cut) ∧
      Fresh cut A q s ∧ (cut.isSome ∨ A.isCluster = true) := by
  obtain ⟨nb, hnb, h1, h2, h3⟩ := h
  have hc := (fresh_eq _ _ _ _ h3).1
  rw [getNeighbors_eq A cut hc] at hnb
  simp only [Except.ok.injEq] at hnb
  subst hnb
  rw [getD_nb] at h1 h2
  exact ⟨h1, h2, h3, hc⟩

/-- The pair kernel of the electrostatic energy (distance in the unit of the positions). -/
noncomputable def esKernel (cd : ChargeDensity) (bohr : ℝ) (w : ℕ → ℝ) (cut : Option ℝ)
    (q : List ℝ) (i j : ℕ) (d : ℝ) : ℝ :=
  chg q i * chg q j * (corrG cd (w i) (w j) (d / bohr) + bohr * coulPot cut d)

theorem esEnergy_eq (cd : ChargeDensity) (bohr : ℝ) (U w : ℕ → ℝ) (cut : Option ℝ) (A : Atoms)
    (q : List ℝ) (e : ℝ) (h : EsEnergy cd bohr U w cut A q e) :
    e = (∑ i ∈ Finset.range A.positions.length, U i * chg q i ^ 2) / 2 +
      pairEnergy A cut (esKernel cd bohr w cut q) := by
  obtain ⟨G, dG, s, phi, hs, hphi, rfl⟩ := h
  obtain ⟨rfl, rfl, hf, hc⟩ := esState_eq _ _ _ _ _ _ _ _ _ _ hs
  obtain ⟨-, rfl⟩ := fresh_eq _ _ _ _ hf
  simp only [dcPotential, Except.ok.injEq] at hphi
  subst hphi
  set N := A.positions.length with hN
  set l := nbList A cut with hl
  have hi : ∀ e ∈ l, e.i < N ∧ e.j < N := fun e he => nbList_i A cut e he
  have hphi : ∀ i ∈ Finset.range N, (((List.range N).map fun i =>
      ((l.filter fun e => e.i == i).map fun e => chg q e.j * coulPot cut e.d).sum).getD i 0) =
      ((l.filter fun e => e.i == i).map fun e => chg q e.j * coulPot cut e.d).sum := by
    intro i hi
    rw [Finset.mem_range] at hi
    simp [List.getD_eq_getElem?_getD, hi]
  have hG : ∀ i ∈ Finset.range N, ∑ j ∈ Finset.range N, corrMatrix cd bohr U w l i j * chg q j =
      U i * chg q i + ((l.filter fun e => e.i == i).map fun e =>
        chg q e.j * corrG cd (w i) (w e.j) (e.d / bohr)).sum := by
    intro i hi'
    rw [← sum_filter_range2 N l _ i fun e he => (hi e he).2]
    simp only [corrMatrix, add_mul, Finset.sum_add_distrib, ite_mul, zero_mul,
      Finset.sum_ite_eq, hi', if_true]
    congr 1
    refine Finset.sum_congr rfl fun j _ => ?_
    rw [mul_comm, ← list_sum_mul]
    congr 1
    refine List.map_congr_left fun e he => ?_
    simp only [List.mem_filter, Bool.and_eq_true, beq_iff_eq] at he
    rw [he.2.2]
  rw [coulombEnergy, if_pos rfl]
  have hrow : ∀ i ∈ Finset.range N, chg q i * epsilonOf N (corrMatrix cd bohr U w l) bohr
      (fun i => ((List.range N).map fun i => ((l.filter fun e => e.i == i).map fun e =>
        chg q e.j * coulPot cut e.d).sum).getD i 0) (chg q) i =
      U i * chg q i ^ 2 + ((l.filter fun e => e.i == i).map fun e =>
        esKernel cd bohr w cut q e.i e.j e.d).sum := by
    intro i hi'
    rw [epsilonOf, hG i hi', hphi i hi']
    have : ((l.filter fun e => e.i == i).map fun e => esKernel cd bohr w cut q e.i e.j e.d) =
        ((l.filter fun e => e.i == i).map fun e => chg q i *
          (chg q e.j * corrG cd (w i) (w e.j) (e.d / bohr) +
            bohr * (chg q e.j * coulPot cut e.d))) := by
      refine List.map_congr_left fun e he => ?_
      simp only [List.mem_filter, beq_iff_eq] at he
      rw [esKernel, he.2]; ring
    rw [this, list_sum_mul, List.sum_map_add, list_sum_mul]
    ring
  rw [Finset.sum_congr rfl hrow, Finset.sum_add_distrib, sum_filter_range N l _ fun e he => (hi e he).1]
  rw [pairEnergy, ← hl]
  ring

/-- C28: the Coulomb energy exists whenever the neighbour list does, is half the sum of charges times
potentials, and is the quadratic form `q·γ·q/2` of the matrix returned by `get_gamma`; that matrix is
symmetric. -/
theorem c28_energy (cd : ChargeDensity) (bohr : ℝ) (U w : ℕ → ℝ) (cut : Option ℝ) (A : Atoms)
    (hA : InversionClosed A) (q : List ℝ) (G : ℕ → ℕ → ℝ) (dG : ℕ → ℕ → Vec) (s : DC)
    (h : EsState cd bohr U w cut A q G dG s) (γ : ℕ → ℕ → ℝ) (hγ : esGamma G bohr s = .ok γ) :
    (∀ i j, γ i j = γ j i) ∧ EsEnergy cd bohr U w cut A q
      ((∑ i ∈ Finset.range A.positions.length, ∑ j ∈ Finset.range A.positions.length,
        chg q i * γ i j * chg q j) / 2) := by
  obtain ⟨hG, hdG, hf, hc⟩ := esState_eq _ _ _ _ _ _ _ _ _ _ h
  obtain ⟨phi, g, hphi, hg, hlen, hrow⟩ := c43_potential _ _ _ _ hf
  simp only [esGamma, hg, Bind.bind, Except.bind] at hγ
  cases g with
  | none => simp at hγ
  | some g =>
    simp only [Except.ok.injEq] at hγ
    subst hγ
    constructor
    · intro i j
      dsimp only
      rw [c43_gamma_symmetric cut A hA q s hf g hg i j]
      congr 1
      rw [hG]
      simp only [corrMatrix]
      congr 1
      · by_cases hij : i = j
        · simp [hij]
        · simp [hij, Ne.symm hij]
      · have hp := swap_perm A hA cut
        have h1 := (hp.map fun e : Nb => if e.i = i ∧ e.j = j then
          corrG cd (w i) (w j) (e.d / bohr) else 0).sum_eq
        have h2 : ∀ (i j : ℕ) (l : List Nb), ((l.filter fun e => e.i == i && e.j == j).map fun e =>
            corrG cd (w i) (w j) (e.d / bohr)).sum = (l.map fun e : Nb => if e.i = i ∧ e.j = j then
            corrG cd (w i) (w j) (e.d / bohr) else 0).sum := by
          intro i j l
          induction l with
          | nil => rfl
          | cons e l ih =>
            rw [List.filter_cons]
            by_cases hij : e.i = i ∧ e.j = j
            · simp [hij, ih]
            · have : (e.i == i && e.j == j) = false := by simpa using hij
              simp only [this, List.map_cons, List.sum_cons, if_neg hij, zero_add]
              exact ih
        rw [h2, h2, ← h1, List.map_map]
        congr 1
        refine List.map_congr_left fun e he => ?_
        simp only [Function.comp, swapNb, and_comm (a := e.j = i)]
        rw [(c54_symmetric cd (w i) (w j) _).1]
    · refine ⟨G, dG, s, phi, h, hphi, ?_⟩
      rw [coulombEnergy, if_pos rfl]
      have : ∀ i ∈ Finset.range A.positions.length, chg q i * epsilonOf A.positions.length G bohr
          (fun i => phi.getD i 0) (chg q) i = ∑ j ∈ Finset.range A.positions.length,
            chg q i * (G i j + g i j * bohr) * chg q j := by
        intro i hi
        have hi' := hrow i (Finset.mem_range.1 hi)
        simp only [epsilonOf, List.getD_eq_getElem?_getD, hi', Option.getD_some, Finset.sum_mul,
          ← Finset.sum_add_distrib, Finset.mul_sum]
        exact Finset.sum_congr rfl fun j _ => by ring
      rw [Finset.sum_congr rfl this]
      ring

/-- C28: the electrostatic forces vanish for zero charges and in non-SCC calculations; the energy as
well. -/
theorem c28_zero (N : ℕ) (dG : ℕ → ℕ → Vec) (bohr : ℝ) (E : ℕ → Vec) (eps dq : ℕ → ℝ) :
    (∀ i, dq i = 0 → gammaForces true N dG bohr E dq i = 0) ∧
    (∀ i, gammaForces false N dG bohr E dq i = 0) ∧
    coulombEnergy false N dq eps = 0 ∧
    ((∀ i < N, dq i = 0) → coulombEnergy true N dq eps = 0) := by
  refine ⟨fun i h => by simp [gammaForces, h], fun i => by simp [gammaForces],
    by simp [coulombEnergy], fun h => ?_⟩
  rw [coulombEnergy, if_pos rfl, Finset.sum_eq_zero, mul_zero]
  intro i hi
  rw [h i (Finset.mem_range.1 hi), zero_mul]

/-- C28: at fixed charges, the electrostatic force on an atom is minus the gradient of the Coulomb
energy with respect to the atom's position in Bohr (the images move along; the positions themselves
are in Ångström, hence the factor `bohr` in the displacement), for every structure without coinciding
images and without a pair exactly at the cutoff. -/
theorem c28_force_gradient (cd : ChargeDensity) (bohr : ℝ) (hb : 0 < bohr) (U w : ℕ → ℝ)
    (cut : Option ℝ) (hcut : ∀ c, cut = some c → c ≠ 0) (A : Atoms) (hA : InversionClosed A)
    (hreg : RegularPairs A cut) (q : List ℝ) (f : ℕ → Vec)
    (h : EsForces cd bohr U w cut A q f) (a : ℕ) (ha : a < A.positions.length) (v : Vec) :
    ∃ E : ℝ → ℝ, (∀ t, EsEnergy cd bohr U w cut (displace A a (bohr • v) t) q (E t)) ∧
      HasDerivAt E (-(f a ⬝ᵥ v)) 0 := by
  obtain ⟨G, dG, s, F, hs, hF, rfl⟩ := h
  obtain ⟨rfl, rfl, hf, hc⟩ := esState_eq _ _ _ _ _ _ _ _ _ _ hs
  obtain ⟨-, rfl⟩ := fresh_eq _ _ _ _ hf
  simp only [dcGetField, Except.ok.injEq] at hF
  subst hF
  have hex : ∀ t, ∃ e, EsEnergy cd bohr U w cut (displace A a (bohr • v) t) q e := by
    intro t
    have hc' : cut.isSome ∨ (displace A a (bohr • v) t).isCluster = true := hc
    obtain ⟨s, hs⟩ := esState_exists cd bohr U w cut (displace A a (bohr • v) t) q hc'
    obtain ⟨-, -, hf', -⟩ := esState_eq _ _ _ _ _ _ _ _ _ _ hs
    obtain ⟨phi, -, hphi, -⟩ := c43_potential _ _ _ _ hf'
    exact ⟨_, _, _, s, phi, hs, hphi, rfl⟩
  choose E hE using hex
  refine ⟨E, hE, ?_⟩
  have hfun : E = fun t => (∑ i ∈ Finset.range A.positions.length, U i * chg q i ^ 2) / 2 +
      pairEnergy (displace A a (bohr • v) t) cut (esKernel cd bohr w cut q) := by
    funext t
    rw [esEnergy_eq _ _ _ _ _ _ _ _ (hE t), displace_length]
  rw [hfun]
  have hK : ∀ i j d, 0 < d → (∀ c, cut = some c → d < c) → HasDerivAt (esKernel cd bohr w cut q i j)
      (chg q i * chg q j * (-corrDG cd (w i) (w j) (d / bohr) * (1 / bohr) +
        bohr * -coulField cut d)) d := by
    intro i j d hd _
    have h1 : HasDerivAt (fun d => corrG cd (w i) (w j) (d / bohr))
        (-corrDG cd (w i) (w j) (d / bohr) * (1 / bohr)) d :=
      HasDerivAt.comp (h₂ := corrG cd (w i) (w j)) (h := fun d => d / bohr) d
        (c54_derivative cd (w i) (w j) (d / bohr) (by positivity)) ((hasDerivAt_id d).div_const bohr)
    exact (h1.add ((coulPot_hasDerivAt cut hcut d hd.ne').const_mul bohr)).const_mul _
  have hgrad := (pairEnergy_gradient A hA cut (esKernel cd bohr w cut q) _
    (by
      intro i j d
      rw [(c54_symmetric cd (w i) (w j) _).2]; ring) hK hreg a (bohr • v)).const_add
    ((∑ i ∈ Finset.range A.positions.length, U i * chg q i ^ 2) / 2)
  refine hgrad.congr_deriv ?_
  have hi : ∀ e ∈ nbList A cut, e.i < A.positions.length ∧ e.j < A.positions.length :=
    fun e he => nbList_i A cut e he
  have hdG : ∑ j ∈ Finset.range A.positions.length, chg q j • corrDMatrix cd bohr w (nbList A cut) a j =
      (((nbList A cut).filter fun e => e.i == a).map fun e =>
        (chg q e.j * corrDG cd (w a) (w e.j) (e.d / bohr)) • e.n).sum := by
    rw [← sum_filter_range2 _ (nbList A cut) _ a fun e he => (hi e he).2]
    refine Finset.sum_congr rfl fun j _ => ?_
    rw [corrDMatrix, ← list_sum_smul]
    congr 1
    refine List.map_congr_left fun e he => ?_
    simp only [List.mem_filter, Bool.and_eq_true, beq_iff_eq] at he
    rw [he.2.2, smul_smul]
  simp only [gammaForces, if_true, hdG]
  rw [List.getD_eq_getElem?_getD, List.getElem?_map, List.getElem?_range ha, Option.map_some,
    Option.getD_some, ← list_sum_smul, ← List.sum_map_add, ← list_sum_smul, dotProduct_smul,
    ← neg_dotProduct, ← smul_dotProduct]
  congr 1
  rw [← list_sum_smul, ← neg_one_smul ℝ, ← list_sum_smul]
  congr 1
  refine List.map_congr_left fun e he => ?_
  simp only [List.mem_filter, beq_iff_eq] at he
  rw [he.2]
  simp only [smul_smul, ← add_smul]
  congr 1
  field_simp
  ring

/-- Two unit charges one Ångström apart meet the hypotheses. -/
example : InversionClosed (exDimer 1) ∧ RegularPairs (exDimer 1) none ∧
    ∃ f, EsForces .gaussian 0.5 (fun _ => 1) (fun _ => 1) none (exDimer 1) [1, 1] f := by
  refine ⟨Or.inl rfl, exDimer_regular none (by simp), ?_⟩
  obtain ⟨s, hs⟩ := esState_exists .gaussian 0.5 (fun _ => 1) (fun _ => 1) none (exDimer 1) [1, 1]
    (Or.inr (exDimer_cluster 1))
  obtain ⟨-, -, hf, -⟩ := esState_eq _ _ _ _ _ _ _ _ _ _ hs
  obtain ⟨-, he⟩ := fresh_eq _ _ _ _ hf
  exact ⟨_, _, _, s, _, hs, by rw [he]; rfl, rfl⟩

/-- C28 fails for one isolated atom: `get_gamma` raises `TypeError` (the solver returns `None` instead
of a zero matrix), although potential and energy are well defined. -/
theorem c28_single_atom_fails :
    ∃ (A : Atoms) (s : DC) (G : ℕ → ℕ → ℝ) (dG : ℕ → ℕ → Vec),
      EsState .gaussian 0.5 (fun _ => 1) (fun _ => 1) none A [0] G dG s ∧
      EsEnergy .gaussian 0.5 (fun _ => 1) (fun _ => 1) none A [0] 0 ∧
      esGamma G 0.5 s = .error .typeError := by
  let A : Atoms := { ctype := .bravais, atoms := [("H", 0)], cell := 0, pbc := ![false, false, false] }
  have hcl : A.isCluster = true := by simp [A, Atoms.isCluster, Atoms.ranges, rangeZero]
  have hscan : scanOps A = [0] := by
    have h : ∀ k, A.ranges k = rangeZero := by
      intro k; fin_cases k <;> simp [A, Atoms.ranges]
    simp only [scanOps, h]
    simp [nFromRange, rangeZero, arange]
  have hnil : nbList A none = [] := by
    rw [List.eq_nil_iff_forall_not_mem]
    intro e he
    obtain ⟨hi, hj, hsc, hm, -⟩ := (mem_nbList A (by simp [A]) none e).1 he
    have hx : e.op = 0 := by
      have := (mem_scanOps A e.op).2 hsc
      rw [hscan] at this
      simpa using this
    have hl : A.positions.length = 1 := rfl
    rw [hl] at hi hj
    exact hm.2 ⟨hx, by omega⟩
  obtain ⟨s, hs⟩ := esState_exists .gaussian 0.5 (fun _ => 1) (fun _ => 1) none A [0] (Or.inr hcl)
  obtain ⟨-, -, hf, hc⟩ := esState_eq _ _ _ _ _ _ _ _ _ _ hs
  obtain ⟨-, he⟩ := fresh_eq _ _ _ _ hf
  refine ⟨A, s, _, _, hs, ?_, ?_⟩
  · refine ⟨_, _, s, _, hs, by rw [he]; rfl, ?_⟩
    rw [(c28_zero _ (fun _ _ => 0) 0 (fun _ => 0) _ _).2.2.2]
    intro i _
    unfold chg
    cases i <;> simp [List.getD_eq_getElem?_getD]
  · have : dcGamma s = .ok none := by
      rw [he]
      simp only [dcGamma]
      rw [getNeighbors_eq A none hc, hnil]
      rfl
    simp only [esGamma, this, Bind.bind, Except.bind]

end Hotbit
