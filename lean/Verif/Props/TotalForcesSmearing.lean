import Verif.Props.TotalForces
import Verif.Props.MatricesRaise
import Verif.Props.MatricesContainers

/-!
# C124, counterexample: with smearing the forces are not the gradient of the reported energy

Two atoms with one s orbital each, hopping proportional to their distance.
-/

set_option linter.unusedSimpArgs false

namespace Hotbit

open Matrix

/-- One s orbital. -/
def exSElements : String → Option ElementData := fun s =>
  if s = "C" then some ⟨["s"], [0], 1, 1, 0⟩ else none

/-- The orbitals of the two atoms. -/
def exTables : OrbTables :=
  { orb := [⟨0, "C", "s", 0, 0, 0, 0⟩, ⟨1, "C", "s", 0, 1, 0, 0⟩]
    atomorb := [[⟨0, "C", "s", 0, 0, 0, 0⟩], [⟨1, "C", "s", 0, 1, 0, 0⟩]]
    nrOrbitals := [1, 1]
    firstOrbitals := [0, 1]
    orbitalAtoms := [0, 1]
    norb := 2 }

/-- Hopping proportional to the distance, no overlap. -/
noncomputable def exHop (κ : ℝ) : SkTable where
  r1 := 0
  r2 := 10
  h := fun d m => if m = 9 then κ * d else 0
  s := 0
  dh := fun _ m => if m = 9 then κ else 0
  ds := 0

/-- The parameters of the dimer. -/
noncomputable def exScf (J : SkJunk) (κ : ℝ) : ScfIn where
  bohr := 1
  hartree := 1
  scc := true
  t := exTables
  no := fun _ => 1
  eps := fun _ _ => 0
  seps := 0
  tab := fun _ _ => exHop κ
  J := J
  cut := fun _ _ => 10
  scan := []
  nk := 1
  kpt := fun _ => 0
  wk := fun _ => 1
  width := 1
  nel := 2
  charge := 0
  tol := 1
  tolIm := 1
  val := [1, 1]
  cd := .gaussian
  U := fun _ => 1
  w := fun _ => 1
  gcut := none
  V := fun _ _ n d => if n = 0 then d ^ 2 else 2 * d
  rmax := 5
  efree := 0

theorem exTables_init : orbInit exSElements ["C", "C"] = .ok exTables := by
  simp [orbInit, exSElements, orbLoop, orbStep, atomOrbs, angmomOf, exTables, List.mapM_cons, bind,
    Except.bind, pure, Except.pure]

theorem exScf_fits (J : SkJunk) (κ : ℝ) (d : ℝ) : Fits (exScf J κ) (exDimer d) exSElements where
  orbitals := exTables_init
  numbers := by
    intro i hi
    rw [exDimer_len] at hi
    refine ⟨?_, Or.inl rfl⟩
    have : i = 0 ∨ i = 1 := by omega
    rcases this with rfl | rfl <;> rfl
  valences := rfl
  units := one_pos

theorem exDimer_images (J : SkJunk) (κ : ℝ) (d : ℝ) : ((exScf J κ).mat (exDimer d)).ntuples = [0] := rfl

theorem exDimer_rot (d : ℝ) : (exDimer d).rawRotation 0 = 1 := by
  simp [Atoms.rawRotation, exDimer]

theorem exDimer_pos (J : SkJunk) (κ : ℝ) (d : ℝ) (i : ℕ) :
    ((exScf J κ).mat (exDimer d)).pos 0 i = ((exDimer d).positions[i]?).getD 0 := by
  show (1 : ℝ)⁻¹ • (exDimer d).rawTransform _ 0 = _
  rw [rawTransform_zero _ (by simp [exDimer, Commuting])]
  simp

theorem exDimer_dist (J : SkJunk) (κ : ℝ) {d : ℝ} (hd : 0 < d) {i j : ℕ} (hi : i < 2) (hj : j < 2) (hij : i ≠ j) :
    norm3 (((exScf J κ).mat (exDimer d)).rij 0 i j) = d := by
  unfold MatIn.rij
  rw [exDimer_pos, exDimer_pos]
  have p0 : ((exDimer d).positions[0]?).getD 0 = ![0, 0, 0] := rfl
  have p1 : ((exDimer d).positions[1]?).getD 0 = ![d, 0, 0] := rfl
  have hc : (i = 0 ∧ j = 1) ∨ (i = 1 ∧ j = 0) := by omega
  rcases hc with ⟨rfl, rfl⟩ | ⟨rfl, rfl⟩
  · rw [p0, p1]
    have : (![d, 0, 0] - ![0, 0, 0] : Vec) = ![d, 0, 0] := by
      ext k; fin_cases k <;> simp
    rw [this, norm3_x, abs_of_pos hd]
  · rw [p0, p1]
    have : (![0, 0, 0] - ![d, 0, 0] : Vec) = ![-d, 0, 0] := by
      ext k; fin_cases k <;> simp
    rw [this, norm3_x, abs_neg, abs_of_pos hd]

theorem exDimer_follow (J : SkJunk) (κ : ℝ) (d : ℝ) : OrbitalsFollow ((exScf J κ).mat (exDimer d)) := by
  intro n hn
  rw [exDimer_images, List.mem_singleton] at hn
  subst hn
  have hR : ((exScf J κ).mat (exDimer d)).rot 0 = 1 := exDimer_rot d
  refine ⟨1, ?_, fun a b _ => by rw [hR, orbRep_one]⟩
  rw [hR]
  unfold rotationTransformation
  rw [if_pos (by intro i; simp; norm_num)]

theorem exHop_parity (κ : ℝ) : ParityTable SkTable.h (exHop κ) ∧ ParityTable SkTable.s (exHop κ) := by
  constructor
  · intro d la hla lb hlb m hm
    simp only [exHop]
    interval_cases la <;> interval_cases lb <;> fin_cases m <;>
      simp_all [skIntegralIndex] <;> (try (intro h; exact absurd h (by decide)))
  · intro d la hla lb hlb m hm
    simp [exHop]

theorem exDimer_pairs (J : SkJunk) (κ : ℝ) (d : ℝ) : InversePairs ((exScf J κ).mat (exDimer d)) 0 id := by
  have hR : ((exScf J κ).mat (exDimer d)).rot 0 = 1 := exDimer_rot d
  have hn : ∀ {n : Op}, n ∈ ((exScf J κ).mat (exDimer d)).ntuples → n = 0 := fun h => by
    rw [exDimer_images, List.mem_singleton] at h; exact h
  refine ⟨?_, fun n h => h, fun n _ => rfl, rfl, ?_, ?_, ?_, ?_⟩
  · rw [exDimer_images]; simp
  · intro n h; rw [hn h, hR]; simp
  · intro n h; rw [hn h, id, hR]; simp
  · intro n h i _; rw [hn h]; simp [MatIn.rij]
  · intro n h; rw [hn h, id, blochPhase_zero]; simp

theorem exDimer_inverse (J : SkJunk) (κ : ℝ) (d : ℝ) : ((exScf J κ).geom (exDimer d)).Inverse id := by
  have hR : ((exScf J κ).geom (exDimer d)).rot 0 = 1 := exDimer_rot d
  have hn : ∀ {n : Op}, n ∈ ((exScf J κ).geom (exDimer d)).ntuples → n = 0 := fun {n} h => by
    have := (show n ∈ ((exScf J κ).mat (exDimer d)).ntuples from h)
    rw [exDimer_images, List.mem_singleton] at this; exact this
  refine ⟨⟨[], rfl, by simp⟩, ?_, fun n h => h, fun n _ => rfl, rfl, ?_, ?_, hR, ?_⟩
  · show ((exScf J κ).mat (exDimer d)).ntuples.Nodup
    rw [exDimer_images]; simp
  · intro n h; rw [hn h, hR]; simp
  · intro n h; rw [hn h, id, hR]; simp
  · intro n h i _ j _; rw [hn h, id, hR]; simp [Geom.rij]

theorem exScf_smooth (J : SkJunk) (κ : ℝ) : Smooth (exScf J κ) (exDimer 1) id where
  closed := Or.inl rfl
  follow := exDimer_follow J κ 1
  pairs := fun _ => exDimer_pairs J κ 1
  inverse := exDimer_inverse J κ 1
  parity := fun _ _ => exHop_parity κ
  tables := by
    intro i j hij hj n hn hself
    rw [exDimer_images, List.mem_singleton] at hn
    subst hn
    rw [exDimer_len] at hj
    have hne : i ≠ j := fun h => hself ⟨h, rfl⟩
    intro t dd
    have hd : dd = 1 := exDimer_dist J κ one_pos (by omega) hj hne
    have ht : t = exHop κ := rfl
    rw [hd, ht]
    refine ⟨by simp [exHop], by norm_num [exHop], fun _ _ m => ⟨?_, ?_⟩⟩
    · by_cases hm : m = 9
      · have h := (hasDerivAt_id' (1 : ℝ)).const_mul κ
        rw [mul_one] at h
        simp only [exHop, hm, if_true]
        exact h
      · simpa [exHop, hm] using hasDerivAt_const (1 : ℝ) (0 : ℝ)
    · simpa [exHop] using hasDerivAt_const (1 : ℝ) (0 : ℝ)
  images := fun n hn => absurd hn (by simp [exScf])
  symmetric := fun _ _ _ _ => rfl
  repulsion := by
    intro i hi j hj n hn hself
    have hn' : n ∈ ((exScf J κ).mat (exDimer 1)).ntuples := hn
    rw [exDimer_images, List.mem_singleton] at hn'
    subst hn'
    have hne : i ≠ j := fun h => hself ⟨h, rfl⟩
    intro dd
    have hd : dd = 1 := exDimer_dist J κ one_pos hi hj hne
    rw [hd]
    exact ⟨by norm_num, by norm_num [exScf], fun _ => by
      have h := hasDerivAt_pow 2 (1 : ℝ)
      refine h.congr_deriv ?_
      simp [exScf]⟩
  cutoff := by intro c hc; cases hc
  coulomb := exDimer_regular _ (by intro c hc; cases hc)


theorem fin2_cases : ∀ x : Fin 2, x = 0 ∨ x = 1 := by decide

theorem exDimer_elem (J : SkJunk) (κ : ℝ) {d : ℝ} (hd : 0 < d) (h10 : d < 10) (f : SkTable → ℝ → Fin 14 → ℝ) :
    blochSum ((exScf J κ).mat (exDimer d)) f 0 0 1 0 0 = (f (exHop κ) d 9 : ℂ) ∧
    blochSum ((exScf J κ).mat (exDimer d)) f 0 0 0 0 0 = 0 ∧
    blochSum ((exScf J κ).mat (exDimer d)) f 0 1 1 0 0 = 0 := by
  have hR : ((exScf J κ).mat (exDimer d)).rot 0 = 1 := exDimer_rot d
  refine ⟨?_, ?_, ?_⟩
  · unfold blochSum
    have ht : ∀ a b, ((exScf J κ).mat (exDimer d)).tab a b = exHop κ := fun _ _ => rfl
    have hdist := exDimer_dist J κ hd (i := 0) (j := 1) (by omega) (by omega) (by omega)
    rw [exDimer_images]
    simp only [List.map_cons, List.map_nil, List.sum_cons, List.sum_nil, add_zero, ht, hdist]
    rw [if_pos ⟨by simp, by simp [exHop, hd.le], by simp [exHop, h10.le]⟩, blochPhase_zero, one_mul]
    congr 1
    unfold imageElem
    simp only [hdist, ht, hR, orbRep_one]
    simp [Matrix.one_apply, skSpec, Fin.sum_univ_three, orbL, skCoef, cubic, skIntegralIndex]
  · unfold blochSum
    rw [exDimer_images]
    simp
  · unfold blochSum
    rw [exDimer_images]
    simp

theorem exDimer_mats (J : SkJunk) (κ : ℝ) {d : ℝ} (hd : 0.1 < d) (h10 : d < 10) :
    ∃ st, getMatrices ((exScf J κ).mat (exDimer d)) 0 = .ok st ∧
      exTables.flat st.H0 = (!![0, ((κ * d : ℝ) : ℂ); ((κ * d : ℝ) : ℂ), 0] : CMat 2) ∧
      exTables.flat st.S = (1 : CMat 2) := by
  have hd0 : 0 < d := by norm_num at hd; linarith
  have hid : IdFirst ((exScf J κ).mat (exDimer d)) := ⟨[], rfl, by simp⟩
  obtain ⟨st, hst⟩ := (c29_too_close (I := (exScf J κ).mat (exDimer d)) 0 hid
    (fun _ _ => Or.inl rfl) (exDimer_follow J κ d)).1 (by
      intro i j hij hj n hn hself
      rw [exDimer_images, List.mem_singleton] at hn
      subst hn
      have hj' : j < 2 := hj
      rw [exDimer_dist J κ hd0 (by omega) hj' fun h => hself ⟨h, rfl⟩]
      exact hd)
  have hN : ∀ {i : ℕ}, i < 2 → i < ((exScf J κ).mat (exDimer d)).N := fun h => h
  have hno : ∀ i, ((exScf J κ).mat (exDimer d)).no i = 1 := fun _ => rfl
  have hp : ∀ i, ((0 : Fin 9) : ℕ) < ((exScf J κ).mat (exDimer d)).no i := fun i => by rw [hno]; decide
  have e00 := c29_elements hst hid (exDimer_follow J κ d) (le_refl 0) (hN (by omega)) (hp 0) (hp 0)
  have e01 := c29_elements hst hid (exDimer_follow J κ d) (zero_le_one) (hN (by omega)) (hp 0) (hp 1)
  have e11 := c29_elements hst hid (exDimer_follow J κ d) (le_refl 1) (hN (by omega)) (hp 1) (hp 1)
  have e10 := c29_hermitian hst hid (exDimer_follow J κ d) (exDimer_pairs J κ d)
    (fun _ _ => exHop_parity κ) (i := 0) (j := 1) (hN (by omega)) (hN (by omega)) (hp 0) (hp 1)
  have heps : ∀ i q, ((exScf J κ).mat (exDimer d)).eps i q = 0 := fun _ _ => rfl
  have hseps : ((exScf J κ).mat (exDimer d)).seps = 0 := rfl
  obtain ⟨b1, b2, b3⟩ := exDimer_elem J κ hd0 h10 SkTable.h
  obtain ⟨c1, c2, c3⟩ := exDimer_elem J κ hd0 h10 SkTable.s
  rw [b2, c2, heps, hseps] at e00
  rw [b1, c1, heps, hseps] at e01
  rw [b3, c3, heps, hseps] at e11
  simp [exHop] at e00 e01 e11
  rw [e01.1, e01.2] at e10
  simp at e10
  have a0 : exTables.atomAt 0 = 0 := rfl
  have a1 : exTables.atomAt 1 = 1 := rfl
  have n0 : exTables.numAt 0 = 0 := rfl
  have n1 : exTables.numAt 1 = 0 := rfl
  refine ⟨st, hst, ?_, ?_⟩
  · ext x y
    show st.H0 (exTables.atomAt x) (exTables.atomAt y) (exTables.numAt x) (exTables.numAt y) = _
    have hx : x = (0 : Fin 2) ∨ x = (1 : Fin 2) := fin2_cases x
    have hy : y = (0 : Fin 2) ∨ y = (1 : Fin 2) := fin2_cases y
    rcases hx with rfl | rfl <;> rcases hy with rfl | rfl
    · exact e00.1
    · exact e01.1.trans (Complex.ofReal_mul κ d).symm
    · exact e10.1.trans (Complex.ofReal_mul κ d).symm
    · exact e11.1
  · ext x y
    show st.S (exTables.atomAt x) (exTables.atomAt y) (exTables.numAt x) (exTables.numAt y) = _
    have hx : x = (0 : Fin 2) ∨ x = (1 : Fin 2) := fin2_cases x
    have hy : y = (0 : Fin 2) ∨ y = (1 : Fin 2) := fin2_cases y
    rcases hx with rfl | rfl <;> rcases hy with rfl | rfl
    · exact e00.2
    · exact e01.2
    · exact e10.2
    · exact e11.2

/-- Bonding and antibonding state. -/
noncomputable def exDimerWf : CMat 2 := !![((Real.sqrt 2)⁻¹ : ℝ), (-(Real.sqrt 2)⁻¹ : ℝ);
  ((Real.sqrt 2)⁻¹ : ℝ), ((Real.sqrt 2)⁻¹ : ℝ)]

theorem exWf_sq : (((Real.sqrt 2)⁻¹ : ℝ) : ℂ) * (((Real.sqrt 2)⁻¹ : ℝ) : ℂ) = 1 / 2 := by
  rw [← Complex.ofReal_mul, ← mul_inv, Real.mul_self_sqrt (by norm_num)]
  norm_num

theorem exWf_states (d : ℝ) (hd : 0 ≤ d) :
    AreStates (!![0, (d : ℂ); (d : ℂ), 0] : CMat 2) 1 ![-d, d] exDimerWf where
  ascending := by
    intro a b hab
    fin_cases a <;> fin_cases b <;> simp at hab ⊢ <;> linarith
  orthonormal := by
    intro a b
    have h := exWf_sq
    generalize (((Real.sqrt 2)⁻¹ : ℝ) : ℂ) = z at h
    have hz := exWf_sq
    fin_cases a <;> fin_cases b <;>
      simp [Fin.sum_univ_two, exDimerWf, Matrix.one_apply] <;> push_cast at hz <;> linear_combination 2 * hz
  solve := by
    intro a i
    fin_cases a <;> fin_cases i <;> simp [Fin.sum_univ_two, exDimerWf, Matrix.one_apply]

theorem exDimer_maxExp : 10 < maxExpArg := by
  have hk : (3 : ℝ) ^ 10 < 2 ^ 1024 - 2 ^ 971 := by
    have e : (2 : ℝ) ^ 1024 = 2 ^ 971 * 2 ^ 53 := by rw [← pow_add]
    have h1 : (2 : ℝ) ^ 20 ≤ 2 ^ 971 := pow_le_pow_right₀ (by norm_num) (by norm_num)
    rw [e]
    generalize (2 : ℝ) ^ 971 = x at h1
    norm_num at h1 ⊢
    linarith
  unfold maxExpArg
  rw [Real.lt_log_iff_exp_lt (lt_trans (by norm_num) hk)]
  have h1 : Real.exp 10 = Real.exp 1 ^ 10 := by rw [← Real.exp_nat_mul]; norm_num
  have h2 : Real.exp 1 < 3 := by have := Real.exp_one_lt_d9; linarith
  rw [h1]
  calc Real.exp 1 ^ 10 < 3 ^ 10 := by gcongr
    _ < _ := hk

theorem exDimer_fermi {d : ℝ} (h : |d| < 10) : fermi 1 0 d = 2 / (Real.exp d + 1) := by
  unfold fermi
  rw [if_pos (by have := exDimer_maxExp; have := (abs_lt.1 h).2; simp; linarith)]
  simp

theorem exDimer_two {d : ℝ} (h : |d| < 10) : fermi 1 0 (-d) + fermi 1 0 d = 2 := by
  rw [exDimer_fermi h, exDimer_fermi (by rwa [abs_neg]), Real.exp_neg]
  have := Real.exp_pos d
  field_simp
  ring

theorem exWf_rho (f : Fin 2 → ℝ) (hf : f 0 + f 1 = 2) (i : Fin 2) :
    (rowDot (computeRho exDimerWf f) (1 : CMat 2) i).re = 1 := by
  have hz := exWf_sq
  have hf' : (f 0 : ℂ) + f 1 = 2 := by rw [← Complex.ofReal_add, hf]; norm_num
  have : rowDot (computeRho exDimerWf f) (1 : CMat 2) i = 1 := by
    unfold rowDot
    simp only [computeRho_apply]
    fin_cases i <;> simp [Fin.sum_univ_two, exDimerWf, Matrix.one_apply] <;> push_cast at hz <;>
      linear_combination (f 0 + f 1 : ℂ) * hz + hf' / 2
  rw [this]; rfl

theorem exWf_band (f : Fin 2 → ℝ) (d : ℝ) :
    (∑ i, rowDot (computeRho exDimerWf f) (!![0, (d : ℂ); (d : ℂ), 0] : CMat 2) i) = ((f 1 - f 0) * d : ℝ) := by
  have hz := exWf_sq
  unfold rowDot
  simp only [computeRho_apply]
  simp [Fin.sum_univ_two, exDimerWf, Matrix.one_apply]
  push_cast at hz
  linear_combination (2 * (f 1 - f 0) * d : ℂ) * hz

theorem exDimer_moved (d t : ℝ) : moved (exDimer d) 1 0 t = exDimer (d + t) := by
  have : (![d, 0, 0] + t • Pi.single 0 1 : Vec) = ![d + t, 0, 0] := by
    ext k
    fin_cases k <;> simp
  unfold moved displace exDimer
  rw [← this]
  rfl

theorem exDimer_converged (J : SkJunk) (κ : ℝ) {d : ℝ} (hκ : 0 ≤ κ) (hκ1 : κ ≤ 1) (hd : 0.1 < d) (h10 : d < 10) :
    ∃ r : ScfRun (exScf J κ), Converged (exScf J κ) (exDimer d) r ∧ r.mu = 0 ∧
      (∀ k, r.e k = ![-(κ * d), κ * d]) ∧ (∀ k, r.wf k = exDimerWf) ∧
      (∀ k, scfHamiltonian (r.h1 2) (r.H0 k) (r.S k) = (!![0, ((κ * d : ℝ) : ℂ); ((κ * d : ℝ) : ℂ), 0] : CMat 2)) ∧
      (∀ k, r.S k = (1 : CMat 2)) ∧ ∃ E, r.energy (exDimer d) = .ok E := by
  have hd0 : 0 < d := by norm_num at hd; linarith
  have habs : |κ * d| < 10 := by
    rw [abs_of_nonneg (by positivity)]
    nlinarith
  obtain ⟨st, hst, hH, hS⟩ := exDimer_mats J κ hd h10
  have hclu : (none : Option ℝ).isSome ∨ (exDimer d).isCluster = true := Or.inr (exDimer_cluster d)
  obtain ⟨s, hs⟩ := esState_exists (exScf J κ).cd (exScf J κ).bohr (exScf J κ).U (exScf J κ).w none (exDimer d)
    [0, 0] hclu
  obtain ⟨-, -, hf, -⟩ := esState_eq _ _ _ _ _ _ _ _ _ _ hs
  obtain ⟨-, hse⟩ := fresh_eq _ _ _ _ hf
  obtain ⟨phi, hphi⟩ : ∃ phi, dcPotential s = .ok phi := by rw [hse]; exact ⟨_, rfl⟩
  obtain ⟨fld, hfld⟩ : ∃ fld, dcGetField s = .ok fld := by rw [hse]; exact ⟨_, rfl⟩
  set r : ScfRun (exScf J κ) := ⟨fun _ => st, fun _ => ![-(κ * d), κ * d], fun _ => exDimerWf, 0, [0, 0], _, _, s, phi, fld⟩
    with hr
  have hchg : ∀ i, chg [0, 0] i = 0 := by
    intro i
    match i with
    | 0 => rfl
    | 1 => rfl
    | n + 2 => rfl
  have heps : ∀ i < 2, r.epsilon 2 i = 0 := by
    intro i hi
    have := epsilon_gam hs hphi (i := i) hi
    rw [exDimer_len] at this
    unfold ScfRun.epsilon
    rw [show r.dq = [0, 0] from rfl, show r.phi = phi from rfl]
    refine this.trans ?_
    simp [hchg]
  have hh1 : ∀ x y : Fin 2, constructH1 (exScf J κ).t 2 (r.epsilon 2) (fun _ => 0) x y = 0 := by
    intro x y
    unfold constructH1
    dsimp only
    rw [if_neg (by simp; norm_num)]
    have haux : ∀ x : Fin 2, auxFill (r.epsilon 2) (exScf J κ).t.blocks 0 (fun _ => 0) x = 0 := by
      intro x
      have h0 := heps 0 (by omega)
      have h1 := heps 1 (by omega)
      have hb : (exScf J κ).t.blocks = [(0, 1), (1, 1)] := rfl
      rw [hb]
      rcases fin2_cases x with rfl | rfl <;> simp [auxFill, h0, h1]
    rw [haux, haux]
    norm_num
  have hham : ∀ k, scfHamiltonian (r.h1 2) (r.H0 k) (r.S k) = (!![0, ((κ * d : ℝ) : ℂ); ((κ * d : ℝ) : ℂ), 0] : CMat 2) := by
    intro k
    have e1 : r.h1 2 = some fun (x y : Fin 2) => constructH1 (exScf J κ).t 2 (r.epsilon 2) (fun _ => 0) x y := rfl
    rw [e1]
    have e2 : r.H0 k = (!![0, ((κ * d : ℝ) : ℂ); ((κ * d : ℝ) : ℂ), 0] : CMat 2) := hH
    rw [e2]
    unfold scfHamiltonian
    ext x y
    show (!![0, ((κ * d : ℝ) : ℂ); ((κ * d : ℝ) : ℂ), 0] : CMat 2) x y
      + ((constructH1 (exScf J κ).t 2 (r.epsilon 2) (fun _ => 0) x y : ℝ) : ℂ) * r.S k x y = _
    have h := hh1 x y
    have e : ∀ z w c : ℂ, c = 0 → z + c * w = z := by intro z w c hc; rw [hc]; simp
    exact e _ _ _ (by rw [Complex.ofReal_eq_zero]; exact h)
  have hSk : ∀ k, r.S k = (1 : CMat 2) := fun _ => hS
  have hsum : ∀ k, ∑ a, r.f k a = 2 := by
    intro k
    have : ∑ a : Fin 2, fermi 1 0 ((![-(κ * d), κ * d] : Fin 2 → ℝ) a) = 2 := by
      rw [Fin.sum_univ_two]
      exact exDimer_two habs
    exact this
  refine ⟨r, ?_, rfl, fun _ => rfl, fun _ => rfl, hham, hSk, ?_⟩
  · refine ⟨fun k => hst, ?_, ?_, ?_, fun _ => ⟨hs, hphi, hfld⟩⟩
    · intro k
      have := exWf_states (κ * d) (by positivity)
      rw [exDimer_len, hham, hSk]
      exact this
    · rw [Finset.sum_congr rfl fun k _ => by rw [hsum k]]
      have : ∑ x : Fin 1, (1 : ℝ) * 2 = 2 := by simp
      exact this
    · intro _
      have hm : ∀ x : Fin 2, mullikenDiag (exScf J κ).wk r.rho r.S x = 1 := by
        intro x
        have : ∑ k : Fin 1, (1 : ℝ) * (rowDot (computeRho exDimerWf (r.f k)) (1 : CMat 2) x).re = 1 := by
          rw [Fin.sum_univ_one, one_mul]
          exact exWf_rho _ ((Fin.sum_univ_two (r.f (0 : Fin 1))).symm.trans (hsum (0 : Fin 1))) x
        refine Eq.trans ?_ this
        unfold mullikenDiag
        refine Finset.sum_congr rfl fun k _ => ?_
        rw [hSk]
        rfl
      have hq : (exScf J κ).t.blocks.map (sliceSum (mullikenDiag (exScf J κ).wk r.rho r.S)) = [1, 1] := by
        have hb : (exScf J κ).t.blocks = [(0, 1), (1, 1)] := rfl
        have hv : mullikenDiag (exScf J κ).wk r.rho r.S = (fun _ : Fin 2 => (1 : ℝ)) := funext hm
        rw [hb, hv]
        show [sliceSum (fun _ : Fin 2 => (1 : ℝ)) (0, 1), sliceSum (fun _ : Fin 2 => (1 : ℝ)) (1, 1)] = _
        simp [sliceSum, List.ofFn_succ]
      unfold mulliken
      rw [hq]
      norm_num [exScf]
      rfl
  · have hb : bandEnergy (exScf J κ).wk r.rho r.H0 (exScf J κ).tolIm =
        .ok (∑ k : Fin 1, (1 : ℂ) * (((r.f k (1 : Fin 2) - r.f k (0 : Fin 2)) * (κ * d) : ℝ) : ℂ)).re := by
      have e : (∑ k, ((exScf J κ).wk k : ℂ) * ∑ i, rowDot (r.rho k) (r.H0 k) i)
          = ∑ k : Fin 1, (1 : ℂ) * (((r.f k (1 : Fin 2) - r.f k (0 : Fin 2)) * (κ * d) : ℝ) : ℂ) := by
        refine Finset.sum_congr rfl fun k _ => ?_
        have e2 : r.H0 k = (!![0, ((κ * d : ℝ) : ℂ); ((κ * d : ℝ) : ℂ), 0] : CMat 2) := hH
        rw [e2]
        have e3 := exWf_band (r.f k) (κ * d)
        rw [← e3]
        have e4 : (((exScf J κ).wk k : ℝ) : ℂ) = 1 := by show ((1 : ℝ) : ℂ) = 1; simp
        rw [e4]
        rfl
      unfold bandEnergy
      dsimp only
      rw [e, if_pos]
      rw [Fin.sum_univ_one, one_mul, Complex.ofReal_im]
      exact one_pos
    obtain ⟨e, he⟩ := c31_succeeds (G := (exScf J κ).geom (exDimer d)) (V := (exScf J κ).V)
      (rmax := (exScf J κ).rmax) (hartree := (exScf J κ).hartree) ⟨[], rfl, by simp⟩ (by
        intro i j hij hj n hn hc
        have hn' : n ∈ ((exScf J κ).mat (exDimer d)).ntuples := hn
        rw [exDimer_images, List.mem_singleton] at hn'
        subst hn'
        have hne : i ≠ j := fun h => hc.1 ⟨h, rfl⟩
        have hj' : j < 2 := hj
        have h1 := hc.2.2
        have h2 : norm3 (((exScf J κ).geom (exDimer d)).rij 0 i j) = d :=
          exDimer_dist J κ hd0 (by omega) hj' hne
        rw [h2] at h1
        norm_num at hd h1
        linarith)
    unfold ScfRun.energy
    rw [hb, he]
    exact ⟨_, rfl⟩

theorem exDimer_deriv_sum :
    deriv (fun x : ℝ => fermi 1 0 (-(1 + x))) 0 * -1 + deriv (fun x : ℝ => fermi 1 0 (1 + x)) 0 * 1 < 0 := by
  have hev : ∀ᶠ x : ℝ in nhds 0, |x| < 1 := by
    have : Filter.Tendsto (fun x : ℝ => |x|) (nhds 0) (nhds 0) := by
      simpa using (continuous_abs (G := ℝ)).tendsto 0
    exact this.eventually_lt_const (by norm_num)
  have e1 : (fun x : ℝ => fermi 1 0 (1 + x)) =ᶠ[nhds 0] fun x => 2 / (Real.exp (1 + x) + 1) := by
    filter_upwards [hev] with x hx
    rw [exDimer_fermi]
    rw [abs_lt] at hx ⊢
    constructor <;> linarith [hx.1, hx.2]
  have e2 : (fun x : ℝ => fermi 1 0 (-(1 + x))) =ᶠ[nhds 0] fun x => 2 - 2 / (Real.exp (1 + x) + 1) := by
    filter_upwards [hev, e1] with x hx h1
    rw [← h1, eq_sub_iff_add_eq]
    apply exDimer_two
    rw [abs_lt] at hx ⊢
    constructor <;> linarith [hx.1, hx.2]
  have hd : HasDerivAt (fun x : ℝ => 2 / (Real.exp (1 + x) + 1))
      (-(2 * Real.exp 1) / (Real.exp 1 + 1) ^ 2) 0 := by
    have h1 : HasDerivAt (fun x : ℝ => Real.exp (1 + x) + 1) (Real.exp 1) 0 := by
      have h0 : HasDerivAt (fun x : ℝ => 1 + x) 1 0 := (hasDerivAt_id' (0 : ℝ)).const_add 1
      have h2 := (h0.exp).add_const 1
      refine h2.congr_deriv ?_
      simp
    refine ((hasDerivAt_const (0 : ℝ) (2 : ℝ)).div h1 (by positivity)).congr_deriv ?_
    simp
  rw [e1.deriv_eq, e2.deriv_eq, hd.deriv, (hd.const_sub 2).deriv]
  have := Real.exp_pos 1
  have h2 : 0 < 2 * Real.exp 1 / (Real.exp 1 + 1) ^ 2 := by positivity
  have h3 : -(2 * Real.exp 1) / (Real.exp 1 + 1) ^ 2 = -(2 * Real.exp 1 / (Real.exp 1 + 1) ^ 2) := by ring
  rw [h3]
  linarith

/-- The dimer meets the requirements of the theorems: its calculations when the second atom moves. -/
theorem exDimer_path (J : SkJunk) (κ : ℝ) (hκ : 0 ≤ κ) (hκ1 : κ ≤ 1) : ∃ (r : ℝ → ScfRun (exScf J κ))
    (ε : ℝ → Fin (exScf J κ).nk → Fin (exScf J κ).t.norb → ℝ) (E : ℝ → ℝ),
    Fits (exScf J κ) (exDimer 1) exSElements ∧ Smooth (exScf J κ) (exDimer 1) id ∧
    (∀ᶠ x in nhds (0 : ℝ), Converged (exScf J κ) (moved (exDimer 1) 1 0 x) (r x)) ∧
    SmoothStates (exDimer 1).positions.length r ε ∧
    (∀ᶠ x in nhds (0 : ℝ), (r x).energy (moved (exDimer 1) 1 0 x) = .ok (E x)) ∧
    ((fun x => (r x).mu) =ᶠ[nhds 0] fun _ => 0) ∧
    ∀ x k, ε x k = (![-(κ * (1 + x)), κ * (1 + x)] : Fin 2 → ℝ) := by
  classical
  have hev : ∀ᶠ x : ℝ in nhds 0, |x| < 0.5 := by
    have : Filter.Tendsto (fun x : ℝ => |x|) (nhds 0) (nhds 0) := by
      simpa using (continuous_abs (G := ℝ)).tendsto 0
    exact this.eventually_lt_const (by norm_num)
  have hex : ∀ x : ℝ, ∃ r : ScfRun (exScf J κ), |x| < 0.5 → (Converged (exScf J κ) (exDimer (1 + x)) r ∧
      r.mu = 0 ∧ (∀ k, r.e k = ![-(κ * (1 + x)), κ * (1 + x)]) ∧ (∀ k, r.wf k = exDimerWf) ∧
      (∀ k, scfHamiltonian (r.h1 2) (r.H0 k) (r.S k)
        = (!![0, ((κ * (1 + x) : ℝ) : ℂ); ((κ * (1 + x) : ℝ) : ℂ), 0] : CMat 2)) ∧
      (∀ k, r.S k = (1 : CMat 2)) ∧ ∃ E, r.energy (exDimer (1 + x)) = .ok E) := by
    intro x
    by_cases hx : |x| < 0.5
    · have hx' := abs_lt.1 hx
      norm_num at hx'
      obtain ⟨r, hr⟩ := exDimer_converged J κ hκ hκ1 (d := 1 + x) (by norm_num; linarith [hx'.1])
        (by linarith [hx'.2])
      exact ⟨r, fun _ => hr⟩
    · obtain ⟨r, -⟩ := exDimer_converged J κ hκ hκ1 (d := 1) (by norm_num) (by norm_num)
      exact ⟨r, fun h => absurd h hx⟩
  choose r hr using hex
  let E : ℝ → ℝ := fun x => if h : |x| < 0.5 then (hr x h).2.2.2.2.2.2.choose else 0
  let ε : ℝ → Fin (exScf J κ).nk → Fin (exScf J κ).t.norb → ℝ := fun x _ =>
    (![-(κ * (1 + x)), κ * (1 + x)] : Fin 2 → ℝ)
  have hconv : ∀ᶠ x in nhds (0 : ℝ), Converged (exScf J κ) (moved (exDimer 1) 1 0 x) (r x) := by
    filter_upwards [hev] with x hx
    rw [exDimer_moved]
    exact (hr x hx).1
  have hen : ∀ᶠ x in nhds (0 : ℝ), (r x).energy (moved (exDimer 1) 1 0 x) = .ok (E x) := by
    filter_upwards [hev] with x hx
    rw [exDimer_moved]
    have : E x = (hr x hx).2.2.2.2.2.2.choose := dif_pos hx
    rw [this]
    exact (hr x hx).2.2.2.2.2.2.choose_spec
  have hmu : (fun x => (r x).mu) =ᶠ[nhds 0] fun _ => 0 := by
    filter_upwards [hev] with x hx
    exact (hr x hx).2.1
  have hmu0 : (r 0).mu = 0 := hmu.self_of_nhds
  have hst : SmoothStates (exDimer 1).positions.length r ε := by
    refine ⟨⟨fun _ _ => exDimerWf, ?_, fun k a i => differentiableAt_const _⟩, ?_, ?_, ?_⟩
    · filter_upwards [hev] with x hx k
      have hx' := abs_lt.1 hx
      norm_num at hx'
      rw [exDimer_len, (hr x hx).2.2.2.2.1, (hr x hx).2.2.2.2.2.1]
      exact (exWf_states (κ * (1 + x)) (mul_nonneg hκ (by linarith [hx'.1]))).solutions
    · intro k a
      have h : ∀ a : Fin 2, DifferentiableAt ℝ (fun x : ℝ => (![-(κ * (1 + x)), κ * (1 + x)] : Fin 2 → ℝ) a) 0 := by
        intro a
        rcases fin2_cases a with rfl | rfl
        · show DifferentiableAt ℝ (fun x : ℝ => -(κ * (1 + x))) 0
          fun_prop
        · show DifferentiableAt ℝ (fun x : ℝ => κ * (1 + x)) 0
          fun_prop
      exact h a
    · exact (hmu.differentiableAt_iff).2 (differentiableAt_const _)
    · intro k a
      rw [hmu0]
      have h : ∀ a : Fin 2, ((![-(κ * (1 + (0 : ℝ))), κ * (1 + 0)] : Fin 2 → ℝ) a - 0) / 1 ≠ maxExpArg := by
        intro a he
        have h10 := exDimer_maxExp
        rw [← he] at h10
        rcases fin2_cases a with rfl | rfl <;> norm_num at h10 <;> linarith
      exact h a
  exact ⟨r, ε, E, exScf_fits J κ 1, exScf_smooth J κ, hconv, hst, hen, hmu, fun _ _ => rfl⟩

/-- **C124 (smearing, violated).** For the dimer all requirements are met, and yet minus the force is
not the derivative of the reported energy. -/
theorem c124_smearing_fails (J : SkJunk) : ∃ (r : ℝ → ScfRun (exScf J 1))
    (ε : ℝ → Fin (exScf J 1).nk → Fin (exScf J 1).t.norb → ℝ) (E : ℝ → ℝ),
    Fits (exScf J 1) (exDimer 1) exSElements ∧ Smooth (exScf J 1) (exDimer 1) id ∧
    (∀ᶠ x in nhds (0 : ℝ), Converged (exScf J 1) (moved (exDimer 1) 1 0 x) (r x)) ∧
    SmoothStates (exDimer 1).positions.length r ε ∧
    (∀ᶠ x in nhds (0 : ℝ), (r x).energy (moved (exDimer 1) 1 0 x) = .ok (E x)) ∧
    ¬ HasDerivAt E (-(r 0).force (exDimer 1) 1 0) 0 := by
  obtain ⟨r, ε, E, h1, h2, hconv, hst, hen, hmu, hε⟩ := exDimer_path J 1 zero_le_one le_rfl
  refine ⟨r, ε, E, h1, h2, hconv, hst, hen, fun h => ?_⟩
  have hl : ∀ x, ε x (0 : Fin 1) (0 : Fin 2) = -(1 + x) := fun x =>
    (congrFun (hε x (0 : Fin 1)) (0 : Fin 2)).trans (show -(1 * (1 + x)) = -(1 + x) by ring)
  have hu : ∀ x, ε x (0 : Fin 1) (1 : Fin 2) = 1 + x := fun x =>
    (congrFun (hε x (0 : Fin 1)) (1 : Fin 2)).trans (show 1 * (1 + x) = 1 + x by ring)
  have h2 := c124_energy_partial (exScf_fits J 1 1) (exScf_smooth J 1) (a := 1) (by rw [exDimer_len]; omega) 0 r
    hconv hst hen
  have h3 := h.unique h2
  have h4 : ∑ k : Fin 1, (1 : ℝ) * ∑ b : Fin 2, deriv (fun x => fermi 1 (r x).mu (ε x k b)) 0 * ε 0 k b
      = deriv (fun x : ℝ => fermi 1 0 (-(1 + x))) 0 * -1 + deriv (fun x : ℝ => fermi 1 0 (1 + x)) 0 * 1 := by
    rw [Fin.sum_univ_one, one_mul, Fin.sum_univ_two]
    have e1 : (fun x => fermi 1 (r x).mu (ε x (0 : Fin 1) (0 : Fin 2))) =ᶠ[nhds 0]
        fun x => fermi 1 0 (-(1 + x)) := by
      filter_upwards [hmu] with x hx
      rw [hx]
      exact congrArg (fermi 1 0) (hl x)
    have e2 : (fun x => fermi 1 (r x).mu (ε x (0 : Fin 1) (1 : Fin 2))) =ᶠ[nhds 0]
        fun x => fermi 1 0 (1 + x) := by
      filter_upwards [hmu] with x hx
      rw [hx]
      exact congrArg (fermi 1 0) (hu x)
    have e3 : ε 0 (0 : Fin 1) (0 : Fin 2) = -1 := (hl 0).trans (by norm_num)
    have e4 : ε 0 (0 : Fin 1) (1 : Fin 2) = 1 := (hu 0).trans (by norm_num)
    rw [e1.deriv_eq, e2.deriv_eq, e3, e4]
  have h5 := exDimer_deriv_sum
  rw [← h4] at h5
  have h6 : (exScf J 1).hartree * ∑ k, (exScf J 1).wk k * ∑ b,
      deriv (fun x => fermi (exScf J 1).width (r x).mu (ε x k b)) 0 * ε 0 k b = 0 := by linarith
  have h7 : (1 : ℝ) * ∑ k : Fin 1, (1 : ℝ) * ∑ b : Fin 2,
      deriv (fun x => fermi 1 (r x).mu (ε x k b)) 0 * ε 0 k b = 0 := h6
  rw [one_mul] at h7
  rw [h7] at h5
  exact lt_irrefl _ h5

/-- Non-vacuity for the free energy: the dimer with smearing, whose derivative exists and is minus the
force. -/
example (J : SkJunk) : ∃ (r : ℝ → ScfRun (exScf J 1)) (E : ℝ → ℝ),
    (∀ᶠ x in nhds (0 : ℝ), Converged (exScf J 1) (moved (exDimer 1) 1 0 x) (r x)) ∧
    (∀ᶠ x in nhds (0 : ℝ), (r x).energy (moved (exDimer 1) 1 0 x) = .ok (E x)) ∧
    HasDerivAt (fun x => E x - (exScf J 1).hartree * (exScf J 1).width * (r x).entropy)
      (-(r 0).force (exDimer 1) 1 0) 0 := by
  obtain ⟨r, ε, E, h1, h2, hconv, hst, hen, -, -⟩ := exDimer_path J 1 zero_le_one le_rfl
  exact ⟨r, E, hconv, hen, c124_free_energy h1 h2 one_ne_zero (by rw [exDimer_len]; omega) 0 r hconv hst hen⟩

/-- Non-vacuity for fixed occupations: without hopping both levels stay half filled, and the atoms
repel each other. -/
example (J : SkJunk) : ∃ (r : ℝ → ScfRun (exScf J 0)) (E : ℝ → ℝ),
    (∀ᶠ x in nhds (0 : ℝ), Converged (exScf J 0) (moved (exDimer 1) 1 0 x) (r x)) ∧
    (∀ᶠ x in nhds (0 : ℝ), (r x).energy (moved (exDimer 1) 1 0 x) = .ok (E x)) ∧
    HasDerivAt E (-(r 0).force (exDimer 1) 1 0) 0 := by
  obtain ⟨r, ε, E, h1, h2, hconv, hst, hen, hmu, hε⟩ := exDimer_path J 0 le_rfl zero_le_one
  refine ⟨r, E, hconv, hen, c124_fixed_occupations h1 h2 (by rw [exDimer_len]; omega) 0 r hconv hst hen ?_⟩
  intro k b
  filter_upwards [hmu] with x hx
  have h0 : (r 0).mu = 0 := hmu.self_of_nhds
  have he : ε x k = ε 0 k := by
    rw [hε, hε, zero_mul, zero_mul]
  rw [hx, h0, he]

end Hotbit
