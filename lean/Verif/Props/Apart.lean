import Verif.Lemmas.ApartMain
import Verif.Props.CopyForces

/-!
# C137: structures that are far apart
-/

set_option linter.unusedSimpArgs false

namespace Hotbit

open Matrix

/-- **C137.** Let `B` consist of the structures `A c`, farther from each other than any interaction reaches,
and let the structures share their electrons: they have the same chemical potential. Then self-consistent
solutions for the structures make up one for all of them together: every atom has the charge that it has in
its structure, the energies of the states at every k-point are those of all structures, and the total energy
is the sum of the total energies. -/
theorem c137_apart {m : ℕ} {P : Fin m → ScfIn} {P' : ScfIn} {A : Fin m → Atoms} {B : Atoms}
    {ix : Fin m → ℕ → ℕ} {e : Op} {kf : ∀ c, Fin P'.nk ≃ Fin (P c).nk} (C : ApartCalc P P' A B ix e kf)
    {elements : Fin m → String → Option ElementData} {elements' : String → Option ElementData}
    (hA : ∀ c, Fits (P c) (A c) (elements c)) (hB : Fits P' B elements') {r : ∀ c, ScfRun (P c)}
    (h : ∀ c, Converged (P c) (A c) (r c)) {mu : ℝ} (hmu : ∀ c, (r c).mu = mu) :
    ∃ r' : ScfRun P', Converged P' B r' ∧ r'.mu = mu ∧
      (∀ c, ∀ i < (A c).positions.length, r'.dq.getD (ix c i) 0 = (r c).dq.getD i 0) ∧
      (∀ k, ∃ τ : Fin P'.t.norb ≃ Σ c, Fin (P c).t.norb, ∀ b,
        r'.e k b = (r (τ b).1).e (kf (τ b).1 k) (τ b).2) ∧
      ∀ En : Fin m → ℝ, 0 < P'.nk → (∀ c, (r c).energy (A c) = .ok (En c)) → r'.energy B = .ok (∑ c, En c) := by
  obtain ⟨r', h1, h2, h3, h4, h5, -⟩ := C.run hA hB h hmu
  refine ⟨r', h1, h2, fun c i hi => ?_, h4, h5⟩
  rw [h3]
  exact joinList_get C.fragments.parts (fun c => (r c).dq) hi

/-- **C137 (forces).** In that solution the force on every atom is the force on it in its own structure. -/
theorem c137_forces {m : ℕ} {P : Fin m → ScfIn} {P' : ScfIn} {A : Fin m → Atoms} {B : Atoms}
    {ix : Fin m → ℕ → ℕ} {e : Op} {kf : ∀ c, Fin P'.nk ≃ Fin (P c).nk} (C : ApartCalc P P' A B ix e kf)
    (T : MutualDerivatives P'.tab)
    {elements : Fin m → String → Option ElementData} {elements' : String → Option ElementData}
    (hA : ∀ c, Fits (P c) (A c) (elements c)) (hB : Fits P' B elements') {r : ∀ c, ScfRun (P c)}
    (h : ∀ c, Converged (P c) (A c) (r c)) {mu : ℝ} (hmu : ∀ c, (r c).mu = mu) :
    ∃ r' : ScfRun P', Converged P' B r' ∧
      (∀ En : Fin m → ℝ, 0 < P'.nk → (∀ c, (r c).energy (A c) = .ok (En c)) →
        r'.energy B = .ok (∑ c, En c)) ∧
      ∀ c, ∀ i < (A c).positions.length, r'.force B (ix c i) = (r c).force (A c) i := by
  obtain ⟨r', h1, -, h3, -, h5, g, hg, hrho⟩ := C.run hA hB h hmu
  exact ⟨r', h1, h5, fun c i hi => C.force hA hB T h h1 h3 hg hrho hi⟩

/-! ### Two chains of atoms -/

/-- The chain with one atom per cell, somewhere else. -/
noncomputable def exRowAt (v : Vec) : Atoms := { exRow with atoms := [("C", v)] }

variable {v : Vec}

theorem exRowAt_transform (r : Vec) (n : Op) :
    (exRowAt v).rawTransform r n = r + (![2 * (n 0 : ℝ), 9 * (n 1 : ℝ), 9 * (n 2 : ℝ)] : Vec) := by
  unfold Atoms.rawTransform exRowAt exRow
  funext x
  fin_cases x <;> simp <;> ring

theorem exRowAt_legal {n : Op} : Legal (exRowAt v) n ↔ n 1 = 0 ∧ n 2 = 0 := by
  have hr : ∀ i, (exRowAt v).ranges i = if (![true, false, false] : Fin 3 → Bool) i then rangeInf else rangeZero :=
    fun _ => rfl
  unfold Legal
  constructor
  · intro h
    have h1 := h 1
    have h2 := h 2
    rw [hr] at h1 h2
    simp [rangeZero, Bound.toEReal] at h1 h2
    have a1 := h1.1; have a2 := h1.2; have b1 := h2.1; have b2 := h2.2
    norm_cast at a1 a2 b1 b2
    exact ⟨le_antisymm a2 a1, le_antisymm b2 b1⟩
  · rintro ⟨h1, h2⟩ i
    rw [hr]
    fin_cases i
    · simp [rangeInf, Bound.toEReal]
    · simp [rangeZero, Bound.toEReal, h1]
    · simp [rangeZero, Bound.toEReal, h2]

theorem exRowAt_dist {n : Op} (hn : Legal (exRowAt v) n) :
    norm3 (imagePos (exRowAt v) 1 n 0 - imagePos (exRowAt v) 1 0 0) = 2 * |(n 0 : ℝ)| := by
  obtain ⟨h1, h2⟩ := exRowAt_legal.1 hn
  unfold imagePos
  rw [exRowAt_transform, exRowAt_transform]
  have e : ((1 : ℝ)⁻¹ • (((exRowAt v).positions[0]?).getD 0 + (![2 * (n 0 : ℝ), 9 * (n 1 : ℝ), 9 * (n 2 : ℝ)] : Vec))
      - (1 : ℝ)⁻¹ • (((exRowAt v).positions[0]?).getD 0 + (![2 * ((0 : Op) 0 : ℝ), 9 * ((0 : Op) 1 : ℝ), 9 * ((0 : Op) 2 : ℝ)] : Vec)))
      = ![2 * (n 0 : ℝ), 0, 0] := by
    rw [h1, h2]
    funext x; fin_cases x <;> simp
  rw [e, norm3_x, abs_mul]
  norm_num

theorem exRowAt_fits (J : SkJunk) : Fits (exRowIn J) (exRowAt v) exSElements where
  orbitals := by
    show orbInit exSElements ["C"] = .ok exTable1
    simp [orbInit, exSElements, orbLoop, orbStep, atomOrbs, angmomOf, exTable1, List.mapM_cons, bind,
      Except.bind, pure, Except.pure]
  numbers := by
    intro i hi
    have hi' : i < 1 := hi
    obtain rfl : i = 0 := by omega
    exact ⟨rfl, Or.inl rfl⟩
  valences := rfl
  units := one_pos

theorem exRowAt_ntuples (J : SkJunk) : ((exRowIn J).mat (exRowAt v)).ntuples = [0, along 0 1, along 0 (-1)] := by
  have hne : ∀ z : ℤ, z ≠ 0 → along 0 z ≠ 0 := by
    intro z hz h
    exact hz (by simpa [along] using congrFun h 0)
  have hd : ∀ z : ℤ, |z| = 1 → ∃ i < 1, ∃ j < 1, ∑ c, (imagePos (exRowAt v) 1 0 j c - imagePos (exRowAt v) 1 (along 0 z) i c) ^ 2 ≤ (3 : ℝ) ^ 2 := by
    intro z hz
    refine ⟨0, by omega, 0, by omega, ?_⟩
    have h := exRowAt_dist (v := v) (n := along 0 z) (exRowAt_legal.2 (by simp [along]))
    have e : ∑ c, (imagePos (exRowAt v) 1 0 0 c - imagePos (exRowAt v) 1 (along 0 z) 0 c) ^ 2
        = norm3 (imagePos (exRowAt v) 1 (along 0 z) 0 - imagePos (exRowAt v) 1 0 0) ^ 2 := by
      rw [← sum_sq_norm3]
      exact Finset.sum_congr rfl fun c _ => by simp only [Pi.sub_apply]; ring
    have hz' : |((along 0 z : Op) 0 : ℝ)| = 1 := by
      have : (along 0 z : Op) 0 = z := by simp [along]
      rw [this]; exact_mod_cast hz
    rw [e, h, hz']
    norm_num
  show selectImages 1 (imagePos (exRowAt v) 1) (fun _ _ => 3) exRowScan = _
  unfold selectImages
  congr 1
  refine List.filter_eq_self.2 fun n hn => decide_eq_true ?_
  simp [exRowScan] at hn
  rcases hn with rfl | rfl
  · exact ⟨hne 1 (by norm_num), hd 1 (by norm_num)⟩
  · exact ⟨hne (-1) (by norm_num), hd (-1) (by norm_num)⟩

theorem exRowAt_norm (J : SkJunk) (z : ℤ) (hz : |z| = 1) :
    norm3 (((exRowIn J).mat (exRowAt v)).rij (along 0 z) 0 0) = 2 := by
  have h := exRowAt_dist (v := v) (n := along 0 z) (exRowAt_legal.2 (by simp [along]))
  have hz' : |((along 0 z : Op) 0 : ℝ)| = 1 := by
    have : (along 0 z : Op) 0 = z := by simp [along]
    rw [this]; exact_mod_cast hz
  refine Eq.trans ?_ (h.trans (by rw [hz', mul_one]))
  rfl

theorem exRowAt_bloch (J : SkJunk) (k : Vec) (f : SkTable → ℝ → Fin 14 → ℝ) :
    blochSum ((exRowIn J).mat (exRowAt v)) f k 0 0 0 0
      = (blochPhase k (along 0 1) + blochPhase k (along 0 (-1))) * (f exRowHop 2 9 : ℂ) := by
  have hR : ∀ n, ((exRowIn J).mat (exRowAt v)).rot n = 1 := fun n => rotation_row (A := (exRowAt v)) rfl n
  have ht : ∀ a b, ((exRowIn J).mat (exRowAt v)).tab a b = exRowHop := fun _ _ => rfl
  have hne : ∀ z : ℤ, z ≠ 0 → along 0 z ≠ 0 := by
    intro z hz h
    exact hz (by simpa [along] using congrFun h 0)
  have hel : ∀ z : ℤ, |z| = 1 → imageElem ((exRowIn J).mat (exRowAt v)) f 0 0 (along 0 z) 0 0 = f exRowHop 2 9 := by
    intro z hz
    unfold imageElem
    simp only [exRowAt_norm J z hz, ht, hR, orbRep_one]
    simp [Matrix.one_apply, skSpec, Fin.sum_univ_three, orbL, skCoef, cubic, skIntegralIndex]
  unfold blochSum
  rw [exRowAt_ntuples]
  simp only [List.map_cons, List.map_nil, List.sum_cons, List.sum_nil, add_zero, ht]
  rw [exRowAt_norm J 1 (by norm_num), exRowAt_norm J (-1) (by norm_num), hel 1 (by norm_num), hel (-1) (by norm_num),
    if_neg (by simp), if_pos ⟨by simp [hne], by norm_num [exRowHop], by norm_num [exRowHop]⟩,
    if_pos ⟨by simp [hne], by norm_num [exRowHop], by norm_num [exRowHop]⟩]
  ring

theorem exRowAt_mats (J : SkJunk) (k : Fin 2) :
    ∃ st, getMatrices ((exRowIn J).mat (exRowAt v)) ((exRowIn J).kpt k) = .ok st ∧
      st.H0 0 0 0 0 = (exRowE k : ℂ) ∧ st.S 0 0 0 0 = 1 := by
  have hid : IdFirst ((exRowIn J).mat (exRowAt v)) := by
    obtain ⟨r, h1, h2⟩ := selectImages_idFirst (exRowAt v).atoms.length (imagePos (exRowAt v) 1) (fun _ _ => 3) exRowScan
    exact ⟨r, h1, h2⟩
  have hfol := follow_row (A := (exRowAt v)) rfl (exRowIn J)
  obtain ⟨st, hst⟩ := (c29_too_close (I := (exRowIn J).mat (exRowAt v)) ((exRowIn J).kpt k) hid
    (fun _ _ => Or.inl rfl) hfol).1 (by
      intro i j hij hj n hn hself
      have hj' : j < 1 := hj
      obtain rfl : j = 0 := by omega
      obtain rfl : i = 0 := by omega
      rw [exRowAt_ntuples] at hn
      simp at hn
      rcases hn with rfl | rfl | rfl
      · exact absurd ⟨rfl, rfl⟩ hself
      · rw [exRowAt_norm J 1 (by norm_num)]; norm_num
      · rw [exRowAt_norm J (-1) (by norm_num)]; norm_num)
  have hp : ((0 : Fin 9) : ℕ) < ((exRowIn J).mat (exRowAt v)).no 0 := by
    show 0 < 1
    norm_num
  have h := c29_elements hst hid hfol (le_refl 0) (show 0 < 1 by norm_num) hp hp
  have heps : ∀ i q, ((exRowIn J).mat (exRowAt v)).eps i q = 0 := fun _ _ => rfl
  have hseps : ((exRowIn J).mat (exRowAt v)).seps = 0 := rfl
  rw [exRowAt_bloch, exRowAt_bloch, exRow_phase, heps, hseps] at h
  refine ⟨st, hst, ?_, ?_⟩
  · rw [h.1]; simp [exRowHop]
  · rw [h.2]; simp [exRowHop]

theorem exRowAt_converged (J : SkJunk) : ∃ r : ScfRun (exRowIn J), Converged (exRowIn J) (exRowAt v) r ∧ r.mu = 0 ∧
    (∀ k : Fin 2, ∀ b : Fin 1, r.e k b = exRowE k) ∧ ∃ E, r.energy (exRowAt v) = .ok E := by
  choose st hst hH hS using exRowAt_mats (v := v) J
  have hclu : (some (3 : ℝ)).isSome ∨ (exRowAt v).isCluster = true := Or.inl rfl
  obtain ⟨s, hs⟩ := esState_exists (exRowIn J).cd (exRowIn J).bohr (exRowIn J).U (exRowIn J).w (some 3) (exRowAt v)
    [0] hclu
  obtain ⟨-, -, hf, -⟩ := esState_eq _ _ _ _ _ _ _ _ _ _ hs
  obtain ⟨-, hse⟩ := fresh_eq _ _ _ _ hf
  obtain ⟨phi, hphi⟩ : ∃ phi, dcPotential s = .ok phi := by rw [hse]; exact ⟨_, rfl⟩
  obtain ⟨fld, hfld⟩ : ∃ fld, dcGetField s = .ok fld := by rw [hse]; exact ⟨_, rfl⟩
  set r : ScfRun (exRowIn J) := ⟨st, fun k _ => exRowE k, fun _ => (1 : CMat 1), 0, [0], _, _, s, phi, fld⟩ with hr
  have hchg : ∀ i, chg [0] i = 0 := by
    intro i
    match i with
    | 0 => rfl
    | n + 1 => rfl
  have heps : r.epsilon 1 0 = 0 := by
    have := epsilon_gam hs hphi (i := 0) (show 0 < 1 by norm_num)
    unfold ScfRun.epsilon
    rw [show r.dq = [0] from rfl, show r.phi = phi from rfl]
    refine Eq.trans this ?_
    simp [hchg]
  have fin1 : ∀ x : Fin 1, x = 0 := by decide
  have hH0 : ∀ k, r.H0 k = (fun _ _ => (exRowE k : ℂ) : CMat 1) := by
    intro k
    funext x y
    show (st k).H0 (exTable1.atomAt x) (exTable1.atomAt y) (exTable1.numAt x) (exTable1.numAt y) = _
    rw [fin1 x, fin1 y]
    exact hH k
  have hSk : ∀ k, r.S k = (1 : CMat 1) := by
    intro k
    funext x y
    show (st k).S (exTable1.atomAt x) (exTable1.atomAt y) (exTable1.numAt x) (exTable1.numAt y) = _
    rw [fin1 x, fin1 y]
    exact hS k
  have hh1 : ∀ x y : Fin 1, constructH1 (exRowIn J).t 1 (r.epsilon 1) (fun _ => 0) x y = 0 := by
    intro x y
    unfold constructH1
    dsimp only
    rw [if_neg (by simp; norm_num)]
    have haux : ∀ x : Fin 1, auxFill (r.epsilon 1) (exRowIn J).t.blocks 0 (fun _ => 0) x = 0 := by
      intro x
      have hb : (exRowIn J).t.blocks = [(0, 1)] := rfl
      rw [hb, fin1 x]
      simp [auxFill, heps]
    rw [haux, haux]
    norm_num
  have hham : ∀ k, scfHamiltonian (r.h1 1) (r.H0 k) (r.S k) = (fun _ _ => (exRowE k : ℂ) : CMat 1) := by
    intro k
    have e1 : r.h1 1 = some fun (x y : Fin 1) => constructH1 (exRowIn J).t 1 (r.epsilon 1) (fun _ => 0) x y := rfl
    rw [e1, hH0]
    unfold scfHamiltonian
    ext x y
    have h := hh1 x y
    have e : ∀ z w c : ℂ, c = 0 → z + c * w = z := by intro z w c hc; rw [hc]; simp
    exact e _ _ _ (by rw [Complex.ofReal_eq_zero]; exact h)
  have htwo : fermi 1 0 2 + fermi 1 0 (-2) = 2 := by
    have := exDimer_two (d := 2) (by norm_num)
    linarith
  refine ⟨r, ?_, rfl, fun _ _ => rfl, ?_⟩
  · refine ⟨hst, ?_, ?_, ?_, fun _ => ⟨hs, hphi, hfld⟩⟩
    · intro k
      have h1 : (exRowAt v).positions.length = 1 := rfl
      rw [h1, hham, hSk]
      have : AreStates (fun _ _ => (exRowE k : ℂ) : CMat 1) (1 : CMat 1) (fun _ => exRowE k) (1 : CMat 1) := by
        refine ⟨fun a b _ => le_refl _, ?_, ?_⟩
        · intro a b; rw [fin1 a, fin1 b]; simp
        · intro a i; rw [fin1 a, fin1 i]; simp
      exact this
    · have : ∑ k : Fin 2, (1 / 2 : ℝ) * ∑ a : Fin 1, fermi 1 0 (exRowE k) = 1 := by
        simp [Fin.sum_univ_two, exRowE]
        linarith
      exact this
    · intro _
      have hm : ∀ x : Fin 1, mullikenDiag (exRowIn J).wk r.rho r.S x = 1 := by
        intro x
        have : ∑ k : Fin 2, (1 / 2 : ℝ) * (rowDot (computeRho (1 : CMat 1) fun _ => fermi 1 0 (exRowE k)) (1 : CMat 1) 0).re = 1 := by
          simp only [exRow_rho]
          simp [Fin.sum_univ_two, exRowE]
          linarith
        refine Eq.trans ?_ this
        unfold mullikenDiag
        refine Finset.sum_congr rfl fun k _ => ?_
        rw [hSk, fin1 x]
        rfl
      have hq : (exRowIn J).t.blocks.map (sliceSum (mullikenDiag (exRowIn J).wk r.rho r.S)) = [1] := by
        have hb : (exRowIn J).t.blocks = [(0, 1)] := rfl
        have hv : mullikenDiag (exRowIn J).wk r.rho r.S = (fun _ : Fin 1 => (1 : ℝ)) := funext hm
        rw [hb, hv]
        show [sliceSum (fun _ : Fin 1 => (1 : ℝ)) (0, 1)] = _
        simp [sliceSum, List.ofFn_succ]
      unfold mulliken
      rw [hq]
      norm_num [exRowIn]
      rfl
  · have hb : ∃ E, bandEnergy (exRowIn J).wk r.rho r.H0 (exRowIn J).tolIm = .ok E := by
      have e : (∑ k, ((exRowIn J).wk k : ℂ) * ∑ i, rowDot (r.rho k) (r.H0 k) i)
          = ((∑ k : Fin 2, (1 / 2 : ℝ) * (fermi 1 0 (exRowE k) * exRowE k) : ℝ) : ℂ) := by
        rw [Complex.ofReal_sum]
        refine Finset.sum_congr rfl fun k _ => ?_
        have e3 : ∀ k : Fin 2, ∑ i : Fin 1, rowDot (computeRho (1 : CMat 1) fun _ => fermi 1 0 (exRowE k)) (fun _ _ => (exRowE k : ℂ) : CMat 1) i
            = ((fermi 1 0 (exRowE k) * exRowE k : ℝ) : ℂ) := by
          intro k
          rw [Fin.sum_univ_one]
          exact (exRow_rho _ _).trans (Complex.ofReal_mul _ _).symm
        rw [hH0, Complex.ofReal_mul, ← e3 k]
        rfl
      unfold bandEnergy
      dsimp only
      rw [e, if_pos (by rw [Complex.ofReal_im]; exact one_pos)]
      exact ⟨_, rfl⟩
    obtain ⟨eb, hb⟩ := hb
    obtain ⟨e, he⟩ := c31_succeeds (G := (exRowIn J).geom (exRowAt v)) (V := (exRowIn J).V)
      (rmax := (exRowIn J).rmax) (hartree := (exRowIn J).hartree)
      (inverse_ofAtoms (P := exRowIn J) (A := (exRowAt v)) trivial (exRow_scan rfl) fun _ _ => rfl).idFirst (by
        intro i j hij hj n hn hc
        have hj' : j < 1 := hj
        obtain rfl : j = 0 := by omega
        obtain rfl : i = 0 := by omega
        have hn' : n ∈ ((exRowIn J).mat (exRowAt v)).ntuples := hn
        rw [exRowAt_ntuples] at hn'
        simp at hn'
        have h1 := hc.2.2
        have h2 : ∀ z : ℤ, |z| = 1 → norm3 (((exRowIn J).geom (exRowAt v)).rij (along 0 z) 0 0) = 2 := exRowAt_norm J
        rcases hn' with rfl | rfl | rfl
        · exact hc.1 ⟨rfl, rfl⟩
        · rw [h2 1 (by norm_num)] at h1; norm_num at h1
        · rw [h2 (-1) (by norm_num)] at h1; norm_num at h1)
    unfold ScfRun.energy
    rw [hb, he]
    exact ⟨_, rfl⟩

/-- Two parallel chains at the distance 20. -/
noncomputable def exRows : Atoms := { exRow with atoms := [("C", 0), ("C", ![0, 20, 0])] }

/-- The calculation for both. -/
noncomputable def exRowsIn (J : SkJunk) : ScfIn :=
  { exRowIn J with
    t := exTables
    nel := 2
    val := [1, 1] }

/-- The place of each chain. -/
noncomputable def exRowsPlace (c : Fin 2) : Vec := ![0, 20 * ((c : ℕ) : ℝ), 0]

theorem exRows_transform (r : Vec) (n : Op) :
    exRows.rawTransform r n = r + (![2 * (n 0 : ℝ), 9 * (n 1 : ℝ), 9 * (n 2 : ℝ)] : Vec) := by
  unfold Atoms.rawTransform exRows exRow
  funext x
  fin_cases x <;> simp <;> ring

theorem exRows_legal {n : Op} : Legal exRows n ↔ n 1 = 0 ∧ n 2 = 0 := by
  rw [← exRow_legal]; exact Iff.rfl

theorem exRows_fragments : Fragments (fun c => exRowAt (exRowsPlace c)) exRows fun c _ => (c : ℕ) where
  comm := trivial
  none := exRows_legal.2 (by simp)
  container _ := rfl
  parts := by
    refine ⟨?_, ?_, ?_⟩
    · show 2 = ∑ c : Fin 2, 1
      simp
    · intro c i hi
      exact c.2
    · intro c i hi d j hj h
      have hi' : i < 1 := hi
      have hj' : j < 1 := hj
      exact ⟨Fin.ext h, by omega⟩
  atom c i hi := by
    have hi' : i < 1 := hi
    obtain rfl : i = 0 := by omega
    show ([("C", (0 : Vec)), ("C", ![0, 20, 0])] : List (String × Vec))[(c : ℕ)]? = [("C", exRowsPlace c)][0]?
    rcases fin2_cases c with rfl | rfl
    · simp [exRowsPlace]
      funext x; fin_cases x <;> rfl
    · simp [exRowsPlace]

theorem exRows_pos (c : Fin 2) : (exRows.positions[(c : ℕ)]?).getD 0 = exRowsPlace c := by
  rcases fin2_cases c with rfl | rfl
  · show (0 : Vec) = _
    simp [exRowsPlace]
    funext x; fin_cases x <;> rfl
  · show (![0, 20, 0] : Vec) = _
    simp [exRowsPlace]

theorem exRows_dist {c d : Fin 2} (hcd : c ≠ d) {n : Op} (hn : Legal exRows n) :
    20 ≤ imageDist exRows 1 c d n := by
  obtain ⟨h1, h2⟩ := exRows_legal.1 hn
  unfold imageDist imagePos
  rw [exRows_transform, exRows_transform, exRows_pos, exRows_pos]
  set u : Vec := (1 : ℝ)⁻¹ • (exRowsPlace d + ![2 * (n 0 : ℝ), 9 * (n 1 : ℝ), 9 * (n 2 : ℝ)])
    - (1 : ℝ)⁻¹ • (exRowsPlace c + ![2 * ((0 : Op) 0 : ℝ), 9 * ((0 : Op) 1 : ℝ), 9 * ((0 : Op) 2 : ℝ)]) with hu
  have e1 : u 1 ^ 2 = 20 ^ 2 := by
    rw [hu]
    rcases fin2_cases c with rfl | rfl <;> rcases fin2_cases d with rfl | rfl
    · exact absurd rfl hcd
    · simp [exRowsPlace, h1]
    · simp [exRowsPlace, h1]
    · exact absurd rfl hcd
  have e2 : (20 : ℝ) ^ 2 ≤ norm3 u ^ 2 := by
    rw [← sum_sq_norm3, Fin.sum_univ_three, e1]
    nlinarith [sq_nonneg (u 0), sq_nonneg (u 2)]
  exact (sq_le_sq₀ (by norm_num) (norm3_nonneg _)).1 e2

theorem exRows_apart (J : SkJunk) : BeyondReach (exRowsIn J) (fun c => (exRowAt (exRowsPlace c)).positions.length)
    exRows fun c _ => (c : ℕ) := by
  intro c d hcd i _ j _ n hn
  have h := exRows_dist hcd hn
  have hb : (exRowsIn J).bohr = 1 := rfl
  have ht : ∀ a b, ((exRowsIn J).tab a b).r2 = 3 := fun _ _ => rfl
  have hr : (exRowsIn J).rmax = 3 := rfl
  rw [hb, ht, hr]
  refine ⟨by linarith, by linarith, by linarith, fun _ => ⟨3, rfl, by linarith⟩⟩

theorem exRows_scan : InverseScan exRows 0 exRowScan where
  nodup := (exRow_scan (A := exRows) rfl).nodup
  legal := (exRow_scan (A := exRows) rfl).legal
  inverse := fun n hn => by rw [undo_zero]; exact (exRow_scan (A := exRows) rfl).neg n hn
  half := Or.inr rfl

theorem exRows_calc (J : SkJunk) : ApartCalc (fun _ : Fin 2 => exRowIn J) (exRowsIn J)
    (fun c => exRowAt (exRowsPlace c)) exRows (fun c _ => (c : ℕ)) 0 (fun _ => Equiv.refl (Fin 2)) where
  fragments := exRows_fragments
  apart := exRows_apart J
  nothing := trivialOp_zero (A := exRows) trivial _
  phases _ := blochPhase_zero _
  start := by rw [undo_zero, neg_zero]
  scans _ := exRows_scan
  scan := exRows_scan
  cutSymm := ⟨fun _ _ _ => rfl, fun _ _ => rfl⟩
  atoms c i hi := by
    have hi' : i < 1 := hi
    obtain rfl : i = 0 := by omega
    refine ⟨rfl, rfl, rfl, rfl, ?_⟩
    rcases fin2_cases c with rfl | rfl <;> rfl
  cuts _ _ _ _ _ := rfl
  reach _ _ _ _ _ := ⟨le_refl (3 : ℝ), le_refl (3 : ℝ), show (0.1 : ℝ) ≤ 3 by norm_num⟩
  images _ _ _ _ _ _ _ _ := Iff.rfl
  follows _ := follow_row rfl _
  follow := follow_row rfl _
  tables := exRow_pairTables
  kpoints _ _ := ⟨rfl, rfl⟩
  symV _ _ := rfl
  same _ := ⟨rfl, rfl, rfl, rfl, rfl, rfl, rfl, rfl, rfl, rfl⟩
  count := by
    refine ⟨fun _ => ?_, ?_, ?_, ?_⟩
    · show (1 : ℝ) = [1].sum - 0
      simp
    · show (2 : ℝ) = ∑ c : Fin 2, (1 : ℝ)
      simp
    · show (0 : ℝ) = ∑ c : Fin 2, (0 : ℝ)
      simp
    · show (0 : ℝ) = ∑ c : Fin 2, (0 : ℝ)
      simp
  tols := ⟨zero_le_one, one_pos⟩
  coulomb _ := Or.inl rfl

theorem exRows_fits (J : SkJunk) : Fits (exRowsIn J) exRows exSElements where
  orbitals := exTables_init
  numbers := by
    intro i hi
    have hi' : i < 2 := hi
    refine ⟨?_, Or.inl rfl⟩
    have : i = 0 ∨ i = 1 := by omega
    rcases this with rfl | rfl <;> rfl
  valences := rfl
  units := one_pos

/-- Hypotheses of `c137_apart` and `c137_forces`: two parallel chains, each with one atom per cell and two
k-points. Each has a self-consistent solution with the chemical potential `0`; the solution for both has the
sum of the energies, and the forces are those in each chain. -/
example (J : SkJunk) : ∃ (r : Fin 2 → ScfRun (exRowIn J)) (r' : ScfRun (exRowsIn J)) (E : Fin 2 → ℝ),
    (∀ c, Converged (exRowIn J) (exRowAt (exRowsPlace c)) (r c)) ∧ Converged (exRowsIn J) exRows r' ∧
    (∀ c, (r c).energy (exRowAt (exRowsPlace c)) = .ok (E c)) ∧ r'.energy exRows = .ok (E 0 + E 1) ∧
    ∀ c : Fin 2, r'.force exRows c = (r c).force (exRowAt (exRowsPlace c)) 0 := by
  choose r hr hmu _ hE using fun c => exRowAt_converged (v := exRowsPlace c) J
  choose E hE using hE
  obtain ⟨r', g1, g2, g3⟩ := c137_forces (exRows_calc J) exRow_derivatives (fun _ => exRowAt_fits J)
    (exRows_fits J) hr hmu
  refine ⟨r, r', E, hr, g1, hE, ?_, fun c => g3 c 0 (show 0 < 1 by norm_num)⟩
  rw [g2 E (show 0 < 2 by norm_num) hE, Fin.sum_univ_two]

end Hotbit
