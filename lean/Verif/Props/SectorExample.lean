import Verif.Props.Sector
import Verif.Props.SupercellExample

/-!
# Example for C134: two atoms as one atom in a wedge

A molecule of two atoms opposite to each other, one s orbital each, is calculated with one atom in a
half-turn wedge with the angular momenta `0` and `π`, and as a whole.
-/

set_option linter.unusedSimpArgs false

namespace Hotbit

open Matrix

/-- One atom in a wedge of half a turn. -/
noncomputable def exOpp : Atoms where
  ctype := .wedge
  atoms := [("C", ![1, 0, 0])]
  cell := !![0, 0, 0; 0, 0, 0; 2 * Real.pi / (2 : ℕ), 0, 0]
  pbc := ![true, false, false]

/-- The calculation with one atom. -/
noncomputable def exOppIn (J : SkJunk) : ScfIn :=
  { exRowIn J with scan := [along 0 1], gcut := none }

/-- The calculation with both atoms. -/
noncomputable def exOppIn2 (J : SkJunk) : ScfIn :=
  { exRowIn2 J with scan := [], gcut := none }

/-- Both atoms. -/
noncomputable def exOpp2 : Atoms := allSectors exOpp [("C", ![1, 0, 0]), ("C", ![-1, 0, 0])]

theorem exOpp_rotation (n : Op) : exOpp.rawRotation n = rotZ (n 0 * Real.pi) := by
  show rotZ (n 0 * (2 * Real.pi / (2 : ℕ))) = _
  congr 2
  push_cast
  ring

theorem exOpp_turn : exOpp.rawRotation (along 0 1) = !![-1, 0, 0; 0, -1, 0; 0, 0, 1] := by
  have e : ((along 0 1 : Op) 0 : ℝ) = 1 := by simp [along]
  rw [exOpp_rotation, e, one_mul]
  ext i j
  fin_cases i <;> fin_cases j <;> simp [rotZ]

theorem exOpp_transform (r : Vec) (n : Op) : exOpp.rawTransform r n = exOpp.rawRotation n *ᵥ r := by
  show exOpp.rawRotation n *ᵥ r + (if exOpp.wedgePbcz then _ else 0) = _
  rw [if_neg (by simp [Atoms.wedgePbcz, exOpp]), add_zero]

theorem exOpp_ranges : exOpp.ranges = ![(.fin 0, .fin 1), rangeZero, rangeZero] := by
  have hw : wedgeM exOpp.wedgeAngle = 2 := by
    have hpi := Real.pi_pos
    show wedgeM (2 * Real.pi / (2 : ℕ)) = 2
    unfold wedgeM
    rw [show 2 * Real.pi / (2 * Real.pi / ((2 : ℕ) : ℝ)) = ((2 : ℤ) : ℝ) by push_cast; field_simp, pyRound_intCast]
  show ![rangeOf (angularRange (wedgeM exOpp.wedgeAngle)), rangeZero, if exOpp.wedgePbcz then rangeInf else rangeZero] = _
  rw [hw, if_neg (by simp [Atoms.wedgePbcz, exOpp])]
  simp [angularRange, rangeOf]

theorem exOpp_legal {n : Op} : Legal exOpp n ↔ n = 0 ∨ n = along 0 1 := by
  unfold Legal
  rw [exOpp_ranges]
  constructor
  · intro h
    have h0 := h 0; have h1 := h 1; have h2 := h 2
    simp [rangeZero, Bound.toEReal] at h0 h1 h2
    have a1 := h0.1; have a2 := h0.2; have b1 := h1.1; have b2 := h1.2; have c1 := h2.1; have c2 := h2.2
    norm_cast at a1 a2 b1 b2 c1 c2
    have : n 0 = 0 ∨ n 0 = 1 := by omega
    have e1 : n 1 = 0 := by omega
    have e2 : n 2 = 0 := by omega
    rcases this with h | h
    · left; funext x; fin_cases x <;> simp [h, e1, e2]
    · right; funext x; fin_cases x <;> simp [h, e1, e2, along]
  · rintro (rfl | rfl) i <;> fin_cases i <;> simp [rangeZero, Bound.toEReal, along]

theorem exOpp_cell : AllSectors exOpp exOpp2 2 := by
  refine c134_cell exOpp 2 (by norm_num) (Or.inl rfl) (Or.inl rfl) _ ?_
  have f0 : firstSector 2 = 0 := rfl
  have e0 : along 0 (firstSector 2 + ((0 : ℕ) : ℤ)) = 0 := by rw [f0]; simp [along]
  have e1 : along 0 (firstSector 2 + ((1 : ℕ) : ℤ)) = along 0 1 := by rw [f0]; simp [along]
  have hne : ((List.range 2).map fun u : ℕ => along 0 (firstSector 2 + (u : ℤ))) ≠ [] := by simp
  obtain ⟨out, h1, h2, h3⟩ := (c06_list exOpp _ hne).1 (by
    intro n hn
    obtain ⟨u, hu, rfl⟩ := List.mem_map.1 hn
    have hu' : u < 2 := List.mem_range.1 hu
    rw [exOpp_legal]
    interval_cases u
    · left; exact e0
    · right; exact e1)
  rw [h1]
  have l2 : out.length = 2 := by simpa [exOpp] using h2
  obtain ⟨x, a1, a2⟩ := h3 0 0 0 "C" ![1, 0, 0] (by simpa using e0) rfl
  obtain ⟨y, b1, b2⟩ := h3 1 (along 0 1) 0 "C" ![1, 0, 0] (by simpa using e1) rfl
  rw [(c05_transform_guard exOpp _ _).1 (exOpp_legal.2 (Or.inl rfl)), exOpp_transform] at a1
  rw [(c05_transform_guard exOpp _ _).1 (exOpp_legal.2 (Or.inr rfl)), exOpp_transform, exOpp_turn] at b1
  rw [exOpp_rotation] at a1
  cases a1
  cases b1
  have len : exOpp.atoms.length = 1 := rfl
  match out, l2 with
  | [p, q], _ =>
    simp [len, rotZ_zero] at a2 b2
    rw [a2, b2]
    have e2 : Matrix.vecHead ∘ ![![(-1 : ℝ), 0, 0], ![0, -1, 0], ![0, 0, 1]] = ![-1, 0, 0] := by
      funext x; fin_cases x <;> simp [Matrix.vecHead]
    rw [e2]

theorem exOpp2_cluster : exOpp2.isCluster = true := by
  unfold Atoms.isCluster
  simp only [List.all_cons, List.all_nil, Bool.and_true, Bool.and_eq_true]
  rw [exOpp_cell.none, exOpp_cell.ranges.1, exOpp_cell.ranges.2, exOpp_ranges]
  simp [rangeZero]

theorem exOpp2_legal {n : Op} (h : Legal exOpp2 n) : n = 0 := by
  have h0 := exOpp_cell.legalB h
  have h1 := h 1
  have h2 := h 2
  rw [exOpp_cell.ranges.1, exOpp_ranges] at h1
  rw [exOpp_cell.ranges.2, exOpp_ranges] at h2
  simp [rangeZero, Bound.toEReal] at h1 h2
  have b1 := h1.1; have b2 := h1.2; have c1 := h2.1; have c2 := h2.2
  norm_cast at b1 b2 c1 c2
  funext x
  fin_cases x
  · exact h0
  · exact le_antisymm b2 b1
  · exact le_antisymm c2 c1

theorem exOpp_scan : SectorScan exOpp 2 [along 0 1] := by
  refine ⟨by simp, fun n hn => ?_, fun n hn => ?_⟩
  · rw [exOpp_legal]; right; simpa using hn
  · obtain rfl : n = along 0 1 := by simpa using hn
    unfold undoOp
    rw [if_pos (by simp [along])]
    have : along 0 ((2 : ℕ) : ℤ) - along 0 1 = along 0 1 := by
      unfold along
      rw [← Pi.single_sub]
      norm_num
    rw [this]
    exact List.mem_singleton.2 rfl

theorem exOpp_images : HasAllImages exOpp 1 [along 0 1] (fun _ _ => 3) := by
  intro n hn h0 i hi j hj h
  rcases exOpp_legal.1 hn with rfl | rfl
  · exact absurd rfl h0
  · exact List.mem_singleton.2 rfl

theorem exOpp2_images : HasAllImages exOpp2 1 [] (fun _ _ => 3) :=
  fun _ hn h0 _ _ _ _ _ => absurd (exOpp2_legal hn) h0

theorem exOpp_follow (J : SkJunk) : OrbitalsFollow ((exOppIn J).mat exOpp) := by
  refine orbitalsFollow_ofAtoms exOpp trivial _ _ _ _ _ _ _ _ fun n hn => ⟨fun h => ?_, fun h => by cases h⟩
  have hn' : n = 0 ∨ n = along 0 1 := by
    have : n ∈ [0, along 0 1] := hn
    simpa using this
  rcases hn' with rfl | rfl
  · rw [exOpp_rotation]; simp [rotZ_zero]
  · have := h 0
    rw [exOpp_turn] at this
    norm_num at this

theorem exOpp_calc (J : SkJunk) : SectorCalc (exOppIn J) (exOppIn2 J) exOpp exOpp2 2 (exRowK J) where
  cell := exOpp_cell
  scanA := exOpp_scan
  scanB := ⟨List.nodup_nil, fun _ hn => absurd hn List.not_mem_nil, fun _ hn => absurd hn List.not_mem_nil⟩
  cutSymm := ⟨fun _ _ => rfl, fun _ _ => rfl⟩
  atoms := by
    intro u hu i hi
    have hi' : i < 1 := hi
    obtain rfl : i = 0 := by omega
    refine ⟨rfl, rfl, rfl, rfl, ?_⟩
    interval_cases u <;> rfl
  cuts _ _ _ _ _ _ _ _ := rfl
  reach _ _ _ _ := ⟨le_refl (3 : ℝ), le_refl (3 : ℝ), show (0.1 : ℝ) ≤ 3 by norm_num⟩
  imagesA := exOpp_images
  imagesB := exOpp2_images
  shell i _ := by
    unfold ShellDiag
    simp [exOppIn, exRowIn]
  followA := exOpp_follow J
  followB := follow_row rfl _
  tables := exRow_pairTables
  kpoints k c := by
    show Function.update (0 : Vec) 0 ((0 + 2 * Real.pi * ((c : Fin 2) : ℕ)) / (2 : ℕ)) = Function.update (0 : Vec) 0 _
    rw [zero_add]
  weight k c := by
    show (1 : ℝ) = (2 : ℕ) * (1 / 2)
    norm_num
  coulomb _ := Or.inl ⟨rfl, exOpp2_cluster⟩
  symV _ _ := rfl
  same := ⟨rfl, rfl, rfl, rfl, rfl, rfl, rfl, rfl, rfl, rfl⟩
  count := by
    refine ⟨?_, ?_, ?_, ?_⟩
    · show (1 : ℝ) = [1].sum - 0
      simp
    · show (2 : ℝ) = (2 : ℕ) * 1
      norm_num
    · show (0 : ℝ) = (2 : ℕ) * 0
      norm_num
    · show (0 : ℝ) = (2 : ℕ) * 0
      norm_num
  tols := ⟨zero_le_one, one_pos⟩

theorem exOpp_fits (J : SkJunk) : Fits (exOppIn J) exOpp exSElements where
  orbitals := by
    show orbInit exSElements ["C"] = .ok exTable1
    simp [orbInit, exSElements, orbLoop, orbStep, atomOrbs, angmomOf, exTable1, List.mapM_cons, bind,
      Except.bind, pure, Except.pure]
  numbers := by
    intro i hi
    have hi' : i < 1 := hi
    obtain rfl : i = 0 := by omega
    exact ⟨rfl, Or.inl rfl⟩
  valences := rfl
  units := one_pos

theorem exOpp2_fits (J : SkJunk) : Fits (exOppIn2 J) exOpp2 exSElements where
  orbitals := exTables_init
  numbers := by
    intro i hi
    have hi' : i < 2 := hi
    refine ⟨?_, Or.inl rfl⟩
    have : i = 0 ∨ i = 1 := by omega
    rcases this with rfl | rfl <;> rfl
  valences := rfl
  units := one_pos

theorem exOpp_dist : norm3 (imagePos exOpp 1 (along 0 1) 0 - imagePos exOpp 1 0 0) = 2 := by
  unfold imagePos
  rw [exOpp_transform, exOpp_transform, exOpp_turn, exOpp_rotation]
  have p : (exOpp.positions[0]?).getD 0 = (![1, 0, 0] : Vec) := rfl
  have e : ((1 : ℝ)⁻¹ • ((!![-1, 0, 0; 0, -1, 0; 0, 0, 1] : Mat) *ᵥ (![1, 0, 0] : Vec))
      - (1 : ℝ)⁻¹ • (rotZ (((0 : Op) 0 : ℝ) * Real.pi) *ᵥ (![1, 0, 0] : Vec))) = (![-2, 0, 0] : Vec) := by
    funext x
    fin_cases x <;> simp [rotZ_zero]
    norm_num
  rw [p, e, norm3_x]
  norm_num

theorem exOpp_ntuples (J : SkJunk) : ((exOppIn J).mat exOpp).ntuples = [0, along 0 1] := by
  have hne : along 0 1 ≠ 0 := by
    intro h
    simpa [along] using congrFun h 0
  show selectImages 1 (imagePos exOpp 1) (fun _ _ => 3) [along 0 1] = _
  unfold selectImages
  congr 1
  refine List.filter_eq_self.2 fun n hn => decide_eq_true ?_
  obtain rfl : n = along 0 1 := by simpa using hn
  refine ⟨hne, 0, by omega, 0, by omega, ?_⟩
  have e : ∑ c, (imagePos exOpp 1 0 0 c - imagePos exOpp 1 (along 0 1) 0 c) ^ 2
      = norm3 (imagePos exOpp 1 (along 0 1) 0 - imagePos exOpp 1 0 0) ^ 2 := by
    rw [← sum_sq_norm3]
    exact Finset.sum_congr rfl fun c _ => by simp only [Pi.sub_apply]; ring
  rw [e, exOpp_dist]
  norm_num

theorem exOpp_norm (J : SkJunk) : norm3 (((exOppIn J).mat exOpp).rij (along 0 1) 0 0) = 2 := exOpp_dist

theorem exOpp_bloch (J : SkJunk) (k : Vec) (f : SkTable → ℝ → Fin 14 → ℝ) :
    blochSum ((exOppIn J).mat exOpp) f k 0 0 0 0 = blochPhase k (along 0 1) * (f exRowHop 2 9 : ℂ) := by
  have ht : ∀ a b, ((exOppIn J).mat exOpp).tab a b = exRowHop := fun _ _ => rfl
  have hne : along 0 1 ≠ 0 := by
    intro h
    simpa [along] using congrFun h 0
  have hel : imageElem ((exOppIn J).mat exOpp) f 0 0 (along 0 1) 0 0 = f exRowHop 2 9 := by
    unfold imageElem
    simp only [exOpp_norm J, ht]
    simp [orbRep, Fin.sum_univ_succ, skSpec, orbL, skCoef, cubic, skIntegralIndex]
  unfold blochSum
  rw [exOpp_ntuples]
  simp only [List.map_cons, List.map_nil, List.sum_cons, List.sum_nil, add_zero, ht]
  rw [exOpp_norm J, hel, if_neg (by simp), if_pos ⟨by simp [hne], by norm_num [exRowHop], by norm_num [exRowHop]⟩]
  ring

/-- The energy of the state with each of the two angular momenta. -/
def exOppE (k : Fin 2) : ℝ := if k = 0 then 1 else -1

theorem exOpp_phase (J : SkJunk) (k : Fin 2) : blochPhase ((exOppIn J).kpt k) (along 0 1) = (exOppE k : ℂ) := by
  have e : (exOppIn J).kpt k = Function.update (0 : Vec) 0 ((0 + 2 * Real.pi * ((k : Fin 2) : ℕ)) / (2 : ℕ)) := rfl
  rw [e, blochPhase_along, Function.update_self]
  rcases fin2_cases k with rfl | rfl
  · simp [exOppE]
  · have h1 : Complex.exp (Complex.I * ((((1 : ℤ) : ℝ) * ((0 + 2 * Real.pi * ((1 : Fin 2) : ℕ)) / (2 : ℕ)) : ℝ) : ℂ)) = -1 := by
      rw [← Complex.exp_pi_mul_I]; congr 1; push_cast; simp; ring
    rw [h1]
    simp [exOppE]

theorem exOpp_mats (J : SkJunk) (k : Fin 2) :
    ∃ st, getMatrices ((exOppIn J).mat exOpp) ((exOppIn J).kpt k) = .ok st ∧
      st.H0 0 0 0 0 = (exOppE k : ℂ) ∧ st.S 0 0 0 0 = 1 := by
  have hid : IdFirst ((exOppIn J).mat exOpp) := by
    obtain ⟨r, h1, h2⟩ := selectImages_idFirst exOpp.atoms.length (imagePos exOpp 1) (fun _ _ => 3) [along 0 1]
    exact ⟨r, h1, h2⟩
  have hfol := exOpp_follow J
  obtain ⟨st, hst⟩ := (c29_too_close (I := (exOppIn J).mat exOpp) ((exOppIn J).kpt k) hid
    (fun _ _ => Or.inl rfl) hfol).1 (by
      intro i j hij hj n hn hself
      have hj' : j < 1 := hj
      obtain rfl : j = 0 := by omega
      obtain rfl : i = 0 := by omega
      rw [exOpp_ntuples] at hn
      simp at hn
      rcases hn with rfl | rfl
      · exact absurd ⟨rfl, rfl⟩ hself
      · rw [exOpp_norm J]; norm_num)
  have hp : ((0 : Fin 9) : ℕ) < ((exOppIn J).mat exOpp).no 0 := by
    show 0 < 1
    norm_num
  have h := c29_elements hst hid hfol (le_refl 0) (show 0 < 1 by norm_num) hp hp
  have heps : ∀ i q, ((exOppIn J).mat exOpp).eps i q = 0 := fun _ _ => rfl
  have hseps : ((exOppIn J).mat exOpp).seps = 0 := rfl
  rw [exOpp_bloch, exOpp_bloch, exOpp_phase, heps, hseps] at h
  refine ⟨st, hst, ?_, ?_⟩
  · rw [h.1]; simp [exRowHop]
  · rw [h.2]; simp [exRowHop]

theorem exOpp_converged (J : SkJunk) : ∃ r : ScfRun (exOppIn J), Converged (exOppIn J) exOpp r ∧ r.mu = 0 ∧
    (∀ k : Fin 2, ∀ b : Fin 1, r.e k b = exOppE k) ∧ ∃ E, r.energy exOpp = .ok E := by
  choose st hst hH hS using exOpp_mats J
  have hclu : (none : Option ℝ).isSome ∨ exOpp.isCluster = true := Or.inr (exOpp_cell.cluster exOpp2_cluster)
  obtain ⟨s, hs⟩ := esState_exists (exOppIn J).cd (exOppIn J).bohr (exOppIn J).U (exOppIn J).w none exOpp
    [0] hclu
  obtain ⟨-, -, hf, -⟩ := esState_eq _ _ _ _ _ _ _ _ _ _ hs
  obtain ⟨-, hse⟩ := fresh_eq _ _ _ _ hf
  obtain ⟨phi, hphi⟩ : ∃ phi, dcPotential s = .ok phi := by rw [hse]; exact ⟨_, rfl⟩
  obtain ⟨fld, hfld⟩ : ∃ fld, dcGetField s = .ok fld := by rw [hse]; exact ⟨_, rfl⟩
  set r : ScfRun (exOppIn J) := ⟨st, fun k _ => exOppE k, fun _ => (1 : CMat 1), 0, [0], _, _, s, phi, fld⟩ with hr
  have hchg : ∀ i, chg [0] i = 0 := by
    intro i
    match i with
    | 0 => rfl
    | n + 1 => rfl
  have heps : r.epsilon 1 0 = 0 := by
    have := epsilon_gam hs hphi (i := 0) (show 0 < 1 by norm_num)
    unfold ScfRun.epsilon
    rw [show r.dq = [0] from rfl, show r.phi = phi from rfl]
    refine Eq.trans this ?_
    simp [hchg]
  have fin1 : ∀ x : Fin 1, x = 0 := by decide
  have hH0 : ∀ k, r.H0 k = (fun _ _ => (exOppE k : ℂ) : CMat 1) := by
    intro k
    funext x y
    show (st k).H0 (exTable1.atomAt x) (exTable1.atomAt y) (exTable1.numAt x) (exTable1.numAt y) = _
    rw [fin1 x, fin1 y]
    exact hH k
  have hSk : ∀ k, r.S k = (1 : CMat 1) := by
    intro k
    funext x y
    show (st k).S (exTable1.atomAt x) (exTable1.atomAt y) (exTable1.numAt x) (exTable1.numAt y) = _
    rw [fin1 x, fin1 y]
    exact hS k
  have hh1 : ∀ x y : Fin 1, constructH1 (exOppIn J).t 1 (r.epsilon 1) (fun _ => 0) x y = 0 := by
    intro x y
    unfold constructH1
    dsimp only
    rw [if_neg (by simp; norm_num)]
    have haux : ∀ x : Fin 1, auxFill (r.epsilon 1) (exOppIn J).t.blocks 0 (fun _ => 0) x = 0 := by
      intro x
      have hb : (exOppIn J).t.blocks = [(0, 1)] := rfl
      rw [hb, fin1 x]
      simp [auxFill, heps]
    rw [haux, haux]
    norm_num
  have hham : ∀ k, scfHamiltonian (r.h1 1) (r.H0 k) (r.S k) = (fun _ _ => (exOppE k : ℂ) : CMat 1) := by
    intro k
    have e1 : r.h1 1 = some fun (x y : Fin 1) => constructH1 (exOppIn J).t 1 (r.epsilon 1) (fun _ => 0) x y := rfl
    rw [e1, hH0]
    unfold scfHamiltonian
    ext x y
    have h := hh1 x y
    have e : ∀ z w c : ℂ, c = 0 → z + c * w = z := by intro z w c hc; rw [hc]; simp
    exact e _ _ _ (by rw [Complex.ofReal_eq_zero]; exact h)
  have htwo : fermi 1 0 1 + fermi 1 0 (-1) = 2 := by
    have := exDimer_two (d := 1) (by norm_num)
    linarith
  refine ⟨r, ?_, rfl, fun _ _ => rfl, ?_⟩
  · refine ⟨hst, ?_, ?_, ?_, fun _ => ⟨hs, hphi, hfld⟩⟩
    · intro k
      have h1 : exOpp.positions.length = 1 := rfl
      rw [h1, hham, hSk]
      have : AreStates (fun _ _ => (exOppE k : ℂ) : CMat 1) (1 : CMat 1) (fun _ => exOppE k) (1 : CMat 1) := by
        refine ⟨fun a b _ => le_refl _, ?_, ?_⟩
        · intro a b; rw [fin1 a, fin1 b]; simp
        · intro a i; rw [fin1 a, fin1 i]; simp
      exact this
    · have : ∑ k : Fin 2, (1 / 2 : ℝ) * ∑ a : Fin 1, fermi 1 0 (exOppE k) = 1 := by
        simp [Fin.sum_univ_two, exOppE]
        linarith
      exact this
    · intro _
      have hm : ∀ x : Fin 1, mullikenDiag (exOppIn J).wk r.rho r.S x = 1 := by
        intro x
        have : ∑ k : Fin 2, (1 / 2 : ℝ) * (rowDot (computeRho (1 : CMat 1) fun _ => fermi 1 0 (exOppE k)) (1 : CMat 1) 0).re = 1 := by
          simp only [exRow_rho]
          simp [Fin.sum_univ_two, exOppE]
          linarith
        refine Eq.trans ?_ this
        unfold mullikenDiag
        refine Finset.sum_congr rfl fun k _ => ?_
        rw [hSk, fin1 x]
        rfl
      have hq : (exOppIn J).t.blocks.map (sliceSum (mullikenDiag (exOppIn J).wk r.rho r.S)) = [1] := by
        have hb : (exOppIn J).t.blocks = [(0, 1)] := rfl
        have hv : mullikenDiag (exOppIn J).wk r.rho r.S = (fun _ : Fin 1 => (1 : ℝ)) := funext hm
        rw [hb, hv]
        show [sliceSum (fun _ : Fin 1 => (1 : ℝ)) (0, 1)] = _
        simp [sliceSum, List.ofFn_succ]
      unfold mulliken
      rw [hq]
      norm_num [exOppIn, exRowIn]
      rfl
  · have hb : ∃ E, bandEnergy (exOppIn J).wk r.rho r.H0 (exOppIn J).tolIm = .ok E := by
      have e : (∑ k, ((exOppIn J).wk k : ℂ) * ∑ i, rowDot (r.rho k) (r.H0 k) i)
          = ((∑ k : Fin 2, (1 / 2 : ℝ) * (fermi 1 0 (exOppE k) * exOppE k) : ℝ) : ℂ) := by
        rw [Complex.ofReal_sum]
        refine Finset.sum_congr rfl fun k _ => ?_
        have e3 : ∀ k : Fin 2, ∑ i : Fin 1, rowDot (computeRho (1 : CMat 1) fun _ => fermi 1 0 (exOppE k)) (fun _ _ => (exOppE k : ℂ) : CMat 1) i
            = ((fermi 1 0 (exOppE k) * exOppE k : ℝ) : ℂ) := by
          intro k
          rw [Fin.sum_univ_one]
          exact (exRow_rho _ _).trans (Complex.ofReal_mul _ _).symm
        rw [hH0, Complex.ofReal_mul, ← e3 k]
        rfl
      unfold bandEnergy
      dsimp only
      rw [e, if_pos (by rw [Complex.ofReal_im]; exact one_pos)]
      exact ⟨_, rfl⟩
    obtain ⟨eb, hb⟩ := hb
    obtain ⟨e, he⟩ := c31_succeeds (G := (exOppIn J).geom exOpp) (V := (exOppIn J).V)
      (rmax := (exOppIn J).rmax) (hartree := (exOppIn J).hartree)
      (exOpp_calc J).inverse.idFirst (by
        intro i j hij hj n hn hc
        have hj' : j < 1 := hj
        obtain rfl : j = 0 := by omega
        obtain rfl : i = 0 := by omega
        have hn' : n ∈ ((exOppIn J).mat exOpp).ntuples := hn
        rw [exOpp_ntuples] at hn'
        simp at hn'
        have h1 := hc.2.2
        have h2 : norm3 (((exOppIn J).geom exOpp).rij (along 0 1) 0 0) = 2 := exOpp_norm J
        rcases hn' with rfl | rfl
        · exact hc.1 ⟨rfl, rfl⟩
        · rw [h2] at h1; norm_num at h1)
    unfold ScfRun.energy
    rw [hb, he]
    exact ⟨_, rfl⟩

/-- Hypotheses of `c134_sector`: the atom in the wedge has a self-consistent solution with the energies
`1` and `-1` for its two angular momenta; the calculation with both atoms finds the bonding and the
antibonding state, and twice the energy. -/
example (J : SkJunk) : ∃ (r : ScfRun (exOppIn J)) (r' : ScfRun (exOppIn2 J)) (E : ℝ),
    Converged (exOppIn J) exOpp r ∧ Converged (exOppIn2 J) exOpp2 r' ∧ r'.mu = 0 ∧
    r.energy exOpp = .ok E ∧ r'.energy exOpp2 = .ok (2 * E) := by
  obtain ⟨r, hr, hmu, -, E, hE⟩ := exOpp_converged J
  obtain ⟨r', h1, h2, -, -, h5⟩ := c134_sector (exOpp_calc J) (exOpp_fits J) (exOpp2_fits J) hr
  exact ⟨r, r', E, hr, h1, h2.trans hmu, hE, by simpa using h5 E (show 0 < 1 by norm_num) hE⟩

/-- Hypotheses of `c134_cell`: a chiral wedge with a negative angle. -/
example : ∃ (A B : Atoms), A.ctype = .chiralWedge ∧ A.wedgeAngle = -(2 * Real.pi / (5 : ℕ)) ∧
    AllSectors A B 5 ∧ B.ctype = .chiral ∧ B.atoms.length = 5 := by
  let A : Atoms := ⟨.chiralWedge, [("C", ![1, 0, 0])], !![0, 1, 0; 3, 0, 0; -(2 * Real.pi / (5 : ℕ)), 0, 0], fun _ => false, fun _ => 0⟩
  have hang : A.wedgeAngle = -(2 * Real.pi / (5 : ℕ)) := rfl
  have hw : wedgeM |A.wedgeAngle| = 5 := by
    have hpi := Real.pi_pos
    rw [hang, abs_neg, abs_of_pos (by positivity)]
    unfold wedgeM
    rw [show 2 * Real.pi / (2 * Real.pi / ((5 : ℕ) : ℝ)) = ((5 : ℤ) : ℝ) by push_cast; field_simp, pyRound_intCast]
  have hr : A.ranges = ![rangeOf (angularRange 5), rangeZero, rangeInf] := by
    show ![rangeOf (angularRange (wedgeM |A.wedgeAngle|)), rangeZero, rangeInf] = _
    rw [hw]
  have f0 : firstSector 5 = -2 := rfl
  have hne : ((List.range 5).map fun u : ℕ => along 0 (firstSector 5 + (u : ℤ))) ≠ [] := by simp
  obtain ⟨out, h1, h2, -⟩ := (c06_list A _ hne).1 (by
    intro n hn
    obtain ⟨u, hu, rfl⟩ := List.mem_map.1 hn
    have hu' : u < 5 := List.mem_range.1 hu
    unfold Legal
    rw [hr, f0]
    have ea : angularRange 5 = (-2, 2) := by decide
    rw [ea]
    intro i
    have b1 : (-2 : ℤ) ≤ -2 + u := by omega
    have b2 : -2 + (u : ℤ) ≤ 2 := by omega
    fin_cases i
    · simp only [rangeOf, Bound.toEReal, along, Fin.zero_eta, Matrix.cons_val_zero, Pi.single_eq_same]
      exact ⟨by exact_mod_cast b1, by exact_mod_cast b2⟩
    · simp [rangeZero, Bound.toEReal, along]
    · simp [rangeInf, Bound.toEReal, along])
  exact ⟨A, allSectors A out, rfl, rfl, c134_cell A 5 (by norm_num) (Or.inr (Or.inr rfl)) (Or.inr ⟨rfl, rfl⟩) out h1,
    rfl, by show out.length = 5; simpa [A] using h2⟩

end Hotbit
