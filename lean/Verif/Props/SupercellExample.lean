import Verif.Props.Supercell
import Verif.Props.TotalForcesSmearing

/-!
# Example for C133: a chain of atoms

One atom with one s orbital per cell, hopping to the nearest neighbours. Cells of length 2 with the
k-points `0` and `π`, compared with cells of length 4 at `Γ`.
-/

set_option linter.unusedSimpArgs false

namespace Hotbit

open Matrix

/-- The chain with one atom per cell. -/
noncomputable def exRow : Atoms where
  ctype := .bravais
  atoms := [("C", 0)]
  cell := !![2, 0, 0; 0, 9, 0; 0, 0, 9]
  pbc := ![true, false, false]

/-- The orbital of one atom. -/
def exTable1 : OrbTables :=
  { orb := [⟨0, "C", "s", 0, 0, 0, 0⟩]
    atomorb := [[⟨0, "C", "s", 0, 0, 0, 0⟩]]
    nrOrbitals := [1]
    firstOrbitals := [0]
    orbitalAtoms := [0]
    norb := 1 }

/-- Hopping up to the distance 3. -/
noncomputable def exRowHop : SkTable where
  r1 := 0
  r2 := 3
  h := fun _ m => if m = 9 then 1 else 0
  s := 0
  dh := fun _ m => if m = 9 then -1 else 0
  ds := 0

/-- The operations that are scanned. -/
def exRowScan : List Op := [along 0 1, along 0 (-1)]

/-- The calculation with one atom per cell. -/
noncomputable def exRowIn (J : SkJunk) : ScfIn where
  bohr := 1
  hartree := 1
  scc := true
  t := exTable1
  no := fun _ => 1
  eps := fun _ _ => 0
  seps := 0
  tab := fun _ _ => exRowHop
  J := J
  cut := fun _ _ => 3
  scan := exRowScan
  nk := 2
  kpt := fun k => Function.update (0 : Vec) 0 ((0 + 2 * Real.pi * (k : ℕ)) / (2 : ℕ))
  wk := fun _ => 1 / 2
  width := 1
  nel := 1
  charge := 0
  tol := 1
  tolIm := 1
  val := [1]
  cd := .gaussian
  U := fun _ => 1
  w := fun _ => 2
  gcut := some 3
  V := fun _ _ n d => if n = 0 then d ^ 2 else 2 * d
  rmax := 3
  efree := 0

/-- The calculation with two atoms per cell. -/
noncomputable def exRowIn2 (J : SkJunk) : ScfIn :=
  { exRowIn J with
    t := exTables
    nk := 1
    kpt := fun _ => 0
    wk := fun _ => 1
    nel := 2
    val := [1, 1] }

/-- The chain with two atoms per cell. -/
noncomputable def exRow2 : Atoms := enlarge exRow 0 2 [("C", 0), ("C", ![2, 0, 0])]

theorem exRow_transform (r : Vec) (n : Op) :
    exRow.rawTransform r n = r + (![2 * (n 0 : ℝ), 9 * (n 1 : ℝ), 9 * (n 2 : ℝ)] : Vec) := by
  unfold Atoms.rawTransform exRow
  funext x
  fin_cases x <;> simp <;> ring

theorem exRow_legal {n : Op} : Legal exRow n ↔ n 1 = 0 ∧ n 2 = 0 := by
  have hr : ∀ i, exRow.ranges i = if (![true, false, false] : Fin 3 → Bool) i then rangeInf else rangeZero :=
    fun _ => rfl
  unfold Legal
  constructor
  · intro h
    have h1 := h 1
    have h2 := h 2
    rw [hr] at h1 h2
    simp [rangeZero, Bound.toEReal] at h1 h2
    have a1 := h1.1; have a2 := h1.2; have b1 := h2.1; have b2 := h2.2
    norm_cast at a1 a2 b1 b2
    exact ⟨le_antisymm a2 a1, le_antisymm b2 b1⟩
  · rintro ⟨h1, h2⟩ i
    rw [hr]
    fin_cases i
    · simp [rangeInf, Bound.toEReal]
    · simp [rangeZero, Bound.toEReal, h1]
    · simp [rangeZero, Bound.toEReal, h2]

theorem exRow_super : Supercell exRow exRow2 0 2 := by
  refine c133_cell exRow 0 2 (by norm_num) trivial (by simp [exRow]) rfl _ ?_
  have hne : ((List.range 2).map fun u : ℕ => along 0 (u : ℤ)) ≠ [] := by simp
  obtain ⟨out, h1, h2, h3⟩ := (c06_list exRow _ hne).1 (by
    intro n hn
    obtain ⟨u, -, rfl⟩ := List.mem_map.1 hn
    rw [exRow_legal]
    simp [along])
  rw [h1]
  have l2 : out.length = 2 := by simpa [exRow] using h2
  obtain ⟨x, a1, a2⟩ := h3 0 (along 0 0) 0 "C" 0 (by simp) rfl
  obtain ⟨y, b1, b2⟩ := h3 1 (along 0 1) 0 "C" 0 (by simp) rfl
  rw [(c05_transform_guard exRow _ _).1 (exRow_legal.2 (by simp [along]))] at a1 b1
  cases a1
  cases b1
  rw [exRow_transform] at a2 b2
  have len : exRow.atoms.length = 1 := rfl
  match out, l2 with
  | [p, q], _ =>
    simp [len] at a2 b2
    rw [a2, b2]
    have e0 : (![2 * ((along 0 0 : Op) 0 : ℝ), 9 * ((along 0 0 : Op) 1 : ℝ), 9 * ((along 0 0 : Op) 2 : ℝ)] : Vec) = 0 := by
      funext x; fin_cases x <;> simp [along]
    have e1 : (![2 * ((along 0 1 : Op) 0 : ℝ), 9 * ((along 0 1 : Op) 1 : ℝ), 9 * ((along 0 1 : Op) 2 : ℝ)] : Vec)
        = ![2, 0, 0] := by
      funext x; fin_cases x <;> simp [along]
    rw [e0, e1]

theorem exRow_dist {n : Op} (hn : Legal exRow n) :
    norm3 (imagePos exRow 1 n 0 - imagePos exRow 1 0 0) = 2 * |(n 0 : ℝ)| := by
  obtain ⟨h1, h2⟩ := exRow_legal.1 hn
  unfold imagePos
  rw [exRow_transform, exRow_transform]
  have e : ((1 : ℝ)⁻¹ • ((exRow.positions[0]?).getD 0 + (![2 * (n 0 : ℝ), 9 * (n 1 : ℝ), 9 * (n 2 : ℝ)] : Vec))
      - (1 : ℝ)⁻¹ • ((exRow.positions[0]?).getD 0 + (![2 * ((0 : Op) 0 : ℝ), 9 * ((0 : Op) 1 : ℝ), 9 * ((0 : Op) 2 : ℝ)] : Vec)))
      = ![2 * (n 0 : ℝ), 0, 0] := by
    rw [h1, h2]
    funext x; fin_cases x <;> simp
  rw [e, norm3_x, abs_mul]
  norm_num

theorem exRow2_dist {n : Op} (hn : Legal exRow2 n) {i j : ℕ} (hi : i < 2) (hj : j < 2) :
    norm3 (imagePos exRow2 1 n j - imagePos exRow2 1 0 i) = |4 * (n 0 : ℝ) + 2 * ((j : ℝ) - i)| := by
  have hl : Legal exRow n := by
    unfold Legal at hn ⊢
    rwa [exRow_super.ranges] at hn
  obtain ⟨h1, h2⟩ := exRow_legal.1 hl
  unfold imagePos
  rw [exRow_super.op, exRow_super.op, exRow_transform, exRow_transform]
  have p : ∀ i : ℕ, i < 2 → (exRow2.positions[i]?).getD 0 = (![2 * (i : ℝ), 0, 0] : Vec) := by
    intro i hi
    interval_cases i
    · show (0 : Vec) = _
      funext x; fin_cases x <;> simp
    · show (![2, 0, 0] : Vec) = _
      funext x; fin_cases x <;> simp
  rw [p i hi, p j hj]
  rw [← norm3_x]
  congr 1
  funext x
  fin_cases x <;> simp [stretch, h1, h2]
  ring

theorem along_of_legal {n : Op} (hn : Legal exRow n) : n = along 0 (n 0) := by
  obtain ⟨h1, h2⟩ := exRow_legal.1 hn
  funext x
  fin_cases x
  · simp [along]
  · simpa [along] using h1
  · simpa [along] using h2

theorem mem_rowScan {n : Op} (hn : Legal exRow n) (h0 : n ≠ 0) (h : |n 0| ≤ 1) : n ∈ exRowScan := by
  have e := along_of_legal hn
  rw [abs_le] at h
  have hz : n 0 ≠ 0 := fun hz => h0 (by rw [e, hz]; simp [along])
  have : n 0 = 1 ∨ n 0 = -1 := by omega
  rcases this with h | h <;> rw [e, h] <;> simp [exRowScan]

theorem exRow_scan {A : Atoms} (h : A.ranges = exRow.ranges) : ScanList A exRowScan := by
  refine ⟨?_, ?_, ?_⟩
  · have : along 0 1 ≠ along 0 (-1) := by
      intro h
      have := congrFun h 0
      simp [along] at this
    simp [exRowScan, this]
  · intro n hn
    have : Legal exRow n := by
      rw [exRow_legal]
      simp [exRowScan] at hn
      rcases hn with rfl | rfl <;> simp [along]
    unfold Legal at this ⊢
    rwa [h]
  · intro n hn
    simp [exRowScan] at hn ⊢
    rcases hn with rfl | rfl
    · right; simp [along, ← Pi.single_neg]
    · left; simp [along, ← Pi.single_neg]

theorem exRow_images (J : SkJunk) : HasAllImages exRow 1 exRowScan (fun _ _ => 3) := by
  intro n hn h0 i hi j hj h
  have hi' : i < 1 := hi
  have hj' : j < 1 := hj
  obtain rfl : i = 0 := by omega
  obtain rfl : j = 0 := by omega
  rw [exRow_dist hn] at h
  refine mem_rowScan hn h0 ?_
  by_contra hc
  have : (2 : ℤ) ≤ |n 0| := by omega
  have h2 : (2 : ℝ) ≤ |(n 0 : ℝ)| := by exact_mod_cast this
  linarith

theorem exRow2_images (J : SkJunk) : HasAllImages exRow2 1 exRowScan (fun _ _ => 3) := by
  intro n hn h0 i hi j hj h
  have hi' : i < 2 := hi
  have hj' : j < 2 := hj
  rw [exRow2_dist hn hi' hj'] at h
  have hl : Legal exRow n := by
    unfold Legal at hn ⊢
    rwa [exRow_super.ranges] at hn
  refine mem_rowScan hl h0 ?_
  rw [abs_le] at h ⊢
  have a1 : (i : ℝ) ≤ 1 := by exact_mod_cast (show i ≤ 1 by omega)
  have a2 : (j : ℝ) ≤ 1 := by exact_mod_cast (show j ≤ 1 by omega)
  have a3 : (0 : ℝ) ≤ i := by positivity
  have a4 : (0 : ℝ) ≤ j := by positivity
  constructor
  · by_contra hc
    have : n 0 ≤ -2 := by omega
    have : (n 0 : ℝ) ≤ -2 := by exact_mod_cast this
    linarith [h.1]
  · by_contra hc
    have : 2 ≤ n 0 := by omega
    have : (2 : ℝ) ≤ n 0 := by exact_mod_cast this
    linarith [h.2]

theorem scan_of_row {A : Atoms} (h : A.ranges = exRow.ranges) {n : Op} (hn : n ∈ exRowScan) : n ∈ scanOps A := by
  rw [mem_scanOps]
  refine ⟨(exRow_scan h).legal n hn, fun k _ => ?_⟩
  simp [exRowScan] at hn
  rcases hn with rfl | rfl <;> fin_cases k <;> simp [along]

theorem rotation_row {A : Atoms} (h : A.ctype = .bravais) (n : Op) : A.rawRotation n = 1 := by
  unfold Atoms.rawRotation; rw [h]

theorem follow_row {A : Atoms} (h : A.ctype = .bravais) (P : ScfIn) : OrbitalsFollow (P.mat A) :=
  orbitalsFollow_ofAtoms A (by rw [h]; trivial) _ _ _ _ _ _ _ _ fun n _ =>
    ⟨fun _ => rotation_row h n, fun h' => by rw [h] at h'; cases h'⟩

theorem exRow_pairTables : MutualTables fun _ _ => exRowHop where
  r1 _ _ := rfl
  r2 _ _ := rfl
  h := by
    intro a b d la hla lb hlb m hm
    simp only [exRowHop]
    interval_cases la <;> interval_cases lb <;> fin_cases m <;>
      simp_all [skIntegralIndex] <;> (try (intro h; exact absurd h (by decide)))
  s := by
    intro a b d la hla lb hlb m hm
    simp [exRowHop]

/-- The numbering of the k-points. -/
def exRowK (J : SkJunk) : Fin (exRowIn2 J).nk × Fin 2 ≃ Fin (exRowIn J).nk :=
  Equiv.uniqueProd (Fin 2) (Fin 1)

theorem exRow_calc (J : SkJunk) : SupercellCalc (exRowIn J) (exRowIn2 J) exRow exRow2 0 2 (exRowK J) where
  cell := exRow_super
  scanA := exRow_scan rfl
  scanB := exRow_scan exRow_super.ranges
  cutSymm := ⟨fun _ _ => rfl, fun _ _ => rfl⟩
  atoms := by
    intro u hu i hi
    have hi' : i < 1 := hi
    obtain rfl : i = 0 := by omega
    refine ⟨rfl, rfl, rfl, rfl, ?_⟩
    interval_cases u <;> rfl
  cuts _ _ _ _ _ _ _ _ := rfl
  reach _ _ _ _ := ⟨le_refl (3 : ℝ), le_refl (3 : ℝ), show (0.1 : ℝ) ≤ 3 by norm_num⟩
  imagesA := exRow_images J
  imagesB := exRow2_images J
  shell i _ := by
    unfold ShellDiag
    simp [exRowIn]
  followA := follow_row rfl _
  followB := follow_row rfl _
  tables := exRow_pairTables
  kpoints k c := rfl
  weight k c := by
    show (1 : ℝ) = (2 : ℕ) * (1 / 2)
    norm_num
  coulomb _ := ⟨3, rfl, fun n hn h0 i hi j hj h => scan_of_row rfl (exRow_images J n hn h0 i hi j hj h),
    fun n hn h0 i hi j hj h => scan_of_row exRow_super.ranges (exRow2_images J n hn h0 i hi j hj h)⟩
  symV _ _ := rfl
  same := ⟨rfl, rfl, rfl, rfl, rfl, rfl, rfl, rfl, rfl, rfl⟩
  count := by
    refine ⟨?_, ?_, ?_, ?_⟩
    · show (1 : ℝ) = [1].sum - 0
      simp
    · show (2 : ℝ) = (2 : ℕ) * 1
      norm_num
    · show (0 : ℝ) = (2 : ℕ) * 0
      norm_num
    · show (0 : ℝ) = (2 : ℕ) * 0
      norm_num
  tols := ⟨zero_le_one, one_pos⟩

theorem exRow_fits (J : SkJunk) : Fits (exRowIn J) exRow exSElements where
  orbitals := by
    show orbInit exSElements ["C"] = .ok exTable1
    simp [orbInit, exSElements, orbLoop, orbStep, atomOrbs, angmomOf, exTable1, List.mapM_cons, bind,
      Except.bind, pure, Except.pure]
  numbers := by
    intro i hi
    have hi' : i < 1 := hi
    obtain rfl : i = 0 := by omega
    exact ⟨rfl, Or.inl rfl⟩
  valences := rfl
  units := one_pos

theorem exRow2_fits (J : SkJunk) : Fits (exRowIn2 J) exRow2 exSElements where
  orbitals := exTables_init
  numbers := by
    intro i hi
    have hi' : i < 2 := hi
    refine ⟨?_, Or.inl rfl⟩
    have : i = 0 ∨ i = 1 := by omega
    rcases this with rfl | rfl <;> rfl
  valences := rfl
  units := one_pos


theorem exRow_ntuples (J : SkJunk) : ((exRowIn J).mat exRow).ntuples = [0, along 0 1, along 0 (-1)] := by
  have hne : ∀ z : ℤ, z ≠ 0 → along 0 z ≠ 0 := by
    intro z hz h
    exact hz (by simpa [along] using congrFun h 0)
  have hd : ∀ z : ℤ, |z| = 1 → ∃ i < 1, ∃ j < 1, ∑ c, (imagePos exRow 1 0 j c - imagePos exRow 1 (along 0 z) i c) ^ 2 ≤ (3 : ℝ) ^ 2 := by
    intro z hz
    refine ⟨0, by omega, 0, by omega, ?_⟩
    have h := exRow_dist (n := along 0 z) (exRow_legal.2 (by simp [along]))
    have e : ∑ c, (imagePos exRow 1 0 0 c - imagePos exRow 1 (along 0 z) 0 c) ^ 2
        = norm3 (imagePos exRow 1 (along 0 z) 0 - imagePos exRow 1 0 0) ^ 2 := by
      rw [← sum_sq_norm3]
      exact Finset.sum_congr rfl fun c _ => by simp only [Pi.sub_apply]; ring
    have hz' : |((along 0 z : Op) 0 : ℝ)| = 1 := by
      have : (along 0 z : Op) 0 = z := by simp [along]
      rw [this]; exact_mod_cast hz
    rw [e, h, hz']
    norm_num
  show selectImages 1 (imagePos exRow 1) (fun _ _ => 3) exRowScan = _
  unfold selectImages
  congr 1
  refine List.filter_eq_self.2 fun n hn => decide_eq_true ?_
  simp [exRowScan] at hn
  rcases hn with rfl | rfl
  · exact ⟨hne 1 (by norm_num), hd 1 (by norm_num)⟩
  · exact ⟨hne (-1) (by norm_num), hd (-1) (by norm_num)⟩

theorem exRow_norm (J : SkJunk) (z : ℤ) (hz : |z| = 1) :
    norm3 (((exRowIn J).mat exRow).rij (along 0 z) 0 0) = 2 := by
  have h := exRow_dist (n := along 0 z) (exRow_legal.2 (by simp [along]))
  have hz' : |((along 0 z : Op) 0 : ℝ)| = 1 := by
    have : (along 0 z : Op) 0 = z := by simp [along]
    rw [this]; exact_mod_cast hz
  refine Eq.trans ?_ (h.trans (by rw [hz', mul_one]))
  rfl

theorem exRow_bloch (J : SkJunk) (k : Vec) (f : SkTable → ℝ → Fin 14 → ℝ) :
    blochSum ((exRowIn J).mat exRow) f k 0 0 0 0
      = (blochPhase k (along 0 1) + blochPhase k (along 0 (-1))) * (f exRowHop 2 9 : ℂ) := by
  have hR : ∀ n, ((exRowIn J).mat exRow).rot n = 1 := fun n => rotation_row (A := exRow) rfl n
  have ht : ∀ a b, ((exRowIn J).mat exRow).tab a b = exRowHop := fun _ _ => rfl
  have hne : ∀ z : ℤ, z ≠ 0 → along 0 z ≠ 0 := by
    intro z hz h
    exact hz (by simpa [along] using congrFun h 0)
  have hel : ∀ z : ℤ, |z| = 1 → imageElem ((exRowIn J).mat exRow) f 0 0 (along 0 z) 0 0 = f exRowHop 2 9 := by
    intro z hz
    unfold imageElem
    simp only [exRow_norm J z hz, ht, hR, orbRep_one]
    simp [Matrix.one_apply, skSpec, Fin.sum_univ_three, orbL, skCoef, cubic, skIntegralIndex]
  unfold blochSum
  rw [exRow_ntuples]
  simp only [List.map_cons, List.map_nil, List.sum_cons, List.sum_nil, add_zero, ht]
  rw [exRow_norm J 1 (by norm_num), exRow_norm J (-1) (by norm_num), hel 1 (by norm_num), hel (-1) (by norm_num),
    if_neg (by simp), if_pos ⟨by simp [hne], by norm_num [exRowHop], by norm_num [exRowHop]⟩,
    if_pos ⟨by simp [hne], by norm_num [exRowHop], by norm_num [exRowHop]⟩]
  ring

/-- The energy of the state at each of the two k-points. -/
def exRowE (k : Fin 2) : ℝ := if k = 0 then 2 else -2

theorem exRow_phase (J : SkJunk) (k : Fin 2) :
    blochPhase ((exRowIn J).kpt k) (along 0 1) + blochPhase ((exRowIn J).kpt k) (along 0 (-1)) = (exRowE k : ℂ) := by
  have e : (exRowIn J).kpt k = Function.update (0 : Vec) 0 ((0 + 2 * Real.pi * ((k : Fin 2) : ℕ)) / (2 : ℕ)) := rfl
  rw [e, blochPhase_along, blochPhase_along, Function.update_self]
  rcases fin2_cases k with rfl | rfl
  · simp [exRowE]; norm_num
  · have h1 : Complex.exp (Complex.I * ((((1 : ℤ) : ℝ) * ((0 + 2 * Real.pi * ((1 : Fin 2) : ℕ)) / (2 : ℕ)) : ℝ) : ℂ)) = -1 := by
      rw [← Complex.exp_pi_mul_I]; congr 1; push_cast; simp; ring
    have h2 : Complex.exp (Complex.I * ((((-1 : ℤ) : ℝ) * ((0 + 2 * Real.pi * ((1 : Fin 2) : ℕ)) / (2 : ℕ)) : ℝ) : ℂ)) = -1 := by
      have : Complex.exp (-(Real.pi * Complex.I)) = -1 := by
        rw [Complex.exp_neg, Complex.exp_pi_mul_I]; norm_num
      rw [← this]; congr 1; push_cast; simp; ring
    rw [h1, h2]
    simp [exRowE]; norm_num

theorem exRow_mats (J : SkJunk) (k : Fin 2) :
    ∃ st, getMatrices ((exRowIn J).mat exRow) ((exRowIn J).kpt k) = .ok st ∧
      st.H0 0 0 0 0 = (exRowE k : ℂ) ∧ st.S 0 0 0 0 = 1 := by
  have hid : IdFirst ((exRowIn J).mat exRow) := by
    obtain ⟨r, h1, h2⟩ := selectImages_idFirst exRow.atoms.length (imagePos exRow 1) (fun _ _ => 3) exRowScan
    exact ⟨r, h1, h2⟩
  have hfol := follow_row (A := exRow) rfl (exRowIn J)
  obtain ⟨st, hst⟩ := (c29_too_close (I := (exRowIn J).mat exRow) ((exRowIn J).kpt k) hid
    (fun _ _ => Or.inl rfl) hfol).1 (by
      intro i j hij hj n hn hself
      have hj' : j < 1 := hj
      obtain rfl : j = 0 := by omega
      obtain rfl : i = 0 := by omega
      rw [exRow_ntuples] at hn
      simp at hn
      rcases hn with rfl | rfl | rfl
      · exact absurd ⟨rfl, rfl⟩ hself
      · rw [exRow_norm J 1 (by norm_num)]; norm_num
      · rw [exRow_norm J (-1) (by norm_num)]; norm_num)
  have hp : ((0 : Fin 9) : ℕ) < ((exRowIn J).mat exRow).no 0 := by
    show 0 < 1
    norm_num
  have h := c29_elements hst hid hfol (le_refl 0) (show 0 < 1 by norm_num) hp hp
  have heps : ∀ i q, ((exRowIn J).mat exRow).eps i q = 0 := fun _ _ => rfl
  have hseps : ((exRowIn J).mat exRow).seps = 0 := rfl
  rw [exRow_bloch, exRow_bloch, exRow_phase, heps, hseps] at h
  refine ⟨st, hst, ?_, ?_⟩
  · rw [h.1]; simp [exRowHop]
  · rw [h.2]; simp [exRowHop]

theorem exRow_rho (f : ℝ) (H : CMat 1) : rowDot (computeRho (1 : CMat 1) fun _ => f) H 0 = f * H 0 0 := by
  unfold rowDot
  simp only [computeRho_apply]
  simp [Matrix.one_apply]

theorem exRow_converged (J : SkJunk) : ∃ r : ScfRun (exRowIn J), Converged (exRowIn J) exRow r ∧ r.mu = 0 ∧
    (∀ k : Fin 2, ∀ b : Fin 1, r.e k b = exRowE k) ∧ ∃ E, r.energy exRow = .ok E := by
  choose st hst hH hS using exRow_mats J
  have hclu : (some (3 : ℝ)).isSome ∨ exRow.isCluster = true := Or.inl rfl
  obtain ⟨s, hs⟩ := esState_exists (exRowIn J).cd (exRowIn J).bohr (exRowIn J).U (exRowIn J).w (some 3) exRow
    [0] hclu
  obtain ⟨-, -, hf, -⟩ := esState_eq _ _ _ _ _ _ _ _ _ _ hs
  obtain ⟨-, hse⟩ := fresh_eq _ _ _ _ hf
  obtain ⟨phi, hphi⟩ : ∃ phi, dcPotential s = .ok phi := by rw [hse]; exact ⟨_, rfl⟩
  obtain ⟨fld, hfld⟩ : ∃ fld, dcGetField s = .ok fld := by rw [hse]; exact ⟨_, rfl⟩
  set r : ScfRun (exRowIn J) := ⟨st, fun k _ => exRowE k, fun _ => (1 : CMat 1), 0, [0], _, _, s, phi, fld⟩ with hr
  have hchg : ∀ i, chg [0] i = 0 := by
    intro i
    match i with
    | 0 => rfl
    | n + 1 => rfl
  have heps : r.epsilon 1 0 = 0 := by
    have := epsilon_gam hs hphi (i := 0) (show 0 < 1 by norm_num)
    unfold ScfRun.epsilon
    rw [show r.dq = [0] from rfl, show r.phi = phi from rfl]
    refine Eq.trans this ?_
    simp [hchg]
  have fin1 : ∀ x : Fin 1, x = 0 := by decide
  have hH0 : ∀ k, r.H0 k = (fun _ _ => (exRowE k : ℂ) : CMat 1) := by
    intro k
    funext x y
    show (st k).H0 (exTable1.atomAt x) (exTable1.atomAt y) (exTable1.numAt x) (exTable1.numAt y) = _
    rw [fin1 x, fin1 y]
    exact hH k
  have hSk : ∀ k, r.S k = (1 : CMat 1) := by
    intro k
    funext x y
    show (st k).S (exTable1.atomAt x) (exTable1.atomAt y) (exTable1.numAt x) (exTable1.numAt y) = _
    rw [fin1 x, fin1 y]
    exact hS k
  have hh1 : ∀ x y : Fin 1, constructH1 (exRowIn J).t 1 (r.epsilon 1) (fun _ => 0) x y = 0 := by
    intro x y
    unfold constructH1
    dsimp only
    rw [if_neg (by simp; norm_num)]
    have haux : ∀ x : Fin 1, auxFill (r.epsilon 1) (exRowIn J).t.blocks 0 (fun _ => 0) x = 0 := by
      intro x
      have hb : (exRowIn J).t.blocks = [(0, 1)] := rfl
      rw [hb, fin1 x]
      simp [auxFill, heps]
    rw [haux, haux]
    norm_num
  have hham : ∀ k, scfHamiltonian (r.h1 1) (r.H0 k) (r.S k) = (fun _ _ => (exRowE k : ℂ) : CMat 1) := by
    intro k
    have e1 : r.h1 1 = some fun (x y : Fin 1) => constructH1 (exRowIn J).t 1 (r.epsilon 1) (fun _ => 0) x y := rfl
    rw [e1, hH0]
    unfold scfHamiltonian
    ext x y
    have h := hh1 x y
    have e : ∀ z w c : ℂ, c = 0 → z + c * w = z := by intro z w c hc; rw [hc]; simp
    exact e _ _ _ (by rw [Complex.ofReal_eq_zero]; exact h)
  have htwo : fermi 1 0 2 + fermi 1 0 (-2) = 2 := by
    have := exDimer_two (d := 2) (by norm_num)
    linarith
  refine ⟨r, ?_, rfl, fun _ _ => rfl, ?_⟩
  · refine ⟨hst, ?_, ?_, ?_, fun _ => ⟨hs, hphi, hfld⟩⟩
    · intro k
      have h1 : exRow.positions.length = 1 := rfl
      rw [h1, hham, hSk]
      have : AreStates (fun _ _ => (exRowE k : ℂ) : CMat 1) (1 : CMat 1) (fun _ => exRowE k) (1 : CMat 1) := by
        refine ⟨fun a b _ => le_refl _, ?_, ?_⟩
        · intro a b; rw [fin1 a, fin1 b]; simp
        · intro a i; rw [fin1 a, fin1 i]; simp
      exact this
    · have : ∑ k : Fin 2, (1 / 2 : ℝ) * ∑ a : Fin 1, fermi 1 0 (exRowE k) = 1 := by
        simp [Fin.sum_univ_two, exRowE]
        linarith
      exact this
    · intro _
      have hm : ∀ x : Fin 1, mullikenDiag (exRowIn J).wk r.rho r.S x = 1 := by
        intro x
        have : ∑ k : Fin 2, (1 / 2 : ℝ) * (rowDot (computeRho (1 : CMat 1) fun _ => fermi 1 0 (exRowE k)) (1 : CMat 1) 0).re = 1 := by
          simp only [exRow_rho]
          simp [Fin.sum_univ_two, exRowE]
          linarith
        refine Eq.trans ?_ this
        unfold mullikenDiag
        refine Finset.sum_congr rfl fun k _ => ?_
        rw [hSk, fin1 x]
        rfl
      have hq : (exRowIn J).t.blocks.map (sliceSum (mullikenDiag (exRowIn J).wk r.rho r.S)) = [1] := by
        have hb : (exRowIn J).t.blocks = [(0, 1)] := rfl
        have hv : mullikenDiag (exRowIn J).wk r.rho r.S = (fun _ : Fin 1 => (1 : ℝ)) := funext hm
        rw [hb, hv]
        show [sliceSum (fun _ : Fin 1 => (1 : ℝ)) (0, 1)] = _
        simp [sliceSum, List.ofFn_succ]
      unfold mulliken
      rw [hq]
      norm_num [exRowIn]
      rfl
  · have hb : ∃ E, bandEnergy (exRowIn J).wk r.rho r.H0 (exRowIn J).tolIm = .ok E := by
      have e : (∑ k, ((exRowIn J).wk k : ℂ) * ∑ i, rowDot (r.rho k) (r.H0 k) i)
          = ((∑ k : Fin 2, (1 / 2 : ℝ) * (fermi 1 0 (exRowE k) * exRowE k) : ℝ) : ℂ) := by
        rw [Complex.ofReal_sum]
        refine Finset.sum_congr rfl fun k _ => ?_
        have e3 : ∀ k : Fin 2, ∑ i : Fin 1, rowDot (computeRho (1 : CMat 1) fun _ => fermi 1 0 (exRowE k)) (fun _ _ => (exRowE k : ℂ) : CMat 1) i
            = ((fermi 1 0 (exRowE k) * exRowE k : ℝ) : ℂ) := by
          intro k
          rw [Fin.sum_univ_one]
          exact (exRow_rho _ _).trans (Complex.ofReal_mul _ _).symm
        rw [hH0, Complex.ofReal_mul, ← e3 k]
        rfl
      unfold bandEnergy
      dsimp only
      rw [e, if_pos (by rw [Complex.ofReal_im]; exact one_pos)]
      exact ⟨_, rfl⟩
    obtain ⟨eb, hb⟩ := hb
    obtain ⟨e, he⟩ := c31_succeeds (G := (exRowIn J).geom exRow) (V := (exRowIn J).V)
      (rmax := (exRowIn J).rmax) (hartree := (exRowIn J).hartree)
      (inverse_ofAtoms (P := exRowIn J) (A := exRow) trivial (exRow_scan rfl) fun _ _ => rfl).idFirst (by
        intro i j hij hj n hn hc
        have hj' : j < 1 := hj
        obtain rfl : j = 0 := by omega
        obtain rfl : i = 0 := by omega
        have hn' : n ∈ ((exRowIn J).mat exRow).ntuples := hn
        rw [exRow_ntuples] at hn'
        simp at hn'
        have h1 := hc.2.2
        have h2 : ∀ z : ℤ, |z| = 1 → norm3 (((exRowIn J).geom exRow).rij (along 0 z) 0 0) = 2 := exRow_norm J
        rcases hn' with rfl | rfl | rfl
        · exact hc.1 ⟨rfl, rfl⟩
        · rw [h2 1 (by norm_num)] at h1; norm_num at h1
        · rw [h2 (-1) (by norm_num)] at h1; norm_num at h1)
    unfold ScfRun.energy
    rw [hb, he]
    exact ⟨_, rfl⟩

/-- Hypotheses of `c133_supercell`: the chain with one atom per cell has a self-consistent solution with
the energies `2` and `-2` at its two k-points; the calculation with two atoms per cell finds both
at `Γ`, and twice the energy. -/
example (J : SkJunk) : ∃ (r : ScfRun (exRowIn J)) (r' : ScfRun (exRowIn2 J)) (E : ℝ),
    Converged (exRowIn J) exRow r ∧ Converged (exRowIn2 J) exRow2 r' ∧ r'.mu = 0 ∧
    r.energy exRow = .ok E ∧ r'.energy exRow2 = .ok (2 * E) := by
  obtain ⟨r, hr, hmu, -, E, hE⟩ := exRow_converged J
  obtain ⟨r', h1, h2, -, -, h5⟩ := c133_supercell (exRow_calc J) (exRow_fits J) (exRow2_fits J) hr
  exact ⟨r, r', E, hr, h1, h2.trans hmu, hE, by simpa using h5 E (show 0 < 1 by norm_num) hE⟩

/-- Hypotheses of `c133_cell`: a helix of period 6, written with units of two steps. -/
example : ∃ (A B : Atoms), A.ctype = .chiral ∧ A.cell 2 0 = Real.pi / 3 ∧ Supercell A B 2 2 ∧
    B.cell 2 0 = 2 * (Real.pi / 3) ∧ B.atoms.length = 2 := by
  let A : Atoms := ⟨.chiral, [("C", ![1, 0, 0])], !![0, 0, 0; 3, 0, 0; Real.pi / 3, 0, 0], fun _ => false, fun _ => 0⟩
  have hne : ((List.range 2).map fun u : ℕ => along 2 (u : ℤ)) ≠ [] := by simp
  have h0 : Legal A 0 := legal_zero A (by simp [A]) (by simp [A])
  obtain ⟨out, h1, h2, -⟩ := (c06_list A _ hne).1 (by
    intro n hn
    obtain ⟨u, -, rfl⟩ := List.mem_map.1 hn
    exact legal_along rfl h0 _)
  refine ⟨A, enlarge A 2 2 out, rfl, rfl, c133_cell A 2 2 (by norm_num) trivial (by simp [A]) rfl out h1, ?_, ?_⟩
  · simp [enlarge, A, Grows]
  · show out.length = 2
    simpa [A] using h2

end Hotbit
