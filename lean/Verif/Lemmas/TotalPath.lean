import Verif.Spec.TotalEnergy
import Verif.Lemmas.TotalForces
import Verif.Props.MatricesGradient
import Verif.Props.Density

/-!
# Matrices, repulsion and electrostatics when an atom moves
-/

set_option linter.unusedSimpArgs false

namespace Hotbit

open Matrix

variable {P : ScfIn} {A : Atoms}

theorem displace_modify (A : Atoms) (a : ℕ) (b t : ℝ) (v : Vec) :
    displace A a (b • v) t = { A with atoms := A.atoms.modify a fun x => (x.1, x.2 + b • (t • v)) } := by
  unfold displace
  congr 1
  apply List.ext_getElem?
  intro i
  rw [List.getElem?_mapIdx, List.getElem?_modify]
  by_cases h : i = a
  · subst h
    simp only [if_true, smul_comm b t]
    rfl
  · simp only [h, Ne.symm h, if_false]
    cases A.atoms[i]? <;> rfl

theorem displace_sym (A : Atoms) (a : ℕ) (v : Vec) (t : ℝ) (i : ℕ) :
    (((displace A a v t).atoms[i]?).map Prod.fst) = (A.atoms[i]?).map Prod.fst := by
  unfold displace
  simp only [List.getElem?_mapIdx, Option.map_map]
  cases A.atoms[i]? with
  | none => rfl
  | some x => simp only [Option.map_some, Function.comp]; split <;> rfl

theorem displace_symbols (A : Atoms) (a : ℕ) (v : Vec) (t : ℝ) :
    (displace A a v t).symbols = A.symbols := by
  apply List.ext_getElem?
  intro i
  unfold Atoms.symbols
  rw [List.getElem?_map, List.getElem?_map, displace_sym]

theorem displace_natoms (A : Atoms) (a : ℕ) (v : Vec) (t : ℝ) :
    (displace A a v t).atoms.length = A.atoms.length := by
  simp [displace]

theorem selectImages_congr {N : ℕ} {pos pos' : Op → ℕ → Vec} {cut : ℕ → ℕ → ℝ} {scan : List Op}
    (h : ∀ n ∈ scan, ∀ i < N, ∀ j < N, (∑ c, (pos' 0 j c - pos' n i c) ^ 2 ≤ cut i j ^ 2 ↔
      ∑ c, (pos 0 j c - pos n i c) ^ 2 ≤ cut i j ^ 2)) :
    selectImages N pos' cut scan = selectImages N pos cut scan := by
  unfold selectImages
  congr 1
  refine List.filter_congr fun n hn => ?_
  refine decide_eq_decide.2 (and_congr Iff.rfl ?_)
  exact exists_congr fun i => and_congr_right fun hi' => exists_congr fun j =>
    and_congr_right fun hj' => h n hn i hi' j hj'

/-- Near the starting point the same images are selected. -/
theorem select_eventually (N : ℕ) (pos : Op → ℕ → Vec) (rot : Op → Mat) (cut : ℕ → ℕ → ℝ) (scan : List Op)
    (a : ℕ) (v : Vec) (hi : ∀ n ∈ scan, ∀ i < N, ∀ j < N,
      ∑ c, (pos 0 j c - pos n i c) ^ 2 ≠ cut i j ^ 2) :
    ∀ᶠ t : ℝ in nhds 0, selectImages N
      (fun n j => if j = a then pos n j + (rot n).mulVec (t • v) else pos n j) cut scan
        = selectImages N pos cut scan := by
  set D : ℝ → Op → ℕ → Vec := fun t n j => if j = a then pos n j + (rot n).mulVec (t • v) else pos n j
    with hD
  have hcont : ∀ n j c, Continuous fun t : ℝ => D t n j c := by
    intro n j c
    by_cases h : j = a
    · simp only [hD, h, if_true, Matrix.mulVec_smul, Pi.add_apply, Pi.smul_apply, smul_eq_mul]
      fun_prop
    · simp only [hD, h, if_false]
      fun_prop
  have h0 : ∀ n j, D 0 n j = pos n j := by
    intro n j
    simp only [hD]
    split <;> simp
  have key : ∀ᶠ t : ℝ in nhds 0, ∀ n ∈ scan.toFinset, ∀ i ∈ Finset.range N, ∀ j ∈ Finset.range N,
      (∑ c, (D t 0 j c - D t n i c) ^ 2 ≤ cut i j ^ 2 ↔
        ∑ c, (pos 0 j c - pos n i c) ^ 2 ≤ cut i j ^ 2) := by
    rw [Filter.eventually_all_finset]
    intro n hn
    rw [Filter.eventually_all_finset]
    intro i hi'
    rw [Filter.eventually_all_finset]
    intro j hj'
    have hc : Continuous fun t : ℝ => ∑ c, (D t 0 j c - D t n i c) ^ 2 := by
      refine continuous_finset_sum _ fun c _ => ?_
      exact ((hcont 0 j c).sub (hcont n i c)).pow 2
    have hz : ∑ c, (D 0 0 j c - D 0 n i c) ^ 2 = ∑ c, (pos 0 j c - pos n i c) ^ 2 := by
      rw [h0, h0]
    have hne := hi n (List.mem_toFinset.1 hn) i (Finset.mem_range.1 hi') j (Finset.mem_range.1 hj')
    rcases lt_or_gt_of_ne hne with h | h
    · have := hc.continuousAt (x := 0) |>.eventually (eventually_lt_nhds (hz.trans_lt h))
      filter_upwards [this] with t ht
      exact ⟨fun _ => h.le, fun _ => le_of_lt ht⟩
    · have := hc.continuousAt (x := 0) |>.eventually (eventually_gt_nhds (h.trans_eq hz.symm))
      filter_upwards [this] with t ht
      exact ⟨fun h' => absurd h' (not_le.2 ht), fun h' => absurd h' (not_le.2 h)⟩
  filter_upwards [key] with t ht
  exact selectImages_congr fun n hn i hi j hj => ht n (List.mem_toFinset.2 hn) i (Finset.mem_range.2 hi) j
    (Finset.mem_range.2 hj)

theorem images_eventually (hA : Commuting A.ctype) (hb : P.bohr ≠ 0) {a : ℕ} (ha : a < A.atoms.length)
    (v : Vec) (hi : ∀ n ∈ P.scan, ∀ i < A.positions.length, ∀ j < A.positions.length,
      ∑ c, ((P.mat A).pos 0 j c - (P.mat A).pos n i c) ^ 2 ≠ P.cut i j ^ 2) :
    ∀ᶠ t : ℝ in nhds 0, (P.mat (displace A a (P.bohr • v) t)).ntuples = (P.mat A).ntuples := by
  have hN : A.positions.length = A.atoms.length := by simp [Atoms.positions]
  rw [hN] at hi
  filter_upwards [select_eventually A.atoms.length (P.mat A).pos (P.mat A).rot P.cut P.scan a v hi]
    with t ht
  have hpos : (P.mat (displace A a (P.bohr • v) t)).pos = ((P.mat A).displace a (t • v)).pos := by
    funext n j
    rw [displace_modify]
    exact c72_images_follow A hA P.bohr hb P.no P.eps P.seps P.tab P.J P.cut P.scan a ha (t • v) n j
  have e : (P.mat (displace A a (P.bohr • v) t)).ntuples
      = selectImages (displace A a (P.bohr • v) t).atoms.length
        (P.mat (displace A a (P.bohr • v) t)).pos P.cut P.scan := rfl
  rw [e, hpos, displace_natoms]
  exact ht

/-- Near the starting point moving the atom displaces the input of the matrices and of the repulsion. -/
theorem input_eventually (hA : Commuting A.ctype) (hb : P.bohr ≠ 0) {a : ℕ} (ha : a < A.atoms.length)
    (v : Vec) (hi : ∀ n ∈ P.scan, ∀ i < A.positions.length, ∀ j < A.positions.length,
      ∑ c, ((P.mat A).pos 0 j c - (P.mat A).pos n i c) ^ 2 ≠ P.cut i j ^ 2) :
    ∀ᶠ t : ℝ in nhds 0, P.mat (displace A a (P.bohr • v) t) = (P.mat A).displace a (t • v) ∧
      P.geom (displace A a (P.bohr • v) t) = (P.geom A).displace a (t • v) := by
  filter_upwards [images_eventually hA hb ha v hi] with t ht
  have hpos : (P.mat (displace A a (P.bohr • v) t)).pos = ((P.mat A).displace a (t • v)).pos := by
    funext n j
    rw [displace_modify]
    exact c72_images_follow A hA P.bohr hb P.no P.eps P.seps P.tab P.J P.cut P.scan a ha (t • v) n j
  have hsym : (P.mat (displace A a (P.bohr • v) t)).sym = (P.mat A).sym := by
    funext i
    show (((displace A a (P.bohr • v) t).atoms[i]?).map Prod.fst).getD "" = _
    rw [displace_sym]
    rfl
  have hN : (P.mat (displace A a (P.bohr • v) t)).N = (P.mat A).N := displace_natoms _ _ _ _
  constructor
  · have e : ∀ I J : MatIn, I.N = J.N → I.no = J.no → I.eps = J.eps → I.sym = J.sym → I.seps = J.seps →
        I.ntuples = J.ntuples → I.rot = J.rot → I.angles = J.angles → I.pos = J.pos → I.tab = J.tab →
        I.J = J.J → I = J := by
      rintro ⟨⟩ ⟨⟩ h1 h2 h3 h4 h5 h6 h7 h8 h9 h10 h11
      dsimp only at h1 h2 h3 h4 h5 h6 h7 h8 h9 h10 h11
      subst h1 h2 h3 h4 h5 h6 h7 h8 h9 h10 h11
      rfl
    exact e _ _ hN rfl rfl hsym rfl ht rfl rfl hpos rfl rfl
  · have e : ∀ I J : Geom, I.N = J.N → I.sym = J.sym → I.ntuples = J.ntuples → I.rot = J.rot →
        I.pos = J.pos → I = J := by
      rintro ⟨⟩ ⟨⟩ h1 h2 h3 h4 h5
      dsimp only at h1 h2 h3 h4 h5
      subst h1 h2 h3 h4 h5
      rfl
    exact e _ _ hN hsym ht rfl hpos

/-! ### Matrices -/

/-- Derivative of every matrix element. -/
theorem el_hasDerivAt (K : Comp) {I : MatIn} {k : Vec} {st : MatSt} (h : getMatrices I k = .ok st)
    (hid : IdFirst I) (hno : ∀ i < I.N, ValidNo (I.no i)) (hf : OrbitalsFollow I) (h0 : I.rot 0 = 1)
    {σ : Op → Op} (hσ : InversePairs I k σ)
    (hpar : ∀ i < I.N, ParityTable SkTable.h (I.tab (I.sym i) (I.sym i)) ∧
      ParityTable SkTable.s (I.tab (I.sym i) (I.sym i)))
    (hs : ∀ i j, i ≤ j → j < I.N → SmoothPair I i j) (a : ℕ) (c : Fin 3)
    {i j : ℕ} (hi : i < I.N) (hj : j < I.N) {p q : Fin 9} (hp : p.val < I.no i) (hq : q.val < I.no j) :
    HasDerivAt (fun t : ℝ => elOf K (I.displace a (t • Pi.single c 1)) k i j p q)
      ((if i = a then K.getD st c i j p q else 0)
        + (if j = a then starRingEnd ℂ (K.getD st c j i q p) else 0)) 0 := by
  have hmm : ∀ {i j : ℕ}, i < I.N → j < I.N → SmoothPair I (min i j) (max i j) := by
    intro i j hi hj
    exact hs _ _ (min_le_max) (max_lt hi hj)
  by_cases hij : i = j
  · subst hij
    by_cases ha : i = a
    · subst ha
      have := c72_self h hid hno hf h0 hσ hi (hpar i hi) (hs i i (le_refl i) hi) hp hq c
      simp only [if_true]
      cases K
      · exact this.1
      · exact this.2
    · obtain ⟨l, hl, -, -⟩ := getMatrices_ok h
      have := (upper_hasDerivAt K h hid hno hf hl a (Pi.single c 1) (le_refl i) hi
        (hs i i (le_refl i) hi) hp hq).1
      rw [blockVel_other _ ha ha] at this
      simpa [ha] using this
  · by_cases ha : i = a
    · subst ha
      have := c72_pair h hid hno hf h0 hij hi hj (hmm hi hj) hp hq c
      simp only [if_true, if_neg (Ne.symm hij), add_zero]
      cases K
      · exact this.1
      · exact this.2.1
    · by_cases hb : j = a
      · subst hb
        have h1 : HasDerivAt (fun t : ℝ => elOf K (I.displace j (t • Pi.single c 1)) k j i q p)
            (K.getD st c j i q p) 0 := by
          have := c72_pair h hid hno hf h0 (Ne.symm hij) hj hi (hmm hj hi) hq hp c
          cases K
          · exact this.1
          · exact this.2.1
        simp only [if_true, if_neg hij, zero_add]
        refine (HasDerivAt.star h1).congr_of_eventuallyEq ?_
        obtain ⟨l, hl, -, -⟩ := getMatrices_ok h
        rcases lt_or_gt_of_ne hij with hlt | hgt
        · have h2 := (upper_hasDerivAt K h hid hno hf hl j (Pi.single c 1) hlt.le hj
            (hs _ _ hlt.le hj) hp hq).2
          filter_upwards [h2] with t ht
          rw [ht hij]
          simp
        · have h2 := (upper_hasDerivAt K h hid hno hf hl j (Pi.single c 1) hgt.le hi
            (hs _ _ hgt.le hi) hq hp).2
          filter_upwards [h2] with t ht
          exact ht (Ne.symm hij)
      · have := (c72_pair h hid hno hf h0 hij hi hj (hmm hi hj) hp hq c).2.2 a (Ne.symm ha) (Ne.symm hb)
        simp only [if_neg ha, if_neg hb, add_zero]
        cases K
        · exact this.1
        · exact this.2

/-! ### Orbitals of an atom -/

section Orbitals

variable {elements : String → Option ElementData} {symbols : List String} {t : OrbTables}

theorem orb_at (h : orbInit elements symbols = .ok t) (x : Fin t.norb) :
    ∃ o n, t.blocks[t.atomAt x]? = some (o, n) ∧ o ≤ x.val ∧ x.val < o + n ∧
      (∀ b o' n', t.blocks[b]? = some (o', n') → o' ≤ x.val → x.val < o' + n' → b = t.atomAt x) ∧
      t.atomOf x = .ok (t.atomAt x) ∧ (t.orb[x.val]?.elim 0 OrbRec.atomindex) = x.val - o := by
  obtain ⟨a, o, n, h1, h2, h3, h4, h5, r, h6, h7, -, -, h8, -⟩ := (c23_orbital elements symbols t h x).1 x.2
  have hr : t.orb[x.val]? = some r := by
    unfold OrbTables.basis at h6
    cases hx : t.orb[x.val]? with
    | none => rw [hx] at h6; cases h6
    | some r' => rw [hx] at h6; cases h6; rfl
  have ha : t.atomAt x = a := by
    unfold OrbTables.atomAt
    rw [hr]; exact h7
  rw [ha, hr]
  exact ⟨o, n, h1, h2, h3, h4, h5, h8⟩

theorem atomAt_lt (h : orbInit elements symbols = .ok t) (x : Fin t.norb) :
    t.atomAt x < symbols.length := by
  obtain ⟨o, n, h1, -⟩ := orb_at h x
  rw [← blocks_length elements symbols t h]
  exact (List.getElem?_eq_some_iff.1 h1).1

theorem sliceSum_interval {M : Type} [AddCommMonoid M] {n : ℕ} (v : Fin n → M) (o m : ℕ) (hm : o + m ≤ n) :
    sliceSum v (o, m) = ∑ x : Fin n, if o ≤ x.val ∧ x.val < o + m then v x else 0 := by
  classical
  have e1 : sliceSum v (o, m) = ((List.range m).map fun i => (List.ofFn v).getD (o + i) 0).sum := by
    unfold sliceSum
    congr 1
    apply List.ext_getElem?
    intro i
    rw [List.getElem?_take, List.getElem?_drop, List.getElem?_map]
    by_cases hi : i < m
    · have h2 : o + i < (List.ofFn v).length := by simp; omega
      rw [if_pos hi, List.getElem?_range hi, Option.map_some, List.getD_eq_getElem?_getD,
        List.getElem?_eq_getElem h2, Option.getD_some]
    · rw [if_neg hi, List.getElem?_eq_none (by simp; omega)]; rfl
  have e2 : ∀ x : Fin n, v x = (List.ofFn v).getD x.val 0 := by
    intro x
    simp [List.getD_eq_getElem?_getD]
  have e4 : (∑ x : Fin n, if o ≤ x.val ∧ x.val < o + m then v x else 0)
      = ∑ x : Fin n, if o ≤ x.val ∧ x.val < o + m then (List.ofFn v).getD x.val 0 else 0 :=
    Finset.sum_congr rfl fun x _ => by rw [e2 x]
  rw [e1, list_range_sum, e4,
    ← Finset.sum_range (f := fun y => if o ≤ y ∧ y < o + m then (List.ofFn v).getD y 0 else 0),
    ← Finset.sum_filter]
  have e3 : (Finset.range n).filter (fun y => o ≤ y ∧ y < o + m) = Finset.Ico o (o + m) := by
    ext y
    simp only [Finset.mem_filter, Finset.mem_range, Finset.mem_Ico]
    omega
  rw [e3, Finset.sum_Ico_eq_sum_range, Nat.add_sub_cancel_left]

theorem block_end_le (h : orbInit elements symbols = .ok t) {a o n : ℕ} (hab : t.blocks[a]? = some (o, n)) :
    o + n ≤ t.norb := by
  obtain ⟨atoms, inv, -, hf⟩ := orbInit_inv _ _ _ h
  unfold OrbTables.blocks at hab
  rw [List.getElem?_zip_eq_some] at hab
  have hlt := (List.getElem?_eq_some_iff.1 hab.1).1
  have := inv.first a (by rw [← inv.flen]; exact hlt)
  rw [hab.1] at this
  have e : o = blockStart t.nrOrbitals a := by simpa using this
  rw [inv.norb, e, ← blockStart_succ _ _ _ hab.2]
  unfold blockStart
  exact (List.take_sublist _ _).sum_le_sum (fun _ _ => Nat.zero_le _)

/-- The sum over the block of atom `a`. -/
theorem block_sum_atom (h : orbInit elements symbols = .ok t) {M : Type} [AddCommMonoid M]
    (v : Fin t.norb → M) (a : ℕ) (b : ℕ × ℕ) (hab : t.blocks[a]? = some b) :
    sliceSum v b = ∑ x : Fin t.norb, if t.atomAt x = a then v x else 0 := by
  obtain ⟨o, n⟩ := b
  rw [sliceSum_interval v o n (block_end_le h hab)]
  refine Finset.sum_congr rfl fun x _ => ?_
  obtain ⟨o', n', h1, h2, h3, h4, -⟩ := orb_at h x
  refine if_congr ⟨fun hx => (h4 a o n hab hx.1 hx.2).symm, fun hx => ?_⟩ rfl rfl
  rw [hx, hab] at h1
  cases h1
  exact ⟨h2, h3⟩

end Orbitals

/-! ### Electrostatics -/

section Coulomb

variable (cd : ChargeDensity) (bohr : ℝ) (U w : ℕ → ℝ) (cut : Option ℝ)

/-- The matrix of `get_gamma()`. -/
noncomputable def gam (A : Atoms) (i j : ℕ) : ℝ :=
  corrMatrix cd bohr U w (nbList A cut) i j + gammaEntry cut (nbList A cut) i j * bohr

variable {cd bohr U w cut}

theorem epsilon_gam {A : Atoms} {q : List ℝ} {G : ℕ → ℕ → ℝ} {dG : ℕ → ℕ → Vec} {s : DC}
    {phi : List ℝ} (h : EsState cd bohr U w cut A q G dG s) (hphi : dcPotential s = .ok phi) {i : ℕ}
    (hi : i < A.positions.length) :
    epsilonOf A.positions.length G bohr (fun i => phi.getD i 0) (chg q) i
      = ∑ j ∈ Finset.range A.positions.length, gam cd bohr U w cut A i j * chg q j := by
  obtain ⟨rfl, -, hf, -⟩ := esState_eq _ _ _ _ _ _ _ _ _ _ h
  obtain ⟨-, rfl⟩ := fresh_eq _ _ _ _ hf
  simp only [dcPotential, Except.ok.injEq] at hphi
  subst hphi
  have e1 : ((List.range A.positions.length).map fun i =>
      (((nbList A cut).filter fun e => e.i == i).map fun e => chg q e.j * coulPot cut e.d).sum).getD i 0
      = (((nbList A cut).filter fun e => e.i == i).map fun e => chg q e.j * coulPot cut e.d).sum := by
    simp [List.getD_eq_getElem?_getD, hi]
  unfold epsilonOf gam
  dsimp only
  rw [e1, ← sum_filter_range2 A.positions.length (nbList A cut) _ i
    fun e he => (nbList_i A cut e he).2, Finset.sum_mul, ← Finset.sum_add_distrib]
  refine Finset.sum_congr rfl fun j _ => ?_
  rw [add_mul]
  congr 1
  unfold gammaEntry
  rw [mul_right_comm]
  congr 1
  rw [mul_comm, ← list_sum_mul]
  congr 1
  refine List.map_congr_left fun e he => ?_
  have := (List.mem_filter.1 he).2
  simp only [Bool.and_eq_true, beq_iff_eq] at this
  rw [this.2]

theorem esEnergy_gam {A : Atoms} {q : List ℝ} {e : ℝ} (h : EsEnergy cd bohr U w cut A q e) :
    e = (∑ i ∈ Finset.range A.positions.length, ∑ j ∈ Finset.range A.positions.length,
      chg q i * gam cd bohr U w cut A i j * chg q j) / 2 := by
  obtain ⟨G, dG, s, phi, hs, hphi, rfl⟩ := h
  rw [coulombEnergy, if_pos rfl, Finset.sum_congr rfl fun i hi => by
    rw [epsilon_gam hs hphi (Finset.mem_range.1 hi), Finset.mul_sum]]
  rw [Finset.sum_congr rfl fun i _ => Finset.sum_congr rfl fun j _ => (mul_assoc _ _ _).symm]
  ring

theorem gam_symm (A : Atoms) (hA : InversionClosed A) (hc : cut.isSome ∨ A.isCluster = true) (i j : ℕ) :
    gam cd bohr U w cut A i j = gam cd bohr U w cut A j i := by
  obtain ⟨s, hs⟩ := esState_exists cd bohr U w cut A [] hc
  have hf := (esState_eq _ _ _ _ _ _ _ _ _ _ hs).2.2.1
  by_cases he : (nbList A cut).isEmpty = true
  · have : nbList A cut = [] := by simpa using he
    unfold gam corrMatrix gammaEntry
    rw [this]
    by_cases hij : i = j
    · subst hij; rfl
    · simp [hij, Ne.symm hij]
  · have hg : esGamma (corrMatrix cd bohr U w (nbList A cut)) bohr s = .ok (gam cd bohr U w cut A) := by
      obtain ⟨-, rfl⟩ := fresh_eq _ _ _ _ hf
      unfold esGamma dcGamma
      dsimp only
      rw [getNeighbors_eq A cut hc, if_neg he]
      rfl
    exact (c28_energy cd bohr U w cut A hA [] _ _ s hs _ hg).1 i j

/-- The charges that are one on atom `i` and on atom `j`. -/
def unitCharges (N i j : ℕ) : List ℝ := (List.range N).map fun k => if k = i ∨ k = j then 1 else 0

theorem chg_unit {N i j k : ℕ} (hk : k < N) : chg (unitCharges N i j) k = if k = i ∨ k = j then 1 else 0 := by
  simp [chg, unitCharges, List.getD_eq_getElem?_getD, hk]

theorem unit_quad {N i j : ℕ} (hi : i < N) (hj : j < N) (γ : ℕ → ℕ → ℝ) :
    (∑ k ∈ Finset.range N, ∑ l ∈ Finset.range N,
      chg (unitCharges N i j) k * γ k l * chg (unitCharges N i j) l)
      = if i = j then γ i i else γ i i + γ i j + (γ j i + γ j j) := by
  have h1 : ∀ (f : ℕ → ℝ), ∑ k ∈ Finset.range N, chg (unitCharges N i j) k * f k
      = if i = j then f i else f i + f j := by
    intro f
    by_cases hij : i = j
    · rw [if_pos hij, Finset.sum_eq_single i]
      · rw [chg_unit hi]; simp
      · intro k hk hki
        rw [chg_unit (Finset.mem_range.1 hk)]
        simp [hki, ← hij]
      · intro h; exact absurd (Finset.mem_range.2 hi) h
    · rw [if_neg hij]
      have : ∀ k ∈ Finset.range N, chg (unitCharges N i j) k * f k
          = (if k = i then f i else 0) + (if k = j then f j else 0) := by
        intro k hk
        rw [chg_unit (Finset.mem_range.1 hk)]
        by_cases h1 : k = i
        · subst h1; simp [hij]
        · by_cases h2 : k = j
          · subst h2; simp [Ne.symm hij]
          · simp [h1, h2]
      rw [Finset.sum_congr rfl this, Finset.sum_add_distrib]
      simp [Finset.sum_ite_eq', hi, hj]
  have h2 : ∀ k ∈ Finset.range N, (∑ l ∈ Finset.range N,
      chg (unitCharges N i j) k * γ k l * chg (unitCharges N i j) l)
      = chg (unitCharges N i j) k * if i = j then γ k i else γ k i + γ k j := by
    intro k _
    rw [← h1, Finset.mul_sum]
    exact Finset.sum_congr rfl fun l _ => by ring
  rw [Finset.sum_congr rfl h2, h1]
  by_cases hij : i = j
  · simp [hij]
  · simp [hij]

theorem energy_differentiable (hb : 0 < bohr) (hcut : ∀ c, cut = some c → c ≠ 0) (A : Atoms)
    (hA : InversionClosed A) (hc : cut.isSome ∨ A.isCluster = true) (hreg : RegularPairs A cut)
    (q : List ℝ) {a : ℕ} (ha : a < A.positions.length) (v : Vec) :
    DifferentiableAt ℝ (fun t => (∑ i ∈ Finset.range A.positions.length,
      ∑ j ∈ Finset.range A.positions.length, chg q i *
        gam cd bohr U w cut (displace A a (bohr • v) t) i j * chg q j) / 2) 0 := by
  obtain ⟨s, hs⟩ := esState_exists cd bohr U w cut A q hc
  have hf := (esState_eq _ _ _ _ _ _ _ _ _ _ hs).2.2.1
  obtain ⟨-, e⟩ := fresh_eq _ _ _ _ hf
  obtain ⟨E, h1, h2⟩ := c28_force_gradient cd bohr hb U w cut hcut A hA hreg q _
    ⟨_, _, s, _, hs, by rw [e]; rfl, rfl⟩ a ha v
  have e2 : E = fun t => (∑ i ∈ Finset.range A.positions.length,
      ∑ j ∈ Finset.range A.positions.length, chg q i *
        gam cd bohr U w cut (displace A a (bohr • v) t) i j * chg q j) / 2 := by
    funext t
    rw [esEnergy_gam (h1 t), displace_length]
  rw [← e2]
  exact h2.differentiableAt

theorem gam_differentiable (hb : 0 < bohr) (hcut : ∀ c, cut = some c → c ≠ 0) (A : Atoms)
    (hA : InversionClosed A) (hc : cut.isSome ∨ A.isCluster = true) (hreg : RegularPairs A cut)
    {a : ℕ} (ha : a < A.positions.length) (v : Vec) {i j : ℕ} (hi : i < A.positions.length)
    (hj : j < A.positions.length) :
    DifferentiableAt ℝ (fun t => gam cd bohr U w cut (displace A a (bohr • v) t) i j) 0 := by
  set N := A.positions.length with hN
  have hD : ∀ q : List ℝ, DifferentiableAt ℝ (fun t => (∑ i ∈ Finset.range N,
      ∑ j ∈ Finset.range N, chg q i *
        gam cd bohr U w cut (displace A a (bohr • v) t) i j * chg q j) / 2) 0 :=
    fun q => energy_differentiable hb hcut A hA hc hreg q ha v
  have hd : ∀ i < N, DifferentiableAt ℝ (fun t => gam cd bohr U w cut (displace A a (bohr • v) t) i i) 0 := by
    intro i hi
    have := (hD (unitCharges N i i)).const_mul 2
    simp only [unit_quad hi hi, if_true] at this
    refine this.congr_of_eventuallyEq (Filter.Eventually.of_forall fun t => ?_)
    dsimp only
    ring
  by_cases hij : i = j
  · subst hij; exact hd i hi
  · have h1 := ((hD (unitCharges N i j)).sub ((hd i hi).const_mul (1 / 2))).sub ((hd j hj).const_mul (1 / 2))
    simp only [unit_quad hi hj, if_neg hij] at h1
    refine h1.congr_of_eventuallyEq (Filter.Eventually.of_forall fun t => ?_)
    have hs := gam_symm (cd := cd) (bohr := bohr) (U := U) (w := w) (cut := cut)
      (displace A a (bohr • v) t) (displace_inversion A a _ t hA) hc i j
    simp only [Pi.sub_apply]
    rw [hs]
    ring

end Coulomb

/-! ### Hermitian matrices along the path -/

theorem displace_inversePairs {I : MatIn} {k : Vec} {σ : Op → Op} (h : InversePairs I k σ)
    (h0 : I.rot 0 = 1) (a : ℕ) (v : Vec) : InversePairs (I.displace a v) k σ where
  nodup := h.nodup
  mem := h.mem
  invol := h.invol
  zero := h.zero
  orth := h.orth
  rot := h.rot
  phase := h.phase
  pos := by
    intro n hn i hi
    have h1 := h.pos n hn i hi
    have h2 := h.rot n hn
    have h3 := h.orth n hn
    have e : ∀ m, (I.displace a v).rij m i i = I.rij m i i
        + (if i = a then (I.rot m).mulVec v - v else 0) := by
      intro m
      unfold MatIn.rij MatIn.displace
      dsimp only
      by_cases hia : i = a
      · simp only [hia, if_true, h0, Matrix.one_mulVec]; abel
      · simp only [hia, if_false, add_zero]
    rw [e, e, h1]
    show _ = -((I.rot n)ᵀ *ᵥ _)
    by_cases hia : i = a
    · simp only [hia, if_true] at h1 ⊢
      rw [h2, Matrix.mulVec_add, Matrix.mulVec_sub, Matrix.mulVec_mulVec, h3,
        Matrix.one_mulVec]
      abel
    · simp only [hia, if_false, add_zero]

section Flat

variable {elements : String → Option ElementData}

theorem Fits.numAt (h : Fits P A elements) (x : Fin P.t.norb) :
    P.t.atomAt x < A.positions.length ∧ (P.t.numAt x).val < P.no (P.t.atomAt x) ∧
      ValidNo (P.no (P.t.atomAt x)) := by
  have hlt := atomAt_lt h.orbitals x
  have hN : A.symbols.length = A.positions.length := by simp [Atoms.symbols, Atoms.positions]
  rw [hN] at hlt
  obtain ⟨o, n, h1, h2, h3, -, -, h6⟩ := orb_at h.orbitals x
  obtain ⟨h7, h8⟩ := h.numbers _ hlt
  unfold OrbTables.blocks at h1
  rw [List.getElem?_zip_eq_some] at h1
  rw [h7] at h1
  have hn : P.no (P.t.atomAt x) = n := by simpa using h1.2
  refine ⟨hlt, ?_, h8⟩
  unfold OrbTables.numAt
  rw [h6]
  have hv : n ≤ 9 := by
    rcases h8 with h8 | h8 | h8 <;> omega
  simp only [Fin.ofNat]
  rw [Nat.mod_eq_of_lt (by omega)]
  omega

theorem flatten_hermitian {I : MatIn} {k : Vec} {st : MatSt} (h : getMatrices I k = .ok st) (hid : IdFirst I)
    (hf : OrbitalsFollow I) {σ : Op → Op} (hσ : InversePairs I k σ)
    (hpar : ∀ i < I.N, ParityTable SkTable.h (I.tab (I.sym i) (I.sym i)) ∧
      ParityTable SkTable.s (I.tab (I.sym i) (I.sym i))) {t : OrbTables}
    (ht : ∀ x : Fin t.norb, t.atomAt x < I.N ∧ (t.numAt x).val < I.no (t.atomAt x)) :
    (t.flat st.H0).IsHermitian ∧ (t.flat st.S).IsHermitian := by
  constructor
  · ext x y
    rw [Matrix.conjTranspose_apply]
    exact (c29_hermitian h hid hf hσ hpar (ht y).1 (ht x).1 (ht y).2 (ht x).2).1.symm
  · ext x y
    rw [Matrix.conjTranspose_apply]
    exact (c29_hermitian h hid hf hσ hpar (ht y).1 (ht x).1 (ht y).2 (ht x).2).2.symm

end Flat

/-! ### Occupations -/

theorem fermi_differentiable {width : ℝ} {m e : ℝ → ℝ} (hm : DifferentiableAt ℝ m 0)
    (he : DifferentiableAt ℝ e 0) (hne : (e 0 - m 0) / width ≠ maxExpArg) :
    DifferentiableAt ℝ (fun t => fermi width (m t) (e t)) 0 := by
  have hx : DifferentiableAt ℝ (fun t => (e t - m t) / width) 0 := (he.sub hm).div_const _
  rcases lt_or_gt_of_ne hne with h | h
  · have h1 : DifferentiableAt ℝ (fun t => 2 / (Real.exp ((e t - m t) / width) + 1)) 0 := by
      refine DifferentiableAt.div (differentiableAt_const _) (hx.exp.add_const _) ?_
      positivity
    refine h1.congr_of_eventuallyEq ?_
    filter_upwards [hx.continuousAt.eventually (eventually_lt_nhds h)] with t ht
    exact if_pos ht
  · refine (differentiableAt_const (0 : ℝ)).congr_of_eventuallyEq ?_
    filter_upwards [hx.continuousAt.eventually (eventually_gt_nhds h)] with t ht
    exact if_neg (not_lt.2 (le_of_lt ht))

/-- Twice the derivative of the entropy of a level. -/
theorem entropy_hasDerivAt {width : ℝ} (hw : width ≠ 0) {m e : ℝ → ℝ} (hm : DifferentiableAt ℝ m 0)
    (he : DifferentiableAt ℝ e 0) (hne : (e 0 - m 0) / width ≠ maxExpArg) :
    HasDerivAt (fun t => width * (2 * Real.binEntropy (fermi width (m t) (e t) / 2)))
      (deriv (fun t => fermi width (m t) (e t)) 0 * (e 0 - m 0)) 0 := by
  have hd := (fermi_differentiable hm he hne).hasDerivAt
  have hx : DifferentiableAt ℝ (fun t => (e t - m t) / width) 0 := (he.sub hm).div_const _
  rcases lt_or_gt_of_ne hne with h | h
  · have hE : 0 < Real.exp ((e 0 - m 0) / width) := Real.exp_pos _
    have hp : fermi width (m 0) (e 0) / 2 = 1 / (Real.exp ((e 0 - m 0) / width) + 1) := by
      unfold fermi
      rw [if_pos h]
      field_simp
    have hp0 : fermi width (m 0) (e 0) / 2 ≠ 0 := by rw [hp]; positivity
    have hp1 : fermi width (m 0) (e 0) / 2 ≠ 1 := by
      rw [hp]
      intro h1
      rw [div_eq_one_iff_eq (by positivity)] at h1
      linarith
    have h1 := (Real.hasDerivAt_binEntropy hp0 hp1).comp (0 : ℝ) (hd.div_const 2)
    have h2 := (h1.const_mul 2).const_mul width
    refine h2.congr_deriv ?_
    have e1 : Real.log (1 - fermi width (m 0) (e 0) / 2) - Real.log (fermi width (m 0) (e 0) / 2)
        = (e 0 - m 0) / width := by
      rw [hp]
      have : 1 - 1 / (Real.exp ((e 0 - m 0) / width) + 1)
          = Real.exp ((e 0 - m 0) / width) * (1 / (Real.exp ((e 0 - m 0) / width) + 1)) := by
        field_simp
        ring
      rw [this, Real.log_mul hE.ne' (by positivity), Real.log_exp]
      ring
    rw [e1]
    field_simp
  · have hz : (fun t => fermi width (m t) (e t)) =ᶠ[nhds 0] fun _ => 0 := by
      filter_upwards [hx.continuousAt.eventually (eventually_gt_nhds h)] with t ht
      exact if_neg (not_lt.2 (le_of_lt ht))
    rw [hz.deriv_eq, deriv_const, zero_mul]
    refine (hasDerivAt_const (0 : ℝ) (0 : ℝ)).congr_of_eventuallyEq ?_
    filter_upwards [hz] with t ht
    rw [ht]
    simp

/-- The sum over the states of a function of the energy does not depend on the choice of states. -/
theorem sum_states_unique {n : ℕ} {H S c d : CMat n} {e e' : Fin n → ℝ} (hH : H.IsHermitian)
    (hS : S.IsHermitian) (h : Solutions H S e c) (h' : Solutions H S e' d) (g : ℝ → ℝ) :
    ∑ a, g (e a) = ∑ a, g (e' a) := by
  have h1 := sum_rho c S fun a => g (e a)
  have h2 := sum_rho d S fun a => g (e' a)
  rw [rho_unique hH hS h h' g] at h1
  have e1 : ∀ (c : CMat n) (e : Fin n → ℝ), Solutions H S e c → ∀ a, sesq S (c a) (c a) = 1 := by
    intro c e h a
    have := h.orthonormal a a
    rw [if_pos rfl] at this
    exact this
  simp only [e1 c e h, e1 d e' h', mul_one] at h1 h2
  have := h1.symm.trans h2
  exact_mod_cast this

end Hotbit
