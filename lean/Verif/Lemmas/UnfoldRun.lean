import Verif.Lemmas.UnfoldScf

/-!
# The converged calculation of a repeated structure
-/

set_option linter.unusedSimpArgs false

namespace Hotbit

open Matrix

open Classical in
/-- The atom whose copy has number `x`. -/
noncomputable def origin (M N : ℕ) (ix : ℕ → ℕ → ℕ) (x : ℕ) : ℕ :=
  if h : ∃ i < N, ∃ u < M, ix u i = x then h.choose else 0

theorem Copies.origin {M N : ℕ} {ix : ℕ → ℕ → ℕ} (C : Copies M N ix) {u i : ℕ} (hu : u < M) (hi : i < N) :
    origin M N ix (ix u i) = i := by
  have h : ∃ j < N, ∃ v < M, ix v j = ix u i := ⟨i, hi, u, hu, rfl⟩
  unfold Hotbit.origin
  rw [dif_pos h]
  obtain ⟨h1, v, hv, h2⟩ := h.choose_spec
  exact (C.inj v hv _ h1 u hu i hi h2).2

/-- The charges of the copies. -/
noncomputable def copyList (M N : ℕ) (ix : ℕ → ℕ → ℕ) (q : List ℝ) : List ℝ :=
  (List.range (M * N)).map fun x => q.getD (origin M N ix x) 0

theorem copyList_get {M N u i : ℕ} {ix : ℕ → ℕ → ℕ} (C : Copies M N ix) (hu : u < M) (hi : i < N) (q : List ℝ) :
    chg (copyList M N ix q) (ix u i) = chg q i := by
  have hx := C.lt u hu i hi
  unfold chg copyList
  rw [List.getD_eq_getElem?_getD, List.getElem?_eq_getElem (by simpa using hx), Option.getD_some,
    List.getElem_map, List.getElem_range, C.origin hu hi]

theorem atomOf_at {P : ScfIn} {A : Atoms} {elements : String → Option ElementData} (hfit : Fits P A elements)
    (x : Fin P.t.norb) : P.t.atomOf x = .ok (P.t.atomAt x) := by
  obtain ⟨o, n, -, -, -, -, h, -⟩ := orb_at hfit.orbitals x
  exact h

theorem h1_value {P : ScfIn} {A : Atoms} {elements : String → Option ElementData} (hfit : Fits P A elements)
    (eps : ℕ → ℝ) (x y : Fin P.t.norb) :
    constructH1 P.t A.positions.length eps (fun _ => 0) x y
      = (eps (P.t.atomAt x) + eps (P.t.atomAt y)) / 2 := by
  have hN : A.symbols.length = A.positions.length := by simp [Atoms.symbols, Atoms.positions]
  rw [← hN]
  exact (c28_element elements A.symbols P.t hfit.orbitals eps (fun _ => 0) x y _ _ (atomOf_at hfit x)
    (atomOf_at hfit y)).2 (by intro i _; norm_num)

theorem matN (P : ScfIn) (A : Atoms) : (P.mat A).N = A.positions.length := by
  simp [ScfIn.mat, MatIn.ofAtoms, Atoms.positions]

/-- The populations of an atom. -/
theorem sliceSum_trace {P : ScfIn} {A : Atoms} {elements : String → Option ElementData}
    (hfit : Fits P A elements) (rho S : Fin P.nk → CMat P.t.norb) {a : ℕ} (b : ℕ × ℕ)
    (ha : P.t.blocks[a]? = some b) :
    sliceSum (mullikenDiag P.wk rho S) b
      = ∑ k, P.wk k * (∑ x : Fin P.t.norb, if P.t.atomAt x = a then (rho k * S k) x x else 0).re := by
  rw [block_sum_atom hfit.orbitals _ a b ha]
  have : ∀ k, P.wk k * (∑ x : Fin P.t.norb, if P.t.atomAt x = a then (rho k * S k) x x else 0).re
      = ∑ x : Fin P.t.norb, if P.t.atomAt x = a then P.wk k * ((rho k * S k) x x).re else 0 := by
    intro k
    rw [Complex.re_sum, Finset.mul_sum]
    refine Finset.sum_congr rfl fun x _ => ?_
    split <;> simp
  rw [Finset.sum_congr rfl fun k _ => this k, Finset.sum_comm]
  refine Finset.sum_congr rfl fun x _ => ?_
  unfold mullikenDiag
  simp only [rowDot_eq]
  split
  · rfl
  · simp

theorem mulliken_list {n nk : ℕ} {wk : Fin nk → ℝ} {rho S : Fin nk → CMat n} {blocks : List (ℕ × ℕ)}
    {val : List ℝ} {charge tol : ℝ} {dq : List ℝ} (h : mulliken wk rho S blocks val charge tol = .ok dq) :
    dq = List.zipWith (· - ·) (blocks.map (sliceSum (mullikenDiag wk rho S))) val := by
  unfold mulliken at h
  dsimp only at h
  split at h
  · cases h
  · cases h; rfl

theorem MutualTables.parity {tab : String → String → SkTable} (h : MutualTables tab) (a : String) :
    ParityTable SkTable.h (tab a a) ∧ ParityTable SkTable.s (tab a a) :=
  ⟨fun d la hla lb hlb m hm => h.h a a d la hla lb hlb m hm,
   fun d la hla lb hlb m hm => h.s a a d la hla lb hlb m hm⟩

section Main

variable {P P' : ScfIn} {A B : Atoms} {M : ℕ} {elements elements' : String → Option ElementData}

theorem Enlarged.length (E : Enlarged P P' A B M) : B.positions.length = M * A.positions.length := by
  have := E.geom.N
  simpa [ScfIn.geom, Geom.ofAtoms, Atoms.positions] using this

theorem Enlarged.copies (E : Enlarged P P' A B M) : Copies M A.positions.length E.ix := by
  have := E.geom.copies
  have e : (P.geom A).N = A.positions.length := by simp [ScfIn.geom, Geom.ofAtoms, Atoms.positions]
  rwa [e] at this

theorem Enlarged.orth (E : Enlarged P P' A B M) {u i : ℕ} (hu : u < M) (hi : i < A.positions.length) :
    (E.R u i)ᵀ * E.R u i = 1 := by
  have e : (P.geom A).N = A.positions.length := by simp [ScfIn.geom, Geom.ofAtoms, Atoms.positions]
  exact E.geom.orth u hu i (by rw [e]; exact hi)

/-- The potential at the copies is the potential at the atom. -/
theorem Enlarged.epsilon (E : Enlarged P P' A B M) (hs : P.scc = true) {q : List ℝ} {G G' : ℕ → ℕ → ℝ}
    {dG dG' : ℕ → ℕ → Vec} {s s' : DC} {phi phi' : List ℝ}
    (h : EsState P.cd P.bohr P.U P.w P.gcut A q G dG s) (hphi : dcPotential s = .ok phi)
    (h' : EsState P'.cd P'.bohr P'.U P'.w P'.gcut B (copyList M A.positions.length E.ix q) G' dG' s')
    (hphi' : dcPotential s' = .ok phi') {u i : ℕ} (hu : u < M) (hi : i < A.positions.length) :
    epsilonOf B.positions.length G' P'.bohr (fun i => phi'.getD i 0) (chg (copyList M A.positions.length E.ix q))
        (E.ix u i)
      = epsilonOf A.positions.length G P.bohr (fun i => phi.getD i 0) (chg q) i := by
  obtain ⟨hR, hl, hn, -⟩ := E.coul hs
  rw [epsilon_gam h hphi hi, epsilon_gam h' hphi' (by rw [E.length]; exact E.copies.lt u hu i hi), E.length,
    E.copies.sum, Finset.sum_comm]
  refine Finset.sum_congr rfl fun j hj => ?_
  rw [Finset.mem_range] at hj
  rw [← gam_unfold hR E.commA E.commB hl hn P.cd P.bohr (fun u hu i hi => (E.hubbard u hu i hi).1)
    (fun u hu i hi => (E.hubbard u hu i hi).2.1) hu hi hj, Finset.sum_mul]
  refine Finset.sum_congr rfl fun v hv => ?_
  rw [copyList_get E.copies (Finset.mem_range.1 hv) hj, E.units.1, E.same.2.2.1, E.same.2.2.2.1]

/-- The orbitals of copy `u`, turned and multiplied by the phases. -/
noncomputable def Enlarged.rep (E : Enlarged P P' A B M) (k : Fin P'.nk) (c : Fin M) (u : ℕ) : CMat P.t.norb :=
  atomRep (fun x : Fin P.t.norb => P.t.atomAt x) (fun x => P.t.numAt x) (E.R u) (E.φ k c u)

/-- Bloch waves. -/
noncomputable def Enlarged.wave (E : Enlarged P P' A B M) (g : Fin M × Fin P.t.norb ≃ Fin P'.t.norb)
    (k : Fin P'.nk) (c : Fin M) : Matrix (Fin P'.t.norb) (Fin P.t.norb) ℂ :=
  blochMap g fun u => E.rep k c u

/-- The pairing of orbitals. -/
def CopyOrbitals (P P' : ScfIn) (ix : ℕ → ℕ → ℕ) (g : Fin M × Fin P.t.norb ≃ Fin P'.t.norb) : Prop :=
  ∀ (u : Fin M) x, P'.t.atomAt (g (u, x)) = ix u (P.t.atomAt x) ∧
    P'.t.numAt (g (u, x)) = P.t.numAt x

theorem Enlarged.orbitals (E : Enlarged P P' A B M) (hA : Fits P A elements) (hB : Fits P' B elements') :
    ∃ g : Fin M × Fin P.t.norb ≃ Fin P'.t.norb, CopyOrbitals P P' E.ix g := by
  have hl := hB.lay
  rw [E.length] at hl
  refine orb_equiv E.copies hA.lay hl fun u hu i hi => ?_
  exact E.orbs.no u hu i (by rw [matN]; exact hi)

theorem Enlarged.act (E : Enlarged P P' A B M) (hA : Fits P A elements)
    {g : Fin M × Fin P.t.norb ≃ Fin P'.t.norb} (hg : CopyOrbitals P P' E.ix g) {k : Fin P'.nk} {c : Fin M}
    {st st' : MatSt} (h : getMatrices (P.mat A) (P.kpt (E.kf (k, c))) = .ok st)
    (h' : getMatrices (P'.mat B) (P'.kpt k) = .ok st') (K : Comp) (hh : ℕ → ℕ → ℂ) (X : CMat P.t.norb)
    (hX : ∀ x y, X x y = hh (P.t.atomAt x) (P.t.atomAt y) * P.t.flat (K.get st) x y) (X' : CMat P'.t.norb)
    (hX' : ∀ u x v y, X' (g (u, x)) (g (v, y)) = hh (P.t.atomAt x) (P.t.atomAt y) *
      P'.t.flat (K.get st') (g (u, x)) (g (v, y))) :
    X' * E.wave g k c = E.wave g k c * X := by
  have hl := hA.lay
  rw [← matN P A] at hl
  exact flat_unfold (I := P.mat A) (J := P'.mat B) (atom' := fun x : Fin P'.t.norb => P'.t.atomAt x)
    (num' := fun x => P'.t.numAt x) E.geom E.orbs
    (fun i hi j hj => (E.reach i (by rwa [matN] at hi) j (by rwa [matN] at hj)).1)
    (fun u hu v hv n hn i hi j hj => (E.fold k).phase c u hu v hv n hn i (by rwa [matN] at hi) j (by rwa [matN] at hj))
    (E.goodA _) (E.goodB k) h h' K hl g (fun u x => hg u x) hh X hX X' hX'

theorem Enlarged.wave_orth (E : Enlarged P P' A B M) (hA : Fits P A elements)
    (g : Fin M × Fin P.t.norb ≃ Fin P'.t.norb) (k : Fin P'.nk) (c d : Fin M) :
    (E.wave g k c)ᴴ * E.wave g k d = (if c = d then (M : ℂ) else 0) • 1 := by
  unfold Enlarged.wave
  rw [blochMap_orth]
  have e : ∀ u ∈ Finset.range M, (E.rep k c u)ᴴ * E.rep k d u
      = diagonal fun y : Fin P.t.norb => starRingEnd ℂ (E.φ k c u (P.t.atomAt y)) * E.φ k d u (P.t.atomAt y) :=
    fun u hu => hA.lay.atomRep_orth fun i hi => E.orth (Finset.mem_range.1 hu) hi
  rw [Finset.sum_congr rfl e]
  ext y z
  rw [Matrix.sum_apply, Matrix.smul_apply, Matrix.one_apply, smul_eq_mul]
  by_cases hyz : y = z
  · subst hyz
    simp only [Matrix.diagonal_apply_eq, if_true, mul_one]
    exact (E.fold k).orth c d _ (hA.lay.lt y)
  · simp [Matrix.diagonal_apply_ne _ hyz, hyz]

theorem Enlarged.hermitian (E : Enlarged P P' A B M) (hA : Fits P A elements) {k : Fin P.nk} {st : MatSt}
    (h : getMatrices (P.mat A) (P.kpt k) = .ok st) :
    (P.t.flat st.H0).IsHermitian ∧ (P.t.flat st.S).IsHermitian := by
  refine flatten_hermitian h (E.goodA k).id (E.goodA k).follow (E.goodA k).mirror.toInversePairs
    (fun i _ => (E.goodA k).tables.parity _) fun x => ?_
  have := hA.numAt x
  rw [matN]
  exact ⟨this.1, this.2.1⟩

theorem Enlarged.hermitian' (E : Enlarged P P' A B M) (hB : Fits P' B elements') {k : Fin P'.nk} {st : MatSt}
    (h : getMatrices (P'.mat B) (P'.kpt k) = .ok st) :
    (P'.t.flat st.H0).IsHermitian ∧ (P'.t.flat st.S).IsHermitian := by
  refine flatten_hermitian h (E.goodB k).id (E.goodB k).follow (E.goodB k).mirror.toInversePairs
    (fun i _ => (E.goodB k).tables.parity _) fun x => ?_
  have := hB.numAt x
  rw [matN]
  exact ⟨this.1, this.2.1⟩

/-- Sums over k-points. -/
theorem Enlarged.sum_k (E : Enlarged P P' A B M) (F : Fin P.nk → ℝ) :
    ∑ k, P'.wk k * ∑ c, F (E.kf (k, c)) = M * ∑ k, P.wk k * F k := by
  rw [← Equiv.sum_comp E.kf, Fintype.sum_prod_type, Finset.mul_sum]
  refine Finset.sum_congr rfl fun k _ => ?_
  rw [Finset.mul_sum, Finset.mul_sum]
  refine Finset.sum_congr rfl fun c _ => ?_
  rw [E.weight k c]
  ring

theorem Enlarged.no_close (E : Enlarged P P' A B M) (hA : Fits P A elements) {k : Fin P.nk} {st : MatSt}
    (h : getMatrices (P.mat A) (P.kpt k) = .ok st) :
    ∀ i j, i < B.positions.length → j < B.positions.length → ∀ n ∈ (P'.mat B).ntuples, ¬ (i = j ∧ n = 0) →
      0.1 < norm3 ((P'.mat B).rij n i j) := by
  have := notTooClose_unfold (I := P.mat A) (J := P'.mat B) E.geom
    (fun i hi j hj => (E.reach i (by rwa [matN] at hi) j (by rwa [matN] at hj)).2.2) (E.goodA k).mirror
    (notTooClose_of_ok h (E.goodA k).id (fun i hi => (hA.numbers i (by rwa [matN] at hi)).2) (E.goodA k).follow)
  rw [matN] at this
  exact this

theorem Enlarged.mats (E : Enlarged P P' A B M) (hA : Fits P A elements) (hB : Fits P' B elements')
    {st : Fin P.nk → MatSt} (h : ∀ k, getMatrices (P.mat A) (P.kpt k) = .ok (st k)) (k : Fin P'.nk) :
    ∃ st', getMatrices (P'.mat B) (P'.kpt k) = .ok st' := by
  refine (c29_too_close (I := P'.mat B) (P'.kpt k) (E.goodB k).id
    (fun i hi => (hB.numbers i (by rwa [matN] at hi)).2) (E.goodB k).follow).1 ?_
  intro i j hij hj n hn hne
  rw [matN] at hj
  exact E.no_close hA (h (E.kf (k, ⟨0, E.pos⟩))) i j (by omega) hj n hn hne

theorem Enlarged.repulsion (E : Enlarged P P' A B M) (hA : Fits P A elements) {k : Fin P.nk} {st : MatSt}
    (h : getMatrices (P.mat A) (P.kpt k) = .ok st) {En : ℝ}
    (hE : repEnergy (P.geom A) P.V P.rmax P.hartree = .ok En) :
    repEnergy (P'.geom B) P'.V P'.rmax P'.hartree = .ok (M * En) := by
  have hN : ∀ (P : ScfIn) A, (P.geom A).N = A.positions.length := fun P A => by
    simp [ScfIn.geom, Geom.ofAtoms, Atoms.positions]
  obtain ⟨-, -, -, -, hV, hr⟩ := E.same
  obtain ⟨En', hE'⟩ := c31_succeeds (G := P'.geom B) (V := P'.V) (rmax := P'.rmax) (hartree := P'.hartree)
    E.invB.idFirst (by
      intro i j hij hj n hn hc
      rw [hN] at hj
      have := E.no_close hA h i j (by omega) hj n hn hc.1
      have h2 := hc.2.2
      have e : (P'.geom B).rij n i j = (P'.mat B).rij n i j := rfl
      rw [e] at h2
      norm_num at this h2
      linarith)
  rw [hE']
  congr 1
  rw [c31_energy E.invB (fun i _ j _ => by rw [hV]; exact E.symV _ _) hE',
    c31_energy E.invA (fun i _ j _ => E.symV _ _) hE, hV, hr, E.units.2,
    cellEnergy_unfold E.geom P.V fun i hi j hj => (E.reach i (by rwa [hN] at hi) j (by rwa [hN] at hj)).2.1]
  ring

/-- The potentials of the copies exist. -/
theorem Enlarged.potential (E : Enlarged P P' A B M) (q : List ℝ) : ∃ (G' : ℕ → ℕ → ℝ) (dG' : ℕ → ℕ → Vec)
    (s' : DC) (phi' : List ℝ) (field' : List Vec), P'.scc = true →
      EsState P'.cd P'.bohr P'.U P'.w P'.gcut B (copyList M A.positions.length E.ix q) G' dG' s' ∧
      dcPotential s' = .ok phi' ∧ dcGetField s' = .ok field' := by
  by_cases hs : P'.scc = true
  · have hc := (E.coul (by rw [← E.same.1]; exact hs)).2.2.2
    rw [← E.same.2.2.2.1] at hc
    obtain ⟨s', h1⟩ := esState_exists P'.cd P'.bohr P'.U P'.w P'.gcut B (copyList M A.positions.length E.ix q) hc
    have hf := (esState_eq _ _ _ _ _ _ _ _ _ _ h1).2.2.1
    obtain ⟨-, hs'⟩ := fresh_eq _ _ _ _ hf
    exact ⟨_, _, s', _, _, fun _ => ⟨h1, by rw [hs']; rfl, by rw [hs']; rfl⟩⟩
  · exact ⟨0, 0, { cutoff := none }, [], [], fun h => absurd h hs⟩

/-- Populations of the copies. -/
theorem Enlarged.population (E : Enlarged P P' A B M) (hA : Fits P A elements)
    {g : Fin M × Fin P.t.norb ≃ Fin P'.t.norb} (hg : CopyOrbitals P P' E.ix g) {k : Fin P'.nk}
    {X' : CMat P'.t.norb} {X : Fin M → CMat P.t.norb}
    (h : X' = ((M : ℂ)⁻¹) • ∑ c, E.wave g k c * X c * (E.wave g k c)ᴴ) {u i : ℕ} (hu : u < M)
    (hi : i < A.positions.length) :
    (∑ x : Fin P'.t.norb, if P'.t.atomAt x = E.ix u i then X' x x else 0)
      = ((M : ℂ)⁻¹) * ∑ c, ∑ x : Fin P.t.norb, if P.t.atomAt x = i then X c x x else 0 := by
  rw [sum_copies g, Finset.sum_eq_single (⟨u, hu⟩ : Fin M)]
  · have e1 : ∀ x, (if P'.t.atomAt (g (⟨u, hu⟩, x)) = E.ix u i then
        X' (g (⟨u, hu⟩, x)) (g (⟨u, hu⟩, x)) else 0)
        = ((M : ℂ)⁻¹) * ∑ c, if P.t.atomAt x = i then (E.rep k c u * X c * (E.rep k c u)ᴴ) x x else 0 := by
      intro x
      rw [(hg ⟨u, hu⟩ x).1]
      by_cases hx : P.t.atomAt x = i
      · rw [if_pos (by rw [hx]), h, Matrix.smul_apply, Matrix.sum_apply, smul_eq_mul]
        congr 1
        refine Finset.sum_congr rfl fun c _ => ?_
        rw [if_pos hx]
        exact blochMap_diag g _ (X c) ⟨u, hu⟩ x
      · rw [if_neg fun h => hx (E.copies.inj u hu _ (hA.lay.lt x) u hu i hi h).2]
        simp [hx]
    rw [Finset.sum_congr rfl fun x _ => e1 x, ← Finset.mul_sum, Finset.sum_comm]
    congr 1
    refine Finset.sum_congr rfl fun c _ => ?_
    exact hA.lay.atomRep_trace hi (E.orth hu hi) ((E.fold k).unit c u hu i hi) (X c)
  · intro v _ hv
    refine Finset.sum_eq_zero fun x _ => ?_
    rw [if_neg]
    rw [(hg v x).1]
    exact fun h => hv (Fin.ext (E.copies.inj v v.2 _ (hA.lay.lt x) u hu i hi h).1)
  · intro h; exact absurd (Finset.mem_univ _) h

theorem Enlarged.trace (E : Enlarged P P' A B M) (hA : Fits P A elements)
    {g : Fin M × Fin P.t.norb ≃ Fin P'.t.norb} {k : Fin P'.nk}
    {X' : CMat P'.t.norb} {X : Fin M → CMat P.t.norb}
    (h : X' = ((M : ℂ)⁻¹) • ∑ c, E.wave g k c * X c * (E.wave g k c)ᴴ) :
    X'.trace = ∑ c, (X c).trace := by
  have hM : (M : ℂ) ≠ 0 := by exact_mod_cast E.pos.ne'
  rw [h, Matrix.trace_smul, Matrix.trace_sum, smul_eq_mul, Finset.mul_sum]
  refine Finset.sum_congr rfl fun c _ => ?_
  have hw := E.wave_orth hA g k c c
  rw [if_pos rfl] at hw
  rw [Matrix.trace_mul_comm, ← Matrix.mul_assoc, hw, Matrix.smul_mul, Matrix.one_mul, Matrix.trace_smul,
    smul_eq_mul, ← mul_assoc, inv_mul_cancel₀ hM, one_mul]

theorem Enlarged.val_sum (E : Enlarged P P' A B M) (hA : Fits P A elements) (hB : Fits P' B elements') :
    P'.val.sum = M * P.val.sum := by
  have key : ∀ (l : List ℝ), l.sum = ∑ i ∈ Finset.range l.length, l.getD i 0 := by
    intro l
    rw [Finset.sum_range]
    have : l.sum = (List.ofFn fun i : Fin l.length => l.getD i 0).sum := by
      congr 1
      apply List.ext_getElem
      · simp
      · intro i h1 h2
        simp
    rw [this, List.sum_ofFn]
  rw [key P'.val, key P.val, hB.valences, hA.valences, E.length, E.copies.sum]
  rw [Finset.sum_congr rfl fun u hu => Finset.sum_congr rfl fun i hi =>
    (E.hubbard u (Finset.mem_range.1 hu) i (Finset.mem_range.1 hi)).2.2, Finset.sum_const, Finset.card_range,
    nsmul_eq_mul]

/-- The self-consistent solution of the original, repeated, is a self-consistent solution of the
enlarged structure, with the same levels, and its energy is `M` times as large. -/
theorem Enlarged.run_waves (E : Enlarged P P' A B M) (hA : Fits P A elements) (hB : Fits P' B elements')
    {r : ScfRun P} (h : Converged P A r) : ∃ r' : ScfRun P', Converged P' B r' ∧ r'.mu = r.mu ∧
      r'.dq = copyList M A.positions.length E.ix r.dq ∧
      (∀ k, ∃ τ : Fin P'.t.norb ≃ Fin M × Fin P.t.norb, ∀ b, r'.e k b = r.e (E.kf (k, (τ b).1)) (τ b).2) ∧
      (∀ En, 0 < P'.nk → r.energy A = .ok En → r'.energy B = .ok (M * En)) ∧
      ∃ g : Fin M × Fin P.t.norb ≃ Fin P'.t.norb, CopyOrbitals P P' E.ix g ∧ ∀ k,
        r'.rho k = ((M : ℂ)⁻¹) • ∑ c, E.wave g k c * r.rho (E.kf (k, c)) * (E.wave g k c)ᴴ ∧
        r'.rhoe k = ((M : ℂ)⁻¹) • ∑ c, E.wave g k c * r.rhoe (E.kf (k, c)) * (E.wave g k c)ᴴ := by
  have hM : (M : ℝ) ≠ 0 := by exact_mod_cast E.pos.ne'
  obtain ⟨g, hg⟩ := E.orbitals hA hB
  choose st' hst' using fun k => E.mats hA hB h.mats k
  obtain ⟨G', dG', s', phi', field', hes⟩ := E.potential (r.dq)
  set N := A.positions.length with hN
  set eps' : ℕ → ℝ := epsilonOf B.positions.length G' P'.bohr (fun i => phi'.getD i 0) (chg (copyList M N E.ix r.dq))
    with heps'
  set H1' : Option (Fin P'.t.norb → Fin P'.t.norb → ℝ) := if P'.scc then
    some fun x y => constructH1 P'.t B.positions.length eps' (fun _ => 0) x y else none with hH1'
  have heps : P.scc = true → ∀ u < M, ∀ i < N, eps' (E.ix u i) = r.epsilon N i := by
    intro hs u hu i hi
    obtain ⟨h1, h2, -⟩ := h.potential hs
    obtain ⟨h1', h2', -⟩ := hes (by rw [E.same.1]; exact hs)
    exact E.epsilon hs h1 h2 h1' h2' hu hi
  -- the matrices act on Bloch waves
  have hact : ∀ (K : Comp) k c, P'.t.flat (K.get (st' k)) * E.wave g k c
      = E.wave g k c * P.t.flat (K.get (r.st (E.kf (k, c)))) := by
    intro K k c
    refine E.act hA hg (h.mats _) (hst' k) K (fun _ _ => 1) _ (fun x y => (one_mul _).symm) _
      fun u x v y => (one_mul _).symm
  have hS : ∀ k c, P'.t.flat (st' k).S * E.wave g k c = E.wave g k c * r.S (E.kf (k, c)) :=
    fun k c => hact .S k c
  have hH0 : ∀ k c, P'.t.flat (st' k).H0 * E.wave g k c = E.wave g k c * r.H0 (E.kf (k, c)) :=
    fun k c => hact .H k c
  have hH : ∀ k c, scfHamiltonian H1' (P'.t.flat (st' k).H0) (P'.t.flat (st' k).S) * E.wave g k c
      = E.wave g k c * scfHamiltonian (r.h1 N) (r.H0 (E.kf (k, c))) (r.S (E.kf (k, c))) := by
    intro k c
    by_cases hs : P.scc = true
    · have hs' : P'.scc = true := by rw [E.same.1]; exact hs
      have e1 : H1' = some fun x y : Fin P'.t.norb => constructH1 P'.t B.positions.length eps' (fun _ => 0) x y := by
        rw [hH1', if_pos hs']
      have e2 : r.h1 N = some fun x y : Fin P.t.norb => constructH1 P.t N (r.epsilon N) (fun _ => 0) x y := by
        unfold ScfRun.h1
        rw [if_pos hs]
      rw [e1, e2]
      unfold scfHamiltonian
      dsimp only
      rw [Matrix.add_mul, Matrix.mul_add, hH0]
      congr 1
      refine E.act hA hg (h.mats _) (hst' k) .S
        (fun a b => (((r.epsilon N a + r.epsilon N b) / 2 : ℝ) : ℂ)) _ (fun x y => ?_) _ (fun u x v y => ?_)
      · rw [Matrix.of_apply, h1_value hA]
        rfl
      · rw [Matrix.of_apply, h1_value hB, (hg u x).1, (hg v y).1, heps hs u u.2 _ (hA.lay.lt x),
          heps hs v v.2 _ (hA.lay.lt y)]
        rfl
    · have hs' : ¬ P'.scc = true := by rw [E.same.1]; exact hs
      have e1 : H1' = none := by rw [hH1', if_neg hs']
      have e2 : r.h1 N = none := by
        unfold ScfRun.h1
        rw [if_neg hs]
      rw [e1, e2]
      exact hH0 k c
  -- states
  choose e' wf' hstates hτ hrho using fun k => bloch_states E.pos g (E.wave_orth hA g k) (hH k) (hS k)
    (fun c => h.states (E.kf (k, c)))
  set r' : ScfRun P' := ⟨st', e', wf', r.mu, copyList M N E.ix r.dq, G', dG', s', phi', field'⟩ with hr'
  have hrho' : ∀ k, r'.rho k = ((M : ℂ)⁻¹) • ∑ c, E.wave g k c * r.rho (E.kf (k, c)) * (E.wave g k c)ᴴ := by
    intro k
    have := hrho k (fermi P.width r.mu)
    rw [← E.same.2.1] at this
    refine Eq.trans this ?_
    rw [E.same.2.1]
    rfl
  have hh1 : r'.h1 B.positions.length = H1' := rfl
  have hherm := fun k => E.hermitian hA (h.mats k)
  have hherm' := fun k => E.hermitian' hB (hst' k)
  have hel : ∑ k, P'.wk k * ∑ a, r'.f k a = P'.nel := by
    have e1 : ∀ k, ∑ a, r'.f k a = ∑ c, ∑ a, r.f (E.kf (k, c)) a := by
      intro k
      obtain ⟨τ, hτk⟩ := hτ k
      have := sum_folded (e' := e' k) (e := fun c => r.e (E.kf (k, c))) hτk (fermi P.width r.mu)
      rw [← E.same.2.1] at this
      refine Eq.trans this ?_
      rw [E.same.2.1]
      rfl
    simp only [e1]
    rw [E.sum_k fun k => ∑ a, r.f k a, h.electrons, E.count.2.1]
  have hrhoe' : ∀ k, r'.rhoe k = ((M : ℂ)⁻¹) • ∑ c, E.wave g k c * r.rhoe (E.kf (k, c)) * (E.wave g k c)ᴴ := by
    intro k
    have := hrho k (fun x => x * fermi P.width r.mu x)
    have e1 : ∀ {n : ℕ} (wf : CMat n) (f e : Fin n → ℝ), computeRhoe wf f e = computeRho wf fun a => e a * f a := by
      intro n wf f e
      unfold computeRhoe computeRho
      congr 1
      ext a j
      simp only [Matrix.of_apply]
      push_cast
      ring
    have e2 : r'.rhoe k = computeRho (wf' k) fun b => e' k b * fermi P.width r.mu (e' k b) := by
      refine (e1 _ _ _).trans ?_
      rw [← E.same.2.1]
      rfl
    have e3 : ∀ c, r.rhoe (E.kf (k, c))
        = computeRho (r.wf (E.kf (k, c))) fun a => r.e (E.kf (k, c)) a * fermi P.width r.mu (r.e (E.kf (k, c)) a) :=
      fun c => e1 _ _ _
    rw [e2, this]
    simp only [e3]
  refine ⟨r', ?_, rfl, rfl, hτ, ?_, g, hg, fun k => ⟨hrho' k, hrhoe' k⟩⟩
  · refine ⟨hst', fun k => ?_, hel, fun hs' => ?_, hes⟩
    · rw [hh1]
      exact hstates k
    · -- charges
      have hs : P.scc = true := by rw [← E.same.1]; exact hs'
      have hNs : B.symbols.length = B.positions.length := by simp [Atoms.symbols, Atoms.positions]
      have hNs0 : A.symbols.length = N := by simp [hN, Atoms.symbols, Atoms.positions]
      obtain ⟨dq', h1, h2, -⟩ := c21_total elements' B.symbols P'.t hB.orbitals P'.wk r'.wf r'.S r'.f
        (fun k a => ((hstates k).orthonormal a a).trans (if_pos rfl)) P'.val (by rw [hB.valences, hNs]) P'.charge
        P'.tol E.tols.1 (by
          rw [hel, E.count.2.1, E.count.1, E.val_sum hA hB, E.count.2.2.1]; ring)
      refine Eq.trans h1 (congrArg Except.ok ?_)
      show dq' = copyList M N E.ix r.dq
      have l1 : dq'.length = M * N := by rw [h2, hNs, E.length]
      have l2 : (copyList M N E.ix r.dq).length = M * N := by simp [copyList]
      refine List.ext_getElem (by rw [l1, l2]) fun x hx1 hx2 => ?_
      rw [l1] at hx1
      obtain ⟨u, hu, i, hi, rfl⟩ := E.copies.split hx1
      rw [← hN] at hi
      have g1 : dq'[E.ix u i] = chg dq' (E.ix u i) := by
        unfold chg
        rw [List.getD_eq_getElem?_getD, List.getElem?_eq_getElem (by omega), Option.getD_some]
      have g2 : (copyList M N E.ix r.dq)[E.ix u i] = chg r.dq (i) := by
        rw [← copyList_get E.copies hu hi]
        unfold chg
        rw [List.getD_eq_getElem?_getD, List.getElem?_eq_getElem hx2, Option.getD_some]
      have b1 := blocks_length elements' B.symbols P'.t hB.orbitals
      have b2 := blocks_length elements A.symbols P.t hA.orbitals
      rw [hNs, E.length, ← hN] at b1
      rw [hNs0] at b2
      have val1 : chg dq' (E.ix u i) = sliceSum (mullikenDiag P'.wk r'.rho r'.S) (P'.t.blocks[E.ix u i]'(by rw [b1]; exact hx1))
          - P'.val.getD (E.ix u i) 0 := by
        unfold chg
        rw [mulliken_list h1, List.getD_eq_getElem?_getD, List.getElem?_eq_getElem (by
          simp [b1, hB.valences, E.length, hx1, ← hN]), Option.getD_some, List.getElem_zipWith,
          List.getElem_map, List.getD_eq_getElem?_getD, List.getElem?_eq_getElem (by
          rw [hB.valences, E.length]; exact hx1), Option.getD_some]
        rfl
      have val2 : chg r.dq (i) = sliceSum (mullikenDiag P.wk r.rho r.S) (P.t.blocks[i]'(by omega))
          - P.val.getD (i) 0 := by
        unfold chg
        rw [mulliken_list (h.charges hs), List.getD_eq_getElem?_getD, List.getElem?_eq_getElem (by
          simp [b2, hA.valences, hi, ← hN]), Option.getD_some, List.getElem_zipWith,
          List.getElem_map, List.getD_eq_getElem?_getD, List.getElem?_eq_getElem (by
          rw [hA.valences]; exact hi), Option.getD_some]
      have hv := (E.hubbard _ hu _ hi).2.2
      rw [g1, g2, val1, val2, hv]
      congr 1
      rw [sliceSum_trace hB _ _ _ (List.getElem?_eq_getElem (by rw [b1]; exact hx1)),
        sliceSum_trace hA _ _ _ (List.getElem?_eq_getElem (by omega))]
      have key : ∀ k, (∑ y : Fin P'.t.norb, if P'.t.atomAt y = (E.ix u i) then (r'.rho k * r'.S k) y y else 0).re
          = (M : ℝ)⁻¹ * ∑ c, (∑ y : Fin P.t.norb, if P.t.atomAt y = i then
            (r.rho (E.kf (k, c)) * r.S (E.kf (k, c))) y y else 0).re := by
        intro k
        have := E.population hA hg (k := k) (rho_mul (hS k) (hherm' k).2 (fun c => (hherm _).2) (hrho' k)) hu hi
        refine (congrArg Complex.re this).trans ?_
        rw [← Complex.re_sum, show ((M : ℂ)⁻¹) = (((M : ℝ)⁻¹ : ℝ) : ℂ) by push_cast; rfl, Complex.re_ofReal_mul]
      simp only [key]
      have sk := E.sum_k fun k => (∑ y : Fin P.t.norb, if P.t.atomAt y = i then
            (r.rho k * r.S k) y y else 0).re
      have : ∀ k, P'.wk k * ((M : ℝ)⁻¹ * ∑ c, (∑ y : Fin P.t.norb, if P.t.atomAt y = i then
            (r.rho (E.kf (k, c)) * r.S (E.kf (k, c))) y y else 0).re)
          = (M : ℝ)⁻¹ * (P'.wk k * ∑ c, (∑ y : Fin P.t.norb, if P.t.atomAt y = i then
            (r.rho (E.kf (k, c)) * r.S (E.kf (k, c))) y y else 0).re) := fun k => by ring
      rw [Finset.sum_congr rfl fun k _ => this k, ← Finset.mul_sum, sk, ← mul_assoc, inv_mul_cancel₀ hM,
        one_mul]
  · intro En hnk hE
    unfold ScfRun.energy at hE ⊢
    rcases hb : bandEnergy P.wk r.rho r.H0 P.tolIm with er | ebs
    · rw [hb] at hE; cases hE
    rcases hp : repEnergy (P.geom A) P.V P.rmax P.hartree with er | erep
    · rw [hb, hp] at hE; cases hE
    rw [hb, hp] at hE
    simp only [Bind.bind, Except.bind, Except.ok.injEq] at hE
    have hb' : bandEnergy P'.wk r'.rho r'.H0 P'.tolIm = .ok (M * ebs) := by
      have t1 : ∀ k, (∑ i, rowDot (r'.rho k) (r'.H0 k) i) = ∑ c, (r.rho (E.kf (k, c)) * r.H0 (E.kf (k, c))).trace := by
        intro k
        rw [rowDot_sum]
        exact E.trace hA (k := k) (rho_mul (hH0 k) (hherm' k).1 (fun c => (hherm _).1) (hrho' k))
      have t2 : ∀ k, (r.rho k * r.H0 k).trace = (((r.rho k * r.H0 k).trace.re : ℝ) : ℂ) := by
        intro k
        have := trace_herm_real (r.rho k) (r.H0 k) (c20_hermitian _ _ 0).1 (hherm k).1
        refine Complex.ext (by simp) (by simpa using this)
      have hre : ebs = ∑ k, P.wk k * (r.rho k * r.H0 k).trace.re := by
        unfold bandEnergy at hb
        dsimp only at hb
        split at hb
        · cases hb
          rw [Complex.re_sum]
          refine Finset.sum_congr rfl fun k _ => ?_
          rw [Complex.re_ofReal_mul, rowDot_sum]
        · cases hb
      have tot : (∑ k, (P'.wk k : ℂ) * ∑ i, rowDot (r'.rho k) (r'.H0 k) i) = ((M * ebs : ℝ) : ℂ) := by
        rw [hre, ← E.sum_k fun k => (r.rho k * r.H0 k).trace.re]
        push_cast
        refine Finset.sum_congr rfl fun k _ => ?_
        rw [t1]
        congr 1
        exact Finset.sum_congr rfl fun c _ => t2 _
      unfold bandEnergy
      dsimp only
      rw [tot, Complex.ofReal_im, Complex.ofReal_re, if_pos E.tols.2]
    have hc' : coulombEnergy P'.scc B.positions.length (chg r'.dq) (r'.epsilon B.positions.length)
        = M * coulombEnergy P.scc N (chg r.dq) (r.epsilon N) := by
      unfold coulombEnergy
      rw [E.same.1]
      split
      · rename_i hs
        rw [E.length, E.copies.sum, mul_left_comm]
        congr 1
        have e2 : r'.epsilon (M * A.positions.length) = eps' := by rw [heps', E.length]; rfl
        rw [e2]
        have e3 : ∀ u ∈ Finset.range M, (∑ i ∈ Finset.range N, chg r'.dq (E.ix u i) * eps' (E.ix u i))
            = ∑ i ∈ Finset.range N, chg r.dq i * r.epsilon N i := by
          intro u hu
          refine Finset.sum_congr rfl fun i hi => ?_
          rw [Finset.mem_range] at hu hi
          exact congrArg₂ (· * ·) (copyList_get E.copies hu hi _) (heps hs u hu i hi)
        rw [Finset.sum_congr rfl e3, Finset.sum_const, Finset.card_range, nsmul_eq_mul]
      · rw [mul_zero]
    have hr := E.repulsion hA (h.mats (E.kf (⟨0, hnk⟩, ⟨0, E.pos⟩))) hp
    rw [hb', hr]
    simp only [Bind.bind, Except.bind]
    rw [hc', E.units.2, E.count.2.2.2, ← hE]
    congr 1
    ring

theorem Enlarged.run (E : Enlarged P P' A B M) (hA : Fits P A elements) (hB : Fits P' B elements')
    {r : ScfRun P} (h : Converged P A r) : ∃ r' : ScfRun P', Converged P' B r' ∧ r'.mu = r.mu ∧
      r'.dq = copyList M A.positions.length E.ix r.dq ∧
      (∀ k, ∃ τ : Fin P'.t.norb ≃ Fin M × Fin P.t.norb, ∀ b, r'.e k b = r.e (E.kf (k, (τ b).1)) (τ b).2) ∧
      ∀ En, 0 < P'.nk → r.energy A = .ok En → r'.energy B = .ok (M * En) := by
  obtain ⟨r', h1, h2, h3, h4, h5, -⟩ := E.run_waves hA hB h
  exact ⟨r', h1, h2, h3, h4, h5⟩

end Main

end Hotbit
