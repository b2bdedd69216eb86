import Verif.Lemmas.Analysis
import Verif.Spec.Analysis

/-!
# C46: Mulliken populations add up
-/

namespace Hotbit

open Matrix

variable {nk : ℕ}

theorem atomOf_iff (elements : String → Option ElementData) (symbols : List String) (t : OrbTables)
    (h : orbInit elements symbols = .ok t) (I o m : ℕ) (hab : t.blocks[I]? = some (o, m)) (mu : ℕ)
    (hmu : mu < t.norb) : t.atomOf mu = .ok I ↔ o ≤ mu ∧ mu < o + m := by
  obtain ⟨a, o', m', h1, h2, h3, h4, h5, -⟩ := (c23_orbital _ _ _ h mu).1 hmu
  rw [h5]
  constructor
  · intro e
    have : a = I := by simpa using e
    subst this
    rw [hab] at h1
    simp only [Option.some.injEq, Prod.mk.injEq] at h1
    omega
  · rintro ⟨e1, e2⟩
    rw [h4 I o m hab e1 e2]

theorem sliceSum_atomPart (elements : String → Option ElementData) (symbols : List String) (t : OrbTables)
    (h : orbInit elements symbols = .ok t) (I : ℕ) (hI : I < t.blocks.length) (v : Fin t.norb → ℝ) :
    sliceSum v (t.blocks.getD I (0, 0)) = atomPart t I v := by
  obtain ⟨o, m, hab⟩ := block_of_lt t I hI
  rw [List.getD_eq_getElem?_getD, hab, Option.getD_some, sliceSum_eq]
  unfold atomPart
  apply Finset.sum_congr rfl
  intro mu _
  have := atomOf_iff _ _ _ h I o m hab mu mu.2
  simp only [this]

theorem indicesOf_error (elements : String → Option ElementData) (symbols : List String) (t : OrbTables)
    (h : orbInit elements symbols = .ok t) (I : ℕ) (hI : symbols.length ≤ I) :
    t.indicesOf I = .error .indexError := by
  obtain ⟨atoms, inv, -, hf⟩ := orbInit_inv _ _ _ h
  unfold OrbTables.indicesOf
  rw [List.getElem?_eq_none]
  rw [List.length_map, inv.len, ← hf.length_eq]
  exact hI

/-- C46: `get_atom_mulliken(I)` is the sum of the `get_basis_mulliken(mu)` of the basis functions of atom `I`;
there is no such atom beyond the last: `IndexError`. -/
theorem c46_atom (elements : String → Option ElementData) (symbols : List String) (t : OrbTables)
    (h : orbInit elements symbols = .ok t) (diag : Fin t.norb → ℝ) :
    (∀ mu : Fin t.norb, basisMulliken diag mu = .ok (diag mu)) ∧
    (∀ I < symbols.length, atomMulliken t diag I = .ok (atomPart t I diag)) ∧
    (∀ I, symbols.length ≤ I → atomMulliken t diag I = .error .indexError) := by
  refine ⟨fun mu => atIdx_of_lt diag mu.2, ?_, ?_⟩
  · intro I hI
    rw [← blocks_length _ _ _ h] at hI
    rw [atomMulliken_eq _ _ _ h diag I hI, sliceSum_atomPart _ _ _ h I hI]
  · intro I hI
    unfold atomMulliken
    rw [indicesOf_error _ _ _ h I hI]
    rfl

open Classical in
/-- C46: the partial trace over atom `I` of any matrix is the sum of its diagonal over the basis functions of the atom. -/
theorem c46_trace (elements : String → Option ElementData) (symbols : List String) (t : OrbTables)
    (h : orbInit elements symbols = .ok t) (A : CMat t.norb) :
    (∀ I < symbols.length, traceI t I A = .ok (∑ mu : Fin t.norb, if t.atomOf mu = .ok I then A mu mu else 0)) ∧
    (∀ I, symbols.length ≤ I → traceI t I A = .error .indexError) := by
  refine ⟨fun I hI => ?_, fun I hI => ?_⟩
  · rw [← blocks_length _ _ _ h] at hI
    obtain ⟨o, m, hab⟩ := block_of_lt t I hI
    obtain ⟨h1, h2⟩ := pick_block _ _ _ h (fun j => A j j) I o m hab
    unfold traceI
    rw [h1]
    simp only [bind, Except.bind]
    rw [h2]
    simp only [pure, Except.pure]
    congr 1
    have := sliceSum_eq (fun j => A j j) (o, m)
    unfold sliceSum at this
    rw [this]
    apply Finset.sum_congr rfl
    intro mu _
    have := atomOf_iff _ _ _ h I o m hab mu mu.2
    simp only [this]
  · unfold traceI
    rw [indicesOf_error _ _ _ h I hI]
    rfl

theorem basis_block (elements : String → Option ElementData) (symbols : List String) (t : OrbTables)
    (h : orbInit elements symbols = .ok t) (I : ℕ) (s : String) (el : ElementData) (hs : symbols[I]? = some s)
    (hel : elements s = some el) (o m : ℕ) (hab : t.blocks[I]? = some (o, m)) :
    m = (el.orbitals.zip el.energies).length ∧ ∀ j < m, ∃ r, t.basis (o + j) = .ok r ∧ r.atom = I ∧
      angmomOf r.orbital = .ok r.angmom ∧ (el.orbitals.zip el.energies)[j]? = some (r.orbital, r.energy) := by
  obtain ⟨atoms, inv, -, hf⟩ := orbInit_inv _ _ _ h
  have hnl : t.nrOrbitals.length = atoms.length := by rw [inv.nr, List.length_map, inv.len]
  unfold OrbTables.blocks at hab
  rw [List.getElem?_zip_eq_some] at hab
  have halt := (List.getElem?_eq_some_iff.1 hab.2).1
  have ho := inv.first I (by omega)
  rw [hab.1] at ho
  simp only [Option.some.injEq] at ho
  obtain ⟨l, hl⟩ : ∃ l, t.atomorb[I]? = some l :=
    ⟨_, List.getElem?_eq_getElem (by rw [inv.len]; omega)⟩
  have hn : l.length = m := by
    have h1 := hab.2
    rw [inv.nr, List.getElem?_map, hl] at h1
    simpa using h1
  obtain ⟨s', el', hs', hlen, hrec⟩ := inv.recs I l hl
  have hel' : el' = el := by
    have hlt := (List.getElem?_eq_some_iff.1 hs).1
    have hlt' := (List.getElem?_eq_some_iff.1 hs').1
    have := (List.forall₂_iff_get.1 hf).2 I hlt hlt'
    have e1 : symbols[I] = s := (List.getElem?_eq_some_iff.1 hs).2
    have e2 : atoms[I] = (s', el') := (List.getElem?_eq_some_iff.1 hs').2
    simp only [List.get_eq_getElem, e1, e2, hel] at this
    exact (Option.some.inj this.2).symm
  subst hel'
  refine ⟨by omega, ?_⟩
  intro j hj
  have hj' : j < l.length := by omega
  have hget : t.orb[o + j]? = some l[j] := by
    have := flatten_block t.atomorb I j l hl hj'
    rw [← inv.nr, ← inv.orb, ← ho] at this
    rw [this, List.getElem?_eq_getElem hj']
  obtain ⟨r1, r2, r3, r4, r5, r6⟩ := hrec j l[j] (List.getElem?_eq_getElem hj')
  exact ⟨l[j], by unfold OrbTables.basis; rw [hget], r1, r5, r6⟩

/-- Angular momenta of the orbitals in the usual order. -/
def angs : List ℕ := [0, 1, 1, 1, 2, 2, 2, 2, 2]

theorem angs_ok : ∀ (j : ℕ) (name : String), orbitalList[j]? = some name → ∃ l, angs[j]? = some l ∧
    angmomOf name = .ok l := by
  intro j name hj
  have hlt : j < 9 := (List.getElem?_eq_some_iff.1 hj).1
  interval_cases j <;> (simp only [orbitalList, List.getElem?_cons_zero, List.getElem?_cons_succ,
    Option.some.injEq] at hj; subst hj; exact ⟨_, rfl, rfl⟩)

/-- For an s, sp or spd basis the records of an atom's orbitals carry the angular momenta 0, 1, 1, 1, 2, ... -/
theorem basis_angs (elements : String → Option ElementData) (symbols : List String) (t : OrbTables)
    (h : orbInit elements symbols = .ok t) (I : ℕ) (s : String) (el : ElementData) (hs : symbols[I]? = some s)
    (hel : elements s = some el) (no : ℕ) (hno : no ≤ 9) (horb : el.orbitals = orbitalList.take no)
    (hen : el.energies.length = no) (o m : ℕ) (hab : t.blocks[I]? = some (o, m)) :
    m = no ∧ ∀ mu < t.norb, ∀ l, (∃ r, t.basis mu = .ok r ∧ r.atom = I ∧ r.angmom = l) ↔
      o ≤ mu ∧ mu < o + m ∧ angs[mu - o]? = some l := by
  obtain ⟨hm, hb⟩ := basis_block _ _ _ h I s el hs hel o m hab
  have hlen : (orbitalList.take no).length = no := by simp [orbitalList]; omega
  have hm' : m = no := by rw [hm, horb, List.length_zip, hlen, hen, min_self]
  have hfst : (el.orbitals.zip el.energies).map Prod.fst = orbitalList.take no := by
    rw [horb, List.map_fst_zip]; rw [hlen, hen]
  refine ⟨hm', ?_⟩
  have key : ∀ mu, o ≤ mu → mu < o + m → ∃ r, t.basis mu = .ok r ∧ r.atom = I ∧ angs[mu - o]? = some r.angmom := by
    intro mu h1 h2
    obtain ⟨r, r1, r2, r3, r4⟩ := hb (mu - o) (by omega)
    rw [Nat.add_sub_cancel' h1] at r1
    refine ⟨r, r1, r2, ?_⟩
    have : (orbitalList.take no)[mu - o]? = some r.orbital := by
      rw [← hfst, List.getElem?_map, r4]; rfl
    rw [List.getElem?_take_of_lt (by omega)] at this
    obtain ⟨l, e1, e2⟩ := angs_ok _ _ this
    rw [r3] at e2
    simp only [Except.ok.injEq] at e2
    rw [e1, e2]
  intro mu hmu l
  constructor
  · rintro ⟨r, r1, r2, r3⟩
    obtain ⟨a, o', m', h1, h2, h3, h4, h5, r', e1, e2, -⟩ := (c23_orbital _ _ _ h mu).1 hmu
    rw [r1] at e1
    simp only [Except.ok.injEq] at e1
    subst e1
    have : a = I := by rw [← e2, r2]
    subst this
    rw [hab] at h1
    simp only [Option.some.injEq, Prod.mk.injEq] at h1
    have h2' : o ≤ mu := by omega
    have h3' : mu < o + m := by omega
    refine ⟨h2', h3', ?_⟩
    obtain ⟨r', g1, g2, g3⟩ := key mu h2' h3'
    rw [r1] at g1
    simp only [Except.ok.injEq] at g1
    rw [g3, ← g1, r3]
  · rintro ⟨h1, h2, h3⟩
    obtain ⟨r', g1, g2, g3⟩ := key mu h1 h2
    rw [h3] at g3
    exact ⟨r', g1, g2, by simpa using g3.symm⟩

/-- The three sums made from an atom's entries are the parts of its s, p and d orbitals. -/
theorem angmomPop_shell (elements : String → Option ElementData) (symbols : List String) (t : OrbTables)
    (h : orbInit elements symbols = .ok t) (I : ℕ) (s : String) (el : ElementData) (hs : symbols[I]? = some s)
    (hel : elements s = some el) (no : ℕ) (hno : no = 1 ∨ no = 4 ∨ no = 9)
    (horb : el.orbitals = orbitalList.take no) (hen : el.energies.length = no) (o m : ℕ)
    (hab : t.blocks[I]? = some (o, m)) (v : Fin t.norb → ℝ) :
    angmomPop (((List.ofFn v).drop o).take m) = .ok [shellPart t I 0 v, shellPart t I 1 v, shellPart t I 2 v] := by
  obtain ⟨hm, hb⟩ := basis_angs _ _ _ h I s el hs hel no (by omega) horb hen o m hab
  have hle := block_le _ _ _ h I o m hab
  have shell : ∀ l o' m', (∀ mu, (o' ≤ mu ∧ mu < o' + m') ↔ (o ≤ mu ∧ mu < o + m ∧ angs[mu - o]? = some l)) →
      shellPart t I l v = sliceSum v (o', m') := by
    intro l o' m' hc
    rw [sliceSum_eq]
    unfold shellPart
    apply Finset.sum_congr rfl
    intro mu _
    have e1 := hb mu mu.2 l
    have e2 := hc mu
    simp only [e1, e2]
  have hlen : (((List.ofFn v).drop o).take m).length = m := by simp; omega
  subst hm
  have angs_of : ∀ j l, angs[j]? = some l ↔ (j = 0 ∧ l = 0 ∨ (1 ≤ j ∧ j ≤ 3) ∧ l = 1 ∨ (4 ≤ j ∧ j ≤ 8) ∧ l = 2) := by
    intro j l
    by_cases hj : j < 9
    · interval_cases j <;> simp [angs, eq_comm]
    · rw [List.getElem?_eq_none (by simp [angs]; omega)]
      constructor
      · intro hh; simp at hh
      · omega
  have s0 := shell 0 o 1 (by intro mu; rw [angs_of]; omega)
  rcases hno with rfl | rfl | rfl
  · have s1 := shell 1 o 0 (by intro mu; rw [angs_of]; omega)
    have s2 := shell 2 o 0 (by intro mu; rw [angs_of]; omega)
    rw [s0, s1, s2]
    unfold sliceSum
    obtain ⟨x, hx⟩ := List.length_eq_one_iff.1 hlen
    simp only [hx, List.take_zero, List.sum_nil]
    simp [angmomPop]
  · have s1 := shell 1 (o + 1) 3 (by intro mu; rw [angs_of]; omega)
    have s2 := shell 2 o 0 (by intro mu; rw [angs_of]; omega)
    rw [s0, s1, s2]
    unfold sliceSum
    rw [← List.drop_drop]
    generalize List.drop o (List.ofFn v) = L at hlen ⊢
    match L, hlen with
    | a :: b :: c :: d :: L, _ => simp [angmomPop]
  · have s1 := shell 1 (o + 1) 3 (by intro mu; rw [angs_of]; omega)
    have s2 := shell 2 (o + 4) 5 (by intro mu; rw [angs_of]; omega)
    rw [s0, s1, s2]
    unfold sliceSum
    rw [← List.drop_drop, ← List.drop_drop]
    generalize List.drop o (List.ofFn v) = L at hlen ⊢
    match L, hlen with
    | a :: b :: c :: d :: e :: f :: g :: h :: i :: L, _ => simp [angmomPop]

/-- C46: for an atom with an s, sp or spd basis the populations per angular momentum are the sums over the basis
functions with that angular momentum, and add up to the population of the atom. -/
theorem c46_angmom (elements : String → Option ElementData) (symbols : List String) (t : OrbTables)
    (h : orbInit elements symbols = .ok t) (diag : Fin t.norb → ℝ) (I : ℕ) (s : String) (el : ElementData)
    (hs : symbols[I]? = some s) (hel : elements s = some el) (no : ℕ) (hno : no = 1 ∨ no = 4 ∨ no = 9)
    (horb : el.orbitals = orbitalList.take no) (hen : el.energies.length = no) :
    atomAngmom t diag I = .ok [shellPart t I 0 diag, shellPart t I 1 diag, shellPart t I 2 diag] ∧
    shellPart t I 0 diag + shellPart t I 1 diag + shellPart t I 2 diag = atomPart t I diag := by
  have hI : I < t.blocks.length := by
    rw [blocks_length _ _ _ h]; exact (List.getElem?_eq_some_iff.1 hs).1
  obtain ⟨o, m, hab⟩ := block_of_lt t I hI
  obtain ⟨h1, h2⟩ := pick_block _ _ _ h diag I o m hab
  have h3 := angmomPop_shell _ _ _ h I s el hs hel no hno horb hen o m hab diag
  constructor
  · unfold atomAngmom
    rw [h1]
    simp only [bind, Except.bind]
    rw [h2]
    exact h3
  · rw [← sliceSum_atomPart _ _ _ h I hI, List.getD_eq_getElem?_getD, hab, Option.getD_some]
    have hne : ((List.ofFn diag).drop o).take m ≠ [] := by
      intro e
      rw [e] at h3
      simp [angmomPop] at h3
    obtain ⟨p, p1, -, p3⟩ := angmomPop_sum _ hne
    rw [h3] at p1
    simp only [Except.ok.injEq] at p1
    unfold sliceSum
    rw [← p3, ← p1]
    simp [add_assoc]

/-- The hypotheses hold for the oxygen atom of water. -/
example : ∃ t el, orbInit exElements ["H", "O", "H"] = .ok t ∧ exElements "O" = some el ∧
    el.orbitals = orbitalList.take 4 ∧ el.energies.length = 4 ∧ t.norb = 6 :=
  ⟨_, _, rfl, rfl, rfl, rfl, rfl⟩

/-- C46: whatever the density matrix and overlap, the populations of the atoms add up to the populations of the
basis functions; with states normalized with respect to the overlap this is the number of electrons. -/
theorem c46_total (elements : String → Option ElementData) (symbols : List String) (t : OrbTables)
    (h : orbInit elements symbols = .ok t) (wk : Fin nk → ℝ) (wf S : Fin nk → CMat t.norb)
    (f : Fin nk → Fin t.norb → ℝ) (hS : ∀ k, SNormalized (wf k) (S k)) :
    ∃ q : List ℝ, (List.range symbols.length).mapM
        (atomMulliken t (mullikenDiag wk (fun k => computeRho (wf k) (f k)) S)) = .ok q ∧
      q.sum = ∑ mu, mullikenDiag wk (fun k => computeRho (wf k) (f k)) S mu ∧
      q.sum = ∑ k, wk k * ∑ a, f k a := by
  set diag := mullikenDiag wk (fun k => computeRho (wf k) (f k)) S with hd
  have hb := blocks_length _ _ _ h
  refine ⟨(List.range symbols.length).map fun I => sliceSum diag (t.blocks.getD I (0, 0)), ?_, ?_, ?_⟩
  · apply mapM_ok_of_forall
    intro I hI
    exact atomMulliken_eq _ _ _ h diag I (by rw [hb]; exact List.mem_range.1 hI)
  · rw [← hb, range_blocks_sum t (sliceSum diag), blocks_sum elements symbols t h]
  · rw [← hb, range_blocks_sum t (sliceSum diag), blocks_sum elements symbols t h, hd, mullikenDiag_sum _ _ _ _ hS]

/-- The hypotheses hold for a hydrogen molecule with two overlapping orbitals. -/
example : ∃ t, orbInit exElements ["H", "H"] = .ok t ∧ t.norb = 2 ∧
    SNormalized (!![1, 1; 0, Complex.I] : CMat 2) !![1, -(1 / 2); -(1 / 2), 1] := by
  refine ⟨_, rfl, rfl, ?_⟩
  intro a
  fin_cases a <;> simp [Fin.sum_univ_two]
  norm_num

/-- C46: the populations of the pieces of one state.  For a state normalized with respect to the overlap the
populations of the basis functions add up to one, those of an atom's basis functions to the atom's, those of all
atoms to the weight factor. -/
theorem c46_state (elements : String → Option ElementData) (symbols : List String) (t : OrbTables)
    (h : orbInit elements symbols = .ok t) (wk : Fin nk → ℝ) (wf S : Fin nk → CMat t.norb)
    (hS : ∀ k, SNormalized (wf k) (S k)) (k : Fin nk) (a : Fin t.norb) (u : Bool) :
    let aux := fun k => auxPop (wf k) (S k)
    let w := if u then wk k else 1
    (∀ mu : Fin t.norb, basisWf wk aux mu k a u = .ok (w * aux k a mu)) ∧ ∑ mu, aux k a mu = 1 ∧
    (∀ I < symbols.length, atomWf t wk aux I k a u = .ok (w * atomPart t I (aux k a))) ∧
    (∃ q, atomsWf t wk aux k a u = .ok q ∧ q.length = symbols.length ∧ q.sum = w ∧
      ∀ I < symbols.length, q[I]? = some (w * atomPart t I (aux k a))) := by
  intro aux w
  have hb := blocks_length _ _ _ h
  have hw : wFactor wk k u = w := rfl
  have hsum : ∑ mu, aux k a mu = 1 := by
    have : ∑ mu, aux k a mu
        = (∑ i, ∑ j, (starRingEnd ℂ) (wf k a i) * S k i j * wf k a j).re := by
      rw [Complex.re_sum]
      apply Finset.sum_congr rfl
      intro mu _
      simp only [aux, auxPop, Matrix.transpose_apply, Finset.mul_sum]
      congr 1
      apply Finset.sum_congr rfl
      intro nu _
      ring
    rw [this, hS k a, Complex.one_re]
  have hat : ∀ I < symbols.length, atomWf t wk aux I k a u = .ok (w * atomPart t I (aux k a)) := by
    intro I hI
    rw [← hb] at hI
    rw [atomWf_eq _ _ _ h wk aux I k a u hI, hw, sliceSum_atomPart _ _ _ h I hI]
  refine ⟨?_, hsum, hat, (List.range t.blocks.length).map fun I => w * sliceSum (aux k a) (t.blocks.getD I (0, 0)),
    ?_, ?_, ?_, ?_⟩
  · intro mu
    unfold basisWf
    rw [atIdx_of_lt _ mu.2]
    rfl
  · apply mapM_ok_of_forall
    intro I hI
    exact atomWf_eq _ _ _ h wk aux I k a u (List.mem_range.1 hI)
  · simp [hb]
  · rw [List.sum_map_mul_left, range_blocks_sum t (sliceSum (aux k a)), blocks_sum elements symbols t h, hsum, mul_one]
  · intro I hI
    rw [← hb] at hI
    rw [List.getElem?_map, List.getElem?_range hI, Option.map_some, sliceSum_atomPart _ _ _ h I hI]

/-- C46: per angular momentum for one state. -/
theorem c46_state_angmom (elements : String → Option ElementData) (symbols : List String) (t : OrbTables)
    (h : orbInit elements symbols = .ok t) (wk : Fin nk → ℝ) (aux : Fin nk → Fin t.norb → Fin t.norb → ℝ)
    (k : Fin nk) (a : Fin t.norb) (u : Bool) (I : ℕ) (s : String) (el : ElementData)
    (hs : symbols[I]? = some s) (hel : elements s = some el) (no : ℕ) (hno : no = 1 ∨ no = 4 ∨ no = 9)
    (horb : el.orbitals = orbitalList.take no) (hen : el.energies.length = no) :
    let w := if u then wk k else 1
    atomWfAngmom t wk aux I k a u = .ok [w * shellPart t I 0 (aux k a), w * shellPart t I 1 (aux k a),
      w * shellPart t I 2 (aux k a)] := by
  intro w
  have hI : I < t.blocks.length := by
    rw [blocks_length _ _ _ h]; exact (List.getElem?_eq_some_iff.1 hs).1
  obtain ⟨o, m, hab⟩ := block_of_lt t I hI
  have h1 := atomWfOrbitals_eq _ _ _ h wk aux I k a u o m hab
  have h3 := angmomPop_shell _ _ _ h I s el hs hel no hno horb hen o m hab (fun mu => w * aux k a mu)
  have e : ∀ l, shellPart t I l (fun mu => w * aux k a mu) = w * shellPart t I l (aux k a) := by
    intro l
    unfold shellPart
    rw [Finset.mul_sum]
    apply Finset.sum_congr rfl
    intro mu _
    split_ifs <;> simp
  simp only [e] at h3
  unfold atomWfAngmom
  rw [h1, ← h3]
  simp only [bind, Except.bind]
  congr 1
  rw [List.map_take, List.map_drop, List.map_ofFn]
  rfl

/-- C46: the population of a basis function is the sum over the states of weight times occupation times the
population of the piece, for a Hermitian overlap. -/
theorem c46_pieces {n : ℕ} (wk : Fin nk → ℝ) (wf S : Fin nk → CMat n) (f : Fin nk → Fin n → ℝ)
    (hS : ∀ k, (S k).IsHermitian) (mu : Fin n) :
    mullikenDiag wk (fun k => computeRho (wf k) (f k)) S mu
      = ∑ k, ∑ a, wk k * f k a * auxPop (wf k) (S k) a mu := by
  unfold mullikenDiag
  apply Finset.sum_congr rfl
  intro k _
  simp only [mul_assoc]
  rw [← Finset.mul_sum]
  congr 1
  have e : rowDot (computeRho (wf k) (f k)) (S k) mu
      = ∑ a, (f k a : ℂ) * (wf k a mu * (starRingEnd ℂ) (∑ nu, wf k a nu * (S k)ᵀ nu mu)) := by
    unfold rowDot
    simp only [computeRho_apply, Finset.sum_mul, map_sum, map_mul, Matrix.transpose_apply]
    rw [Finset.sum_comm]
    apply Finset.sum_congr rfl
    intro a _
    rw [Finset.mul_sum, Finset.mul_sum]
    apply Finset.sum_congr rfl
    intro nu _
    have : (starRingEnd ℂ) (S k mu nu) = S k nu mu := (hS k).apply nu mu
    rw [this]
    ring
  rw [e, Complex.re_sum]
  apply Finset.sum_congr rfl
  intro a _
  rw [Complex.re_ofReal_mul]
  congr 1
  unfold auxPop
  rw [← Complex.conj_re]
  simp

/-- C46: `get_atoms_mulliken()[I]` is the population of atom `I` minus its number of valence electrons (an excess
population), while `get_atom_mulliken(I)` is the population itself. -/
theorem c46_atoms_partial (elements : String → Option ElementData) (symbols : List String) (t : OrbTables)
    (h : orbInit elements symbols = .ok t) (diag : Fin t.norb → ℝ) (val : List ℝ)
    (hv : val.length = symbols.length) (I : ℕ) (hI : I < symbols.length) :
    (atomsMulliken t diag val).length = symbols.length ∧
    (atomsMulliken t diag val)[I]? = some (atomPart t I diag - val[I]) ∧
    atomMulliken t diag I = .ok (atomPart t I diag) := by
  have hb := blocks_length _ _ _ h
  refine ⟨by simp [atomsMulliken, hb, hv], ?_, (c46_atom _ _ _ h diag).2.1 I hI⟩
  rw [← sliceSum_atomPart _ _ _ h I (by omega)]
  unfold atomsMulliken
  rw [List.getElem?_eq_getElem (by simp [hb, hv, hI])]
  simp [hb, hI]

/-- C46 refuted in its last clause: for a hydrogen molecule with one electron on each atom
`get_atoms_mulliken()[0]` is zero, `get_atom_mulliken(0)` is one. -/
theorem c46_atoms_fails : ∃ (elements : String → Option ElementData) (symbols : List String) (t : OrbTables)
    (diag : Fin t.norb → ℝ) (val : List ℝ), orbInit elements symbols = .ok t ∧ val.length = symbols.length ∧
    (atomsMulliken t diag val)[0]? = some 0 ∧ atomMulliken t diag 0 = .ok 1 := by
  refine ⟨exElements, ["H", "H"], _, fun _ => 1, [1, 1], rfl, rfl, ?_, ?_⟩
  · simp [atomsMulliken, OrbTables.blocks, sliceSum]
  · simp [atomMulliken, OrbTables.indicesOf, bind, Except.bind, pure, Except.pure, atIdx]

end Hotbit
