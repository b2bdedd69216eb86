import Verif.Lemmas.Bands
import Verif.Lemmas.BandMesh
import Verif.Props.MatricesRaise

/-!
# C122: band energies

* `c122_stored` – without points the eigenvalues of the calculation, in eV, from the Fermi level.
* `c122_states_partial` – the energies at a point are those of the states there (two or more orbitals).
* `c122_own_points` – at its own points the calculation is reproduced, with the right `h1`.
* `c122_periodic` – adding 2π times integers to the κ-points changes nothing.
* `c122_reversal` – opposite points have the same energies.
* `c122_mesh` – the reduced mesh with its weights gives the mean over the whole mesh.
* `c122_kpoints` – k-points are the κ-points with the same Bloch phases; Bravais lattices only.
* `c122_refused` – an unknown `rs`.
* `c122_default_fails` – with SCC the default `h1=False` gives other energies.
* `c122_nonscc_fails` – without SCC `h1=True` raises `AttributeError`.
* `c122_drawing_fails` – the phases with which states are drawn are replaced.
-/

namespace Hotbit

open Matrix
open scoped ComplexOrder

theorem fin_inEV {n : ℕ} (hartree mu : ℝ) (shift : Bool) :
    (fun (e : Fin n → ℝ) a => if shift then e a * hartree - mu * hartree else e a * hartree)
      = inEV hartree mu shift := by
  funext e a
  unfold inEV
  cases shift
  · simp
  · simp only [if_true]; ring

theorem bandEnergies_none {I : MatIn} (L : Lapack I.norb) (tol hartree : ℝ) (A : Atoms)
    (b : BandSt I) (shift : Bool) (rs : RecSpace) (h1 : Bool) :
    bandEnergies L tol hartree A b none shift rs h1 = (.ok (b.e.map (inEV hartree b.mu shift)), b) := by
  unfold bandEnergies
  simp only [fin_inEV]

theorem bandEnergies_kappa {I : MatIn} (L : Lapack I.norb) (tol hartree : ℝ) (A : Atoms)
    (b : BandSt I) (ks : List Vec) (shift : Bool) (h1 : Bool) :
    bandEnergies L tol hartree A b (some ks) shift .kappa h1
      = ((stBandEnergies L tol b ks h1).1.map fun l => l.map (inEV hartree b.mu shift),
          (stBandEnergies L tol b ks h1).2) := by
  unfold bandEnergies
  simp only [fin_inEV]

/-- Without points: the eigenvalues of the calculation in eV, measured from the Fermi level if
`shift`; nothing changes. -/
theorem c122_stored {I : MatIn} (L : Lapack I.norb) (tol hartree : ℝ) (A : Atoms)
    (b : BandSt I) (shift : Bool) (rs : RecSpace) (h1 : Bool) :
    bandEnergies L tol hartree A b none shift rs h1 = (.ok (b.e.map (inEV hartree b.mu shift)), b) :=
  bandEnergies_none L tol hartree A b shift rs h1

theorem stBand_ok {I : MatIn} (L : Lapack I.norb) (tol : ℝ) (b : BandSt I) (ks : List Vec)
    (h1 : Bool) (Ms) (r) (hm : matricesList I ks = .ok Ms) (hb : h1 = true → b.h1.isSome)
    (hr : solveAll L tol (if h1 then b.h1 else none) Ms = .ok r) :
    (stBandEnergies L tol b ks h1).1 = .ok (r.map Prod.fst) := by
  unfold stBandEnergies
  simp only [hm]
  cases h1 with
  | false =>
    simp only [Bool.false_eq_true, if_false] at hr ⊢
    show (do let r ← solveAll L tol none Ms; .ok (r.map Prod.fst)) = _
    rw [hr]; rfl
  | true =>
    obtain ⟨h, hh⟩ := Option.isSome_iff_exists.1 (hb rfl)
    simp only [if_true, hh] at hr ⊢
    show (do let r ← solveAll L tol (some h) Ms; .ok (r.map Prod.fst)) = _
    rw [hr]; rfl

/-- Two or more orbitals: at every point at which the matrices can be built, are Hermitian and have
positive definite overlap, the energies are those of the states there, in eV. -/
theorem c122_states_partial {I : MatIn} (hn : 2 ≤ I.norb) (L : Lapack I.norb) (hL : L.Ok) (tol : ℝ)
    (ht : 0 ≤ tol) (hartree : ℝ) (A : Atoms) (b : BandSt I) (hs : SymmH1 b.h1) (ks : List Vec)
    (hk : ∀ k ∈ ks, GoodPoint I k) (shift h1 : Bool) (hb : h1 = true → b.h1.isSome) :
    ∃ r, (bandEnergies L tol hartree A b (some ks) shift .kappa h1).1
        = .ok (r.map (inEV hartree b.mu shift)) ∧
      List.Forall₂ (IsBand I (if h1 then b.h1 else none)) ks r := by
  have hs' : SymmH1 (if h1 then b.h1 else none) := by
    cases h1
    · intro h hh; simp at hh
    · exact hs
  obtain ⟨Ms, r, hm, hr, hf⟩ := bands_good hn L hL tol ht _ hs' ks hk
  refine ⟨r.map Prod.fst, ?_, hf⟩
  rw [bandEnergies_kappa, stBand_ok L tol b ks h1 Ms r hm hb hr]
  rfl

/-- The energies of the calculation are found again at its own points, if the electrostatic part is
asked for just when there is one. -/
theorem c122_own_points {I : MatIn} (L : Lapack I.norb) (tol hartree : ℝ) (A : Atoms) (ks : List Vec)
    (H1 : Option (Fin I.norb → Fin I.norb → ℝ)) (mu : ℝ) (b : BandSt I)
    (h : solveBands L tol ks H1 mu = .ok b) (shift : Bool) (rs : RecSpace) :
    (bandEnergies L tol hartree A b (some ks) shift .kappa H1.isSome).1
      = (bandEnergies L tol hartree A b none shift rs H1.isSome).1 := by
  unfold solveBands at h
  cases hm : matricesList I ks with
  | error x => rw [hm] at h; cases h
  | ok Ms =>
    rw [hm] at h
    replace h : (do let r ← solveAll L tol H1 Ms
                    .ok { ks := ks, e := r.map Prod.fst, h1 := H1, mu := mu,
                          phases := phasesAt I ks }) = Except.ok b := h
    cases hr : solveAll L tol H1 Ms with
    | error x => rw [hr] at h; cases h
    | ok r =>
      rw [hr] at h
      cases h
      rw [bandEnergies_kappa, bandEnergies_none]
      simp only
      rw [stBand_ok L tol _ ks H1.isSome Ms r hm (fun h => h) ?_]
      · rfl
      · cases H1
        · exact hr
        · exact hr

theorem matricesAt_periodic (I : MatIn) (k : Vec) (m : Op) :
    matricesAt I (fun c => k c + 2 * Real.pi * m c) = matricesAt I k := by
  unfold matricesAt
  rw [getMatrices_phase I _ k (blochPhase_periodic k m)]

/-- Adding 2π times integers to the κ-points changes neither the energies nor the exception. -/
theorem c122_periodic {I : MatIn} (L : Lapack I.norb) (tol hartree : ℝ) (A : Atoms) (b : BandSt I)
    (ks ks' : List Vec)
    (h : List.Forall₂ (fun k k' => ∃ m : Op, k' = fun c => k c + 2 * Real.pi * m c) ks ks')
    (shift h1 : Bool) :
    (bandEnergies L tol hartree A b (some ks') shift .kappa h1).1
      = (bandEnergies L tol hartree A b (some ks) shift .kappa h1).1 := by
  have e : matricesList I ks' = matricesList I ks := by
    unfold matricesList
    induction h with
    | nil => rfl
    | cons hk _ ih =>
      obtain ⟨m, rfl⟩ := hk
      rw [List.mapM_cons, List.mapM_cons, matricesAt_periodic, ih]
  rw [bandEnergies_kappa, bandEnergies_kappa]
  simp only [stBandEnergies, e]

/-- Opposite points have the same energies (time reversal). -/
theorem c122_reversal {I : MatIn} (hn : 2 ≤ I.norb) (L : Lapack I.norb) (hL : L.Ok) (tol : ℝ)
    (ht : 0 ≤ tol) (hartree : ℝ) (A : Atoms) (b : BandSt I) (hs : SymmH1 b.h1) (ks : List Vec)
    (hk : ∀ k ∈ ks, GoodPoint I k) (shift h1 : Bool) (hb : h1 = true → b.h1.isSome) :
    (bandEnergies L tol hartree A b (some (ks.map fun k => -k)) shift .kappa h1).1
      = (bandEnergies L tol hartree A b (some ks) shift .kappa h1).1 := by
  obtain ⟨r, h, hf⟩ := c122_states_partial hn L hL tol ht hartree A b hs ks hk shift h1 hb
  obtain ⟨r', h', hf'⟩ := c122_states_partial hn L hL tol ht hartree A b hs (ks.map fun k => -k)
    (by
      intro k hk'
      obtain ⟨k', hk'', rfl⟩ := List.mem_map.1 hk'
      exact goodPoint_neg I k' (hk k' hk'')) shift h1 hb
  rw [h, h']
  rw [List.forall₂_map_left_iff] at hf'
  rw [forall2_unique (fun k e e' (h : IsBand I _ k e) (h' : IsBand I _ k e') => isBand_unique h h') hf
    (hf'.imp fun k e hke => by
      have := isBand_neg I _ _ e hke
      rwa [neg_neg] at this)]

/-- The points that are kept, with their weights, give the mean over the whole mesh, for every
quantity that is the same at opposite points, such as any function of the band energies. -/
theorem c122_mesh (A : Atoms) (width : ℝ) (n : Fin 3 → ℤ) (physical rsK : Bool)
    (s : KSampling) (h : setupKSampling A width (.tuple n) physical rsK = .ok s)
    (hn : ∀ i, n i ≤ 10 ^ 10) (g : Vec → ℝ) (hg : ∀ k, g (-k) = g k) :
    (s.points.map fun q => q.2 * g q.1).sum
      = (∑ a ∈ Finset.range (n 0).toNat, ∑ b ∈ Finset.range (n 1).toNat,
          ∑ c ∈ Finset.range (n 2).toNat, g (meshPoint A n ![a, b, c])) / (n 0 * n 1 * n 2) :=
  sampling_mean A width n physical rsK s h hn g hg

/-- For a Bravais lattice k-points give the energies at the κ-points `κ_i = a_i · k`, at which the
translation by `n` has the phase `exp(i k·T_n)`; for other containers `AssertionError`. -/
theorem c122_kpoints {I : MatIn} (L : Lapack I.norb) (tol hartree : ℝ) (A : Atoms) (b : BandSt I)
    (ks : List Vec) (shift h1 : Bool) :
    (A.ctype = .bravais → ∃ κ : List Vec,
      bandEnergies L tol hartree A b (some ks) shift .k h1
        = bandEnergies L tol hartree A b (some κ) shift .kappa h1 ∧
      List.Forall₂ (fun k κ => ∀ n : Op, blochPhase κ n
        = Complex.exp (Complex.I * ((∑ c, k c * ∑ i, (n i : ℝ) * A.cell i c : ℝ) : ℂ))) ks κ) ∧
    (A.ctype ≠ .bravais →
      bandEnergies L tol hartree A b (some ks) shift .k h1 = (.error .assertionError, b)) := by
  constructor
  · intro hA
    refine ⟨ks.map fun k => A.cell.mulVec k, ?_, ?_⟩
    · unfold bandEnergies
      simp only [kToKappa, hA, ne_eq, not_true_eq_false, if_false]
    · rw [List.forall₂_map_right_iff, List.forall₂_same]
      intro k _ n
      unfold blochPhase
      congr 3
      simp only [Matrix.mulVec, dotProduct, Fin.sum_univ_three]
      ring
  · intro hA
    unfold bandEnergies
    simp only [kToKappa, ne_eq, hA, not_false_eq_true, if_true]

/-- An unknown name of the space is not noticed before `klist` is missing. -/
theorem c122_refused {I : MatIn} (L : Lapack I.norb) (tol hartree : ℝ) (A : Atoms) (b : BandSt I)
    (ks : List Vec) (shift h1 : Bool) :
    bandEnergies L tol hartree A b (some ks) shift .other h1 = (.error .unboundLocalError, b) := rfl

theorem isBand_shift {I : MatIn} (c : ℝ) (k : Vec) (e : Fin I.norb → ℝ) (h : IsBand I none k e) :
    IsBand I (some fun _ _ => c) k fun a => e a + c := by
  obtain ⟨H, S, wf, hm, hst⟩ := h
  refine ⟨H, S, wf, hm, ?_, hst.orthonormal, fun a i => ?_⟩
  · intro a b hab
    have := hst.ascending hab
    simp only
    linarith
  · have := hst.solve a i
    have hj : ∀ j, scfHamiltonian (some fun _ _ => c) H S i j = H i j + c * S i j := fun j => rfl
    replace this : ∑ j, H i j * wf a j = (e a : ℂ) * ∑ j, S i j * wf a j := this
    simp only [hj, add_mul, Finset.sum_add_distrib, mul_assoc]
    rw [this, ← Finset.mul_sum]
    push_cast
    ring

/-- With SCC and a uniform potential `c`, the default `h1=False` misses `c` in all the energies at
the own points of the calculation. -/
theorem c122_default_fails {I : MatIn} (hn : 2 ≤ I.norb) (L : Lapack I.norb) (hL : L.Ok) (tol : ℝ)
    (ht : 0 ≤ tol) (hartree : ℝ) (hh : 0 < hartree) (A : Atoms) (ks : List Vec) (hks : ks ≠ [])
    (hk : ∀ k ∈ ks, GoodPoint I k) (c mu : ℝ) (hc : c ≠ 0) (b : BandSt I)
    (h : solveBands L tol ks (some fun _ _ => c) mu = .ok b) (shift : Bool) :
    (∃ r, (bandEnergies L tol hartree A b (some ks) shift .kappa false).1 = .ok r ∧
      (bandEnergies L tol hartree A b none shift .kappa false).1
        = .ok (r.map fun e a => e a + c * hartree)) ∧
    (bandEnergies L tol hartree A b (some ks) shift .kappa false).1
      ≠ (bandEnergies L tol hartree A b none shift .kappa false).1 := by
  have hb1 : b.h1 = some fun _ _ => c := by
    unfold solveBands at h
    cases hm : matricesList I ks with
    | error x => rw [hm] at h; cases h
    | ok Ms =>
      rw [hm] at h
      cases hr : solveAll L tol (some fun _ _ => c) Ms with
      | error x =>
        replace h : (do let r ← solveAll L tol (some fun _ _ => c) Ms
                        .ok { ks := ks, e := r.map Prod.fst, h1 := some fun _ _ => c, mu := mu,
                              phases := phasesAt I ks }) = Except.ok b := h
        rw [hr] at h; cases h
      | ok r =>
        replace h : (do let r ← solveAll L tol (some fun _ _ => c) Ms
                        .ok { ks := ks, e := r.map Prod.fst, h1 := some fun _ _ => c, mu := mu,
                              phases := phasesAt I ks }) = Except.ok b := h
        rw [hr] at h; cases h; rfl
  have hs : SymmH1 b.h1 := by
    intro x hx i j
    rw [hb1] at hx
    cases hx; rfl
  obtain ⟨r0, e0, f0⟩ := c122_states_partial hn L hL tol ht hartree A b hs ks hk shift false (by simp)
  obtain ⟨r1, e1, f1⟩ := c122_states_partial hn L hL tol ht hartree A b hs ks hk shift true
    (by rw [hb1]; simp)
  have own := c122_own_points L tol hartree A ks (some fun _ _ => c) mu b h shift .kappa
  simp only [Option.isSome_some] at own
  rw [e1, bandEnergies_none] at own
  simp only [Bool.false_eq_true, if_false] at f0
  simp only [if_true, hb1] at f1
  have hr : r1 = r0.map fun e a => e a + c := by
    refine forall2_unique (fun k e e' (h : IsBand I _ k e) (h' : IsBand I _ k e') =>
      isBand_unique h h') f1 ?_
    rw [List.forall₂_map_right_iff]
    exact f0.imp fun k e hke => isBand_shift c k e hke
  have key : (bandEnergies L tol hartree A b none shift .kappa false).1
      = .ok ((r0.map (inEV hartree b.mu shift)).map fun e a => e a + c * hartree) := by
    rw [bandEnergies_none, ← own, hr, List.map_map, List.map_map]
    congr 1
    refine List.map_congr_left fun e _ => ?_
    funext a
    simp only [Function.comp, inEV]
    ring
  refine ⟨⟨_, e0, key⟩, ?_⟩
  rw [e0, key]
  intro heq
  have heq := Except.ok.inj heq
  have hne : r0 ≠ [] := by
    rintro rfl
    cases f0
    exact hks rfl
  obtain ⟨e, r, rfl⟩ := List.exists_cons_of_ne_nil hne
  simp only [List.map_cons, List.cons.injEq] at heq
  have := congrFun heq.1 ⟨0, by omega⟩
  have h0 : c * hartree = 0 := by linarith
  rcases mul_eq_zero.1 h0 with h0 | h0
  · exact hc h0
  · exact hh.ne' h0

/-- Without SCC asking for the electrostatic part raises `AttributeError`. -/
theorem c122_nonscc_fails {I : MatIn} (L : Lapack I.norb) (tol hartree : ℝ) (A : Atoms) (b : BandSt I)
    (hb : b.h1 = none) (ks : List Vec) (hk : ∀ k ∈ ks, GoodPoint I k) (shift : Bool) :
    (bandEnergies L tol hartree A b (some ks) shift .kappa true).1 = .error .attributeError := by
  obtain ⟨Ms, hm, -, -⟩ := matricesList_ok I ks hk
  rw [bandEnergies_kappa]
  simp only [stBandEnergies, hm, hb]
  rfl

theorem mapM_column (rows : List (List ℂ)) (ik : ℕ) :
    (∀ row ∈ rows, ik < row.length) →
    (rows.mapM fun row => row[ik]?.elim (.error .indexError : Except Exn ℂ) .ok) = .ok (rows.map fun row => row[ik]?.getD 0) := by
  intro h
  induction rows with
  | nil => rfl
  | cons row rows ih =>
    have hr := h row List.mem_cons_self
    rw [List.mapM_cons, ih fun r hr => h r (List.mem_cons_of_mem _ hr),
      List.map_cons, List.getElem?_eq_getElem hr]
    rfl

/-- After band energies at the zone centre were asked for, the states of a calculation with two
points `0`, `k` are drawn with the phases of the zone centre, or not at all. -/
theorem c122_drawing_fails {I : MatIn} (L : Lapack I.norb) (tol hartree : ℝ) (A : Atoms) (b : BandSt I)
    (k : Vec) (hp : b.phases = phasesAt I [0, k]) (l) (ht : I.transforms = .ok l)
    (n : Op) (hn : n ∈ I.ntuples) (hk : blochPhase k n ≠ 1) (shift h1 : Bool) :
    b.phaseColumn 1 = .ok (I.ntuples.map (blochPhase k)) ∧
    (bandEnergies L tol hartree A b (some [0]) shift .kappa h1).2.phaseColumn 1
      = .error .indexError ∧
    (bandEnergies L tol hartree A b (some [0, 0]) shift .kappa h1).2.phaseColumn 1
      ≠ .ok (I.ntuples.map (blochPhase k)) := by
  have hz : ∀ m, blochPhase 0 m = 1 := fun m => by simp [blochPhase]
  refine ⟨?_, ?_, ?_⟩
  · unfold BandSt.phaseColumn
    rw [hp, mapM_column _ 1 (by simp [phasesAt])]
    simp [phasesAt]
  · rw [bandEnergies_kappa]
    simp only [stBandEnergies, ht, BandSt.phaseColumn, phasesAt]
    obtain ⟨m, ms, hm⟩ := List.exists_cons_of_ne_nil (List.ne_nil_of_mem hn)
    rw [hm]
    rfl
  · rw [bandEnergies_kappa]
    simp only [stBandEnergies, ht, BandSt.phaseColumn]
    rw [mapM_column _ 1 (by simp [phasesAt])]
    intro h
    have h := Except.ok.inj h
    simp only [phasesAt, List.map_map, List.map_inj_left, Function.comp] at h
    have := h n hn
    simp [hz] at this
    exact hk this.symm

/-! ### Points at which the theorems apply -/

theorem mem_orbitals (I : MatIn) (o : ℕ × Fin 9) : o ∈ I.orbitals ↔ o.1 < I.N ∧ o.2.val < I.no o.1 := by
  obtain ⟨i, p⟩ := o
  simp only [MatIn.orbitals, List.mem_flatMap, List.mem_range, List.mem_map, List.mem_filter,
    List.mem_finRange, true_and, decide_eq_true_eq, Prod.mk.injEq]
  constructor
  · rintro ⟨i', hi, p', hp, rfl, rfl⟩
    exact ⟨hi, hp⟩
  · rintro ⟨hi, hp⟩
    exact ⟨i, hi, p, hp, rfl, rfl⟩

theorem orbitals_nodup (I : MatIn) : I.orbitals.Nodup := by
  unfold MatIn.orbitals
  rw [List.nodup_flatMap]
  refine ⟨fun i _ => ((List.nodup_finRange 9).filter _).map fun a b h => (Prod.mk.inj h).2, ?_⟩
  refine List.nodup_range.imp ?_
  intro i j hij o ho ho'
  obtain ⟨p, -, rfl⟩ := List.mem_map.1 ho
  obtain ⟨q, -, h⟩ := List.mem_map.1 ho'
  exact hij (Prod.mk.inj h).1.symm

/-- The matrices in the order of the orbitals are Hermitian if the blocks are (C29). -/
theorem flat_hermitian (I : MatIn) (X : BMat)
    (h : ∀ i < I.N, ∀ j < I.N, ∀ p q : Fin 9, p.val < I.no i → q.val < I.no j →
      X j i q p = starRingEnd ℂ (X i j p q)) : (I.flat X).IsHermitian := by
  ext x y
  have hx := (mem_orbitals I _).1 (List.getElem_mem x.2)
  have hy := (mem_orbitals I _).1 (List.getElem_mem y.2)
  rw [conjTranspose_apply]
  show starRingEnd ℂ (X _ _ _ _) = X _ _ _ _
  exact (h _ hy.1 _ hx.1 _ _ hy.2 hx.2).symm

theorem flat_one (I : MatIn) (X : BMat)
    (h : ∀ i < I.N, ∀ j < I.N, ∀ p q : Fin 9, p.val < I.no i → q.val < I.no j →
      X i j p q = if i = j ∧ p = q then 1 else 0) : I.flat X = 1 := by
  ext x y
  have hx := (mem_orbitals I _).1 (List.getElem_mem x.2)
  have hy := (mem_orbitals I _).1 (List.getElem_mem y.2)
  show X _ _ _ _ = _
  refine (h _ hx.1 _ hy.1 _ _ hx.2 hy.2).trans ?_
  rw [one_apply]
  by_cases hxy : x = y
  · subst hxy
    simp
  · rw [if_neg hxy, if_neg]
    intro hc
    have : I.orbitals[x] = I.orbitals[y] := Prod.ext hc.1 hc.2
    have := (orbitals_nodup I).getElem_inj_iff.1 this
    exact hxy (Fin.ext this)

/-- A chain of two atoms in a cell of length three, with one orthogonal orbital each, hopping -1 within
the range 2.5: all points are good. -/
example (J : SkJunk) (k : Vec) :
    let A : Atoms := { ctype := .bravais, atoms := [("H", 0), ("H", ![1, 0, 0])],
                       pbc := ![true, false, false], cell := fun i j => if i = j then 3 else 0 }
    let tab : String → String → SkTable := fun _ _ =>
      ⟨0, 2.5, fun _ m => if m = skIntegralIndex 0 0 0 then -1 else 0, 0, 0, 0⟩
    let I := MatIn.ofAtoms A 1 (fun _ => 1) 0 0 tab J (fun _ _ => 3) (boxOps ![1, 0, 0])
    GoodPoint I k ∧ I.norb = 2 ∧ ![1, 0, 0] ∈ I.ntuples ∧ ∃ l, I.transforms = .ok l := by
  intro A tab I
  have hn : ∀ (n : Op) (i j : ℕ), i < 2 → j < 2 → I.rij n i j
      = ![3 * (n 0 : ℝ) + j - i, 3 * (n 1 : ℝ), 3 * (n 2 : ℝ)] := by
    intro n i j hi hj
    show imagePos A 1 n j - imagePos A 1 0 i = _
    interval_cases i <;> interval_cases j <;> ext c <;> fin_cases c <;>
      simp [imagePos, A, Atoms.rawTransform, Atoms.positions, mul_comm, vecHead, vecTail] <;> ring
  have hmem : ∀ n ∈ I.ntuples, n ∈ boxOps ![1, 0, 0] := by
    intro n hn
    have hn' : n ∈ selectImages A.atoms.length (imagePos A 1) (fun _ _ => 3) (boxOps ![1, 0, 0]) := hn
    unfold selectImages at hn'
    rcases List.mem_cons.mp hn' with rfl | h
    · rw [mem_boxOps]; intro c; fin_cases c <;> simp
    · exact List.mem_of_mem_filter h
  have hpar : ∀ s, ParityTable SkTable.h (tab s s) ∧ ParityTable SkTable.s (tab s s) := by
    intro s
    constructor
    · intro d la hla lb hlb m hm
      simp only [tab]
      interval_cases la <;> interval_cases lb <;> fin_cases m <;> simp [skIntegralIndex] at hm ⊢
    · intro d la _ lb _ m _
      simp [tab]
  have hclose : NotTooClose I := by
    intro i j hij hj n hnn hne
    have hN : I.N = 2 := rfl
    have hb := (mem_boxOps _ _).mp (hmem n hnn)
    have h1 := hb 1
    have h2 := hb 2
    simp at h1 h2
    have e1 : n 1 = 0 := by omega
    have e2 : n 2 = 0 := by omega
    rw [hn n i j (by omega) (by omega), e1, e2]
    simp only [Int.cast_zero, mul_zero]
    rw [norm3_x]
    have e0 : 3 * n 0 + (j : ℤ) - i ≠ 0 := by
      intro e
      have hi2 : i < 2 := by omega
      have hj2 : j < 2 := by omega
      apply hne
      have e00 : n 0 = 0 := by omega
      refine ⟨by omega, ?_⟩
      ext c
      fin_cases c <;> simp [e00, e1, e2]
    have : (1 : ℝ) ≤ |((3 * n 0 + (j : ℤ) - i : ℤ) : ℝ)| := by exact_mod_cast Int.one_le_abs e0
    push_cast at this
    norm_num
    linarith
  have hc : Commuting A.ctype := trivial
  have hf : OrbitalsFollow I := orbitalsFollow_ofAtoms A hc 1 _ _ _ _ J _ _ fun n _ =>
    ⟨fun _ => by simp only [Atoms.rawRotation, A], by intro h; cases h⟩
  have hid : IdFirst I := by
    refine ⟨_, rfl, ?_⟩
    intro h
    have := List.mem_filter.1 h
    simp at this
  obtain ⟨-, hok⟩ := c29_bravais A rfl 1 k (fun _ => 1) 0 0 tab J (fun _ _ => 3) ![1, 0, 0]
    (fun _ _ => rfl) (fun _ _ => Or.inl rfl) hpar
  obtain ⟨st, hst, hherm⟩ := hok hclose
  have hS : ∀ i j, i ≤ j → j < I.N → ∀ p q : Fin 9, p.val < I.no i → q.val < I.no j →
      st.S i j p q = if i = j ∧ p = q then 1 else 0 := by
    intro i j hij hj p q hp hq
    rw [(c29_elements hst hid hf hij hj hp hq).2]
    have hz : blochSum I SkTable.s k i j p q = 0 := by
      unfold blochSum
      have : ∀ n, imageElem I SkTable.s i j n p q = 0 := by
        intro n
        simp [imageElem, skSpec, I, MatIn.ofAtoms, tab]
      simp [this]
    rw [hz]
    simp [I, MatIn.ofAtoms]
  refine ⟨⟨I.flat st.H0, I.flat st.S, ?_, ?_, ?_⟩, rfl, ?_, ?_⟩
  · show Except.map _ (getMatrices I k) = _
    rw [hst]; rfl
  · exact flat_hermitian I _ fun i hi j hj p q hp hq => (hherm i hi j hj p q hp hq).1
  · rw [flat_one I st.S]
    · exact PosDef.one
    · intro i hi j hj p q hp hq
      rcases le_total i j with hij | hij
      · exact hS i j hij hj p q hp hq
      · rw [(hherm j hj i hi q p hq hp).2, hS j i hij hi q p hq hp]
        by_cases hc : i = j ∧ p = q
        · rw [if_pos hc, if_pos ⟨hc.1.symm, hc.2.symm⟩, map_one]
        · rw [if_neg hc, if_neg fun h => hc ⟨h.1.symm, h.2.symm⟩, map_zero]
  · have : (![1, 0, 0] : Op) ∈ selectImages A.atoms.length (imagePos A 1) (fun _ _ => 3)
        (boxOps ![1, 0, 0]) := by
      unfold selectImages
      refine List.mem_cons.mpr (Or.inr ?_)
      rw [List.mem_filter, mem_boxOps, decide_eq_true_eq]
      refine ⟨fun c => by fin_cases c <;> simp, ?_, 0, by simp [A], 0, by simp [A], ?_⟩
      · intro h
        have := congrFun h 0
        simp at this
      · simp [imagePos, A, Atoms.rawTransform, Atoms.positions, Fin.sum_univ_three]
    exact this
  · obtain ⟨l, hl, -⟩ := getMatrices_ok hst
    exact ⟨l, hl⟩

/-- A κ-point with a phase other than one. -/
example : blochPhase ![Real.pi, 0, 0] ![1, 0, 0] ≠ 1 := by
  have : blochPhase ![Real.pi, 0, 0] ![1, 0, 0] = -1 := by
    unfold blochPhase
    simp only [Fin.sum_univ_three]
    simp [mul_comm Complex.I, Complex.exp_pi_mul_I]
  rw [this]
  norm_num

end Hotbit
