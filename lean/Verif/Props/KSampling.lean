import Verif.Lemmas.KMesh
import Verif.Props.Containers

set_option linter.unusedSimpArgs false

/-!
# C10 and C12: weights of the k-point sampling, refused samplings
-/

namespace Hotbit

open Real

/-! ## C10 -/

/-- C10: whatever mesh is requested (up to 10^10 points per direction), when the sampling succeeds:
there is a list `mesh` of exactly the `n₀n₁n₂` specified mesh points; the weights are positive and
add up to 1; a kept point is a mesh point and its weight is the share of mesh points that equal it
or are its inverse; every mesh point is kept or is the inverse of a kept one. -/
theorem c10_mesh (A : Atoms) (width : ℝ) (n : Fin 3 → ℤ) (physical rsK : Bool) (s : KSampling)
    (h : setupKSampling A width (.tuple n) physical rsK = .ok s) (hn : ∀ i, n i ≤ 10 ^ 10) :
    ∃ mesh : List Vec,
      (∀ p, p ∈ mesh ↔ ∃ j : Fin 3 → ℕ, (∀ i, (j i : ℤ) < n i) ∧ p = meshPoint A n j) ∧
      (mesh.length : ℤ) = n 0 * n 1 * n 2 ∧ mesh.Nodup ∧
      (s.points.map Prod.snd).sum = 1 ∧
      (∀ q ∈ s.points, 0 < q.2 ∧ q.1 ∈ mesh ∧
        q.2 = (classSize mesh q.1 : ℝ) / mesh.length) ∧
      (∀ p ∈ mesh, ∃ q ∈ s.points, q.1 = p ∨ norm3 (q.1 + p) < 1e-10) := by
  obtain ⟨hk, -⟩ := setup_tuple_ok A width n physical rsK s h
  obtain ⟨hpos, -, hs⟩ := kMesh_ok A n physical s hk
  set la := meshLine (A.numberOfTransformations 0).isNone (n 0) with hla
  set lb := meshLine (A.numberOfTransformations 1).isNone (n 1) with hlb
  set lc := meshLine (A.numberOfTransformations 2).isNone (n 2) with hlc
  set mesh := (meshPoints la lb lc).map (shear A) with hmesh
  have hfar : mesh.Pairwise (FarApart 2e-10) :=
    meshPoints_far A la lb lc _ (meshLine_sep _ _ (hpos 0) (hn 0))
      (meshLine_sep _ _ (hpos 1) (hn 1)) (meshLine_sep _ _ (hpos 2) (hn 2))
  have hlen : (mesh.length : ℤ) = n 0 * n 1 * n 2 := by
    rw [hmesh, List.length_map, meshPoints_length]
    push_cast
    rw [(c11_count _ _ (hpos 0)).1, (c11_count _ _ (hpos 1)).1, (c11_count _ _ (hpos 2)).1]
  have hlenR : ((n 0 * n 1 * n 2 : ℤ) : ℝ) = (mesh.length : ℝ) := by
    rw [← hlen]; push_cast; rfl
  have hlen0 : (0 : ℝ) < mesh.length := by
    rw [← hlenR]
    have := hpos 0; have := hpos 1; have := hpos 2
    have : 0 < n 0 * n 1 * n 2 := by positivity
    exact_mod_cast this
  have inv := mergeAll_inv (1 / (mesh.length : ℝ)) mesh hfar
  rw [hlenR] at hs
  rw [← hs] at inv
  refine ⟨mesh, ?_, hlen, ?_, ?_, ?_, ?_⟩
  · intro p
    simp only [hmesh, List.mem_map, mem_meshPoints, hla, hlb, hlc, meshLine, List.mem_range]
    constructor
    · rintro ⟨k, ⟨⟨j0, h0, e0⟩, ⟨j1, h1, e1⟩, ⟨j2, h2, e2⟩⟩, rfl⟩
      refine ⟨![j0, j1, j2], ?_, ?_⟩
      · intro i; fin_cases i <;> simp <;> omega
      · unfold meshPoint
        congr 1
        ext i; fin_cases i
        · exact e0.symm
        · exact e1.symm
        · exact e2.symm
    · rintro ⟨j, hj, rfl⟩
      have := hj 0; have := hj 1; have := hj 2
      exact ⟨_, ⟨⟨j 0, by omega, rfl⟩, ⟨j 1, by omega, rfl⟩, ⟨j 2, by omega, rfl⟩⟩, rfl⟩
  · refine hfar.imp ?_
    rintro a b ⟨i, hi⟩ rfl
    simp at hi; norm_num at hi
  · rw [inv.sum]; field_simp
  · intro q hq
    have hq1 : q.1 ∈ mesh := inv.sub.subset (List.mem_map_of_mem hq)
    have hsz := inv.size q hq
    have hpos : 0 < classSize mesh q.1 := by
      unfold classSize
      rw [List.countP_pos_iff]
      exact ⟨q.1, hq1, by simp⟩
    refine ⟨?_, hq1, ?_⟩
    · rw [hsz]; positivity
    · rw [hsz]; ring
  · intro p hp
    rcases inv.cover p hp with hk | ⟨q, hq, hc⟩
    · obtain ⟨q, hq, rfl⟩ := List.mem_map.1 hk
      exact ⟨q, hq, Or.inl rfl⟩
    · exact ⟨q, hq, Or.inr hc⟩

/-- C10: an explicit list of points gets equal weights that sum to 1. -/
theorem c10_list (A : Atoms) (width : ℝ) (l : List Vec) (hl : l ≠ []) (physical rsK : Bool)
    (s : KSampling) (h : setupKSampling A width (.list l) physical rsK = .ok s) :
    s.points.length = l.length ∧ (∀ q ∈ s.points, q.2 = 1 / (l.length : ℝ)) ∧
    (s.points.map Prod.snd).sum = 1 ∧ (rsK = false → s.points.map Prod.fst = l) := by
  have hlen : (0 : ℝ) < l.length := by exact_mod_cast List.length_pos_of_ne_nil hl
  have h := ((setup_ok_iff ..).1 h).2.1
  · have key : ∀ k : List Vec, k.length = l.length → (rsK = false → k = l) →
        s.points = (k.map fun x => (x, 1 / (l.length : ℝ))) →
        s.points.length = l.length ∧ (∀ q ∈ s.points, q.2 = 1 / (l.length : ℝ)) ∧
        (s.points.map Prod.snd).sum = 1 ∧ (rsK = false → s.points.map Prod.fst = l) := by
      intro k hk hr hs
      rw [hs]
      refine ⟨by simpa using hk, ?_, ?_, ?_⟩
      · intro q hq
        obtain ⟨x, -, rfl⟩ := List.mem_map.1 hq
        rfl
      · rw [List.map_map]
        have : (k.map (Prod.snd ∘ fun x => (x, 1 / (l.length : ℝ))))
            = k.map fun _ => 1 / (l.length : ℝ) := rfl
        rw [this, List.map_const', List.sum_replicate, hk]
        simp [hlen.ne']
      · intro h
        rw [List.map_map]
        simpa [Function.comp_def] using hr h
    simp only [kRaw, bind, Except.bind, pure, Except.pure] at h
    cases rsK with
    | false =>
      simp only [Bool.false_eq_true, if_false, Except.ok.injEq] at h
      exact key l rfl (fun _ => rfl) (by rw [← h])
    | true =>
      simp only [if_true, kToKappa] at h
      by_cases hb : A.ctype = .bravais
      · simp only [hb, ne_eq, not_true, if_false, Except.ok.injEq] at h
        exact key _ (List.length_map ..) (by simp) (by rw [← h])
      · simp [hb] at h

/-! ## C12 -/

/-- C12: a zero count is refused (every container that has a table; see `c12_slab_fails`). -/
theorem c12_zero (A : Atoms) (hA : A.ctype ≠ .slab) (width : ℝ) (n : Fin 3 → ℤ) (i : Fin 3)
    (h0 : n i = 0) (physical rsK : Bool) :
    setupKSampling A width (.tuple n) physical rsK = .error .assertionError := by
  have hz : n 0 = 0 ∨ n 1 = 0 ∨ n 2 = 0 := by
    fin_cases i
    · exact Or.inl h0
    · exact Or.inr (Or.inl h0)
    · exact Or.inr (Or.inr h0)
  simp only [setupKSampling]
  split
  · rfl
  · simp [kRaw, kMesh, Atoms.getTable, hA, hz, bind, Except.bind, throw, throwThe, MonadExceptOf.throw]

/-- C12: sampling beyond one point needs a positive electronic temperature. -/
theorem c12_width (A : Atoms) (width : ℝ) (hw : width < 1e-10) (n : Fin 3 → ℤ)
    (hn : n ≠ ![1, 1, 1]) (physical rsK : Bool) :
    setupKSampling A width (.tuple n) physical rsK = .error .assertionError := by
  unfold setupKSampling
  exact if_pos ⟨hn, hw⟩

/-- C12: a physical sampling that succeeds has, in each direction with a finite number of
operations, a count dividing that number. -/
theorem c12_divides (A : Atoms) (width : ℝ) (n : Fin 3 → ℤ) (rsK : Bool) (s : KSampling)
    (h : setupKSampling A width (.tuple n) true rsK = .ok s) (i : Fin 3) (M : ℤ) (hM1 : 1 ≤ M)
    (hM : A.numberOfTransformations i = some M) : n i ∣ M := by
  obtain ⟨hk, -⟩ := setup_tuple_ok A width n true rsK s h
  have key : ∀ l, kLine (some M) (n i) true = .ok l → n i ∣ M := by
    intro l hl
    simp only [kLine] at hl
    split at hl
    · simp at hl
    · rename_i hh
      simp only [and_true, not_not] at hh
      exact ((mem_divisors M _ (by omega)).1 hh).2
  simp only [kMesh, bind, Except.bind, pure, Except.pure] at hk
  split at hk
  · simp at hk
  split at hk
  · simp [throw, throwThe, MonadExceptOf.throw] at hk
  cases ha : kLine (A.numberOfTransformations 0) (n 0) true with
  | error e => simp [ha] at hk
  | ok a =>
  cases hb : kLine (A.numberOfTransformations 1) (n 1) true with
  | error e => simp [ha, hb] at hk
  | ok b =>
  cases hc : kLine (A.numberOfTransformations 2) (n 2) true with
  | error e => simp [ha, hb, hc] at hk
  | ok c =>
  fin_cases i
  · exact key a (by rw [← hM]; exact ha)
  · exact key b (by rw [← hM]; exact hb)
  · exact key c (by rw [← hM]; exact hc)

/-- C12: with positive counts and a positive temperature, a count that does not divide the finite
number of operations raises `Warning`. -/
theorem c12_warning (A : Atoms) (hA : A.ctype ≠ .slab) (width : ℝ) (hw : 1e-10 ≤ width)
    (n : Fin 3 → ℤ) (hn : ∀ i, 1 ≤ n i) (i : Fin 3) (M : ℤ) (hM1 : 1 ≤ M)
    (hM : A.numberOfTransformations i = some M) (hd : ¬ n i ∣ M) (rsK : Bool) :
    setupKSampling A width (.tuple n) true rsK = .error .warning := by
  have hz : ¬ (n 0 = 0 ∨ n 1 = 0 ∨ n 2 = 0) := by
    have := hn 0; have := hn 1; have := hn 2; omega
  have hw' : ¬ width < 1e-10 := not_lt.2 hw
  have key : ∀ M' m, 1 ≤ m → kLine M' m true = .error .warning ∨ ∃ l, kLine M' m true = .ok l := by
    intro M' m hm
    have : ¬ m < 0 := by omega
    cases M' with
    | none => right; simp [kLine, this]
    | some M' =>
      by_cases hh : m ∈ divisors M'
      · right; simp [kLine, this, hh]
      · left; simp [kLine, hh]
  have hi : kLine (A.numberOfTransformations i) (n i) true = .error .warning := by
    have : n i ∉ divisors M := fun hmem => hd ((mem_divisors M _ (by omega)).1 hmem).2
    rw [hM]; simp [kLine, this]
  have hmesh : kMesh A n true = .error .warning := by
    simp only [kMesh, Atoms.getTable, if_neg hA, if_neg hz, bind, Except.bind, pure, Except.pure]
    rcases key (A.numberOfTransformations 0) _ (hn 0) with h0 | ⟨a, h0⟩
    · simp [h0]
    rcases key (A.numberOfTransformations 1) _ (hn 1) with h1 | ⟨b, h1⟩
    · simp [h0, h1]
    rcases key (A.numberOfTransformations 2) _ (hn 2) with h2 | ⟨c, h2⟩
    · simp [h0, h1, h2]
    fin_cases i
    · simp [h0] at hi
    · simp [h1] at hi
    · simp [h2] at hi
  simp only [setupKSampling, kRaw, hmesh]
  rw [if_neg (fun hh => hw' hh.2)]
  rfl

/-- A wedge with five operations cannot be sampled with three points, but it can with five. -/
example : setupKSampling exWedge5 0.01 (.tuple ![3, 1, 1]) true false = .error .warning := by
  refine c12_warning exWedge5 (by simp [exWedge5]) _ (by norm_num) _ ?_ 0 5 (by norm_num) ?_ ?_ _
  · intro i; fin_cases i <;> simp
  · simp [Atoms.numberOfTransformations, exWedge5_ranges]
  · decide

/-- C12, sign-restricted: no returned k-point has a component above the tolerance along a
non-periodic direction. Missing: negative components, see `c12_negative_fails`. -/
theorem c12_nonperiodic_partial (A : Atoms) (width : ℝ) (kpts : KSpec) (physical rsK : Bool)
    (s : KSampling) (h : setupKSampling A width kpts physical rsK = .ok s) (i : Fin 3)
    (hi : A.pbc i = false) : ∀ q ∈ s.points, q.1 i ≤ 1e-10 := by
  have hc : kCheck A s.points = .ok () := ((setup_ok_iff ..).1 h).2.2
  intro q hq
  by_contra hh
  push Not at hh
  unfold kCheck at hc
  rw [if_pos ⟨i, q, hq, hh, hi⟩] at hc
  simp at hc

/-- C12: for meshes in all containers but DoubleChiral the clause holds in full: along a
non-periodic direction with a finite number of operations every component is (numerically) zero. -/
theorem c12_nonperiodic_mesh (A : Atoms) (hA : A.ctype ≠ .doubleChiral) (width : ℝ)
    (n : Fin 3 → ℤ) (physical rsK : Bool) (s : KSampling)
    (h : setupKSampling A width (.tuple n) physical rsK = .ok s) (hn : ∀ i, n i ≤ 10 ^ 10)
    (i : Fin 3) (hi : A.pbc i = false) (M : ℤ) (hM : A.numberOfTransformations i = some M) :
    ∀ q ∈ s.points, |q.1 i| ≤ 1e-10 := by
  intro q hq
  obtain ⟨mesh, hm, -, -, -, hq', -⟩ := c10_mesh A width n physical rsK s h hn
  obtain ⟨j, hj, he⟩ := (hm q.1).1 (hq' q hq).2.1
  have h0 : 0 ≤ q.1 i := by
    rw [he]
    simp only [meshPoint, shear, if_neg hA, hM, Option.isNone_some, meshCoord, Bool.false_eq_true,
      if_false]
    have := hj i
    have : (0 : ℝ) < n i := by
      have : 0 < n i := by omega
      exact_mod_cast this
    have := pi_pos
    positivity
  rw [abs_of_nonneg h0]
  exact c12_nonperiodic_partial A width _ physical rsK s h i hi q hq

/-- C12, the converse: positive counts dividing the finite numbers of operations, one point in
every non-periodic direction, and a positive temperature are accepted. -/
theorem c12_accepts (A : Atoms) (hA : A.ctype ≠ .slab) (width : ℝ) (hw : 1e-10 ≤ width)
    (n : Fin 3 → ℤ) (hn : ∀ i, 1 ≤ n i)
    (hd : ∀ i M, A.numberOfTransformations i = some M → 1 ≤ M ∧ n i ∣ M)
    (hp : ∀ i, A.pbc i = false → A.ctype ≠ .doubleChiral ∧ n i = 1 ∧
      (A.numberOfTransformations i).isSome = true) (rsK : Bool) :
    ∃ s, setupKSampling A width (.tuple n) true rsK = .ok s := by
  have hz : ¬ (n 0 = 0 ∨ n 1 = 0 ∨ n 2 = 0) := by
    have := hn 0; have := hn 1; have := hn 2; omega
  have hl : ∀ i, ∃ l, kLine (A.numberOfTransformations i) (n i) true = .ok l := by
    intro i
    have hneg : ¬ n i < 0 := by have := hn i; omega
    cases hM : A.numberOfTransformations i with
    | none => simp [kLine, hneg]
    | some M =>
      have := (mem_divisors M (n i) (by have := (hd i M hM).1; omega)).2
        ⟨by have := hn i; omega, (hd i M hM).2⟩
      simp [kLine, hneg, this]
  obtain ⟨s, hs⟩ : ∃ s, kMesh A n true = .ok s := by
    obtain ⟨a, ha⟩ := hl 0
    obtain ⟨b, hb⟩ := hl 1
    obtain ⟨c, hc⟩ := hl 2
    simp only [kMesh, Atoms.getTable, if_neg hA, if_neg hz, bind, Except.bind, pure, Except.pure,
      ha, hb, hc]
    rw [mapM_ok_of_forall _ (shear A) _ (fun k _ => applyEquivalent_eq A hA k)]
    exact ⟨_, rfl⟩
  refine ⟨s, (setup_ok_iff ..).2 ⟨fun h => absurd h.2 (not_lt.2 hw), hs, ?_⟩⟩
  obtain ⟨-, -, hpts⟩ := kMesh_ok A n true s hs
  unfold kCheck
  rw [if_neg]
  rintro ⟨i, q, hq, hgt, hpbc⟩
  obtain ⟨hnd, h1, hsome⟩ := hp i hpbc
  have hmem : q.1 ∈ (meshPoints (meshLine (A.numberOfTransformations 0).isNone (n 0))
      (meshLine (A.numberOfTransformations 1).isNone (n 1))
      (meshLine (A.numberOfTransformations 2).isNone (n 2))).map (shear A) := by
    rw [hpts] at hq
    exact mergeAll_mem _ _ q hq
  obtain ⟨k, hk, hkq⟩ := List.mem_map.1 hmem
  have hkq' : k = q.1 := by rw [← hkq]; simp [shear, hnd]
  rw [hkq'] at hk
  obtain ⟨M, hM⟩ := Option.isSome_iff_exists.1 hsome
  have h0 : q.1 i ∈ meshLine (A.numberOfTransformations i).isNone (n i) := by
    have := (mem_meshPoints _ _ _ _).1 hk
    fin_cases i
    · exact this.1
    · exact this.2.1
    · exact this.2.2
  rw [hM, h1] at h0
  simp [meshLine, meshCoord] at h0
  rw [h0] at hgt
  norm_num at hgt

/-- A crystal, periodic in all directions, and a chain-like cluster for the examples. -/
noncomputable def kCrystal : Atoms :=
  { ctype := .bravais, atoms := [("C", 0)], cell := 1, pbc := ![true, true, true] }

noncomputable def kCluster : Atoms :=
  { ctype := .bravais, atoms := [("C", 0)], cell := 1, pbc := ![false, false, false] }

example : ∃ s, setupKSampling kCrystal 0.01 (.tuple ![4, 3, 2]) true false = .ok s := by
  refine c12_accepts kCrystal (by simp [kCrystal]) _ (by norm_num) _ ?_ ?_ ?_ _
  · intro i; fin_cases i <;> simp
  · intro i M h
    fin_cases i <;> simp [kCrystal, Atoms.numberOfTransformations, Atoms.ranges, rangeInf] at h
  · intro i h
    fin_cases i <;> simp [kCrystal] at h

/-- C12 is false for explicit lists: a negative component along a non-periodic direction is
accepted. -/
theorem c12_negative_fails :
    ∃ s, setupKSampling kCluster 0.01 (.list [![-1, 0, 0], ![0, 0, 0]]) true false = .ok s ∧
      kCluster.pbc 0 = false ∧ ∃ q ∈ s.points, q.1 0 = -1 := by
  refine ⟨⟨[(![-1, 0, 0], 1 / 2), (![0, 0, 0], 1 / 2)], none⟩, (setup_ok_iff ..).2 ⟨?_, ?_, ?_⟩,
    by simp [kCluster], ?_⟩
  · simp [kGuard]
  · simp [kRaw, bind, Except.bind, pure, Except.pure]
  · unfold kCheck
    rw [if_neg]
    rintro ⟨i, q, hq, hgt, -⟩
    simp only [List.mem_cons, List.not_mem_nil, or_false] at hq
    rcases hq with rfl | rfl <;> fin_cases i <;> norm_num at hgt
  · exact ⟨_, List.mem_cons_self, by simp⟩

/-- C12 is false for Slab: any tuple sampling, also `(1,1,1)`, raises `AttributeError` (the class
has no `get_table`), unless the temperature check comes first. -/
theorem c12_slab_fails (A : Atoms) (hA : A.ctype = .slab) (width : ℝ) (n : Fin 3 → ℤ)
    (h : n = ![1, 1, 1] ∨ 1e-10 ≤ width) (physical rsK : Bool) :
    setupKSampling A width (.tuple n) physical rsK = .error .attributeError := by
  unfold setupKSampling
  rw [if_neg]
  · simp [kRaw, kMesh, Atoms.getTable, hA, bind, Except.bind]
  · rintro ⟨h1, h2⟩
    rcases h with h | h
    · exact h1 h
    · exact absurd h2 (not_lt.2 h)

example : setupKSampling { ctype := .slab, atoms := [("C", 0)], cell := 1, pbc := ![true, true, false] } 0 (.tuple ![1, 1, 1]) true false
    = .error .attributeError := c12_slab_fails _ rfl _ _ (Or.inl rfl) _ _


end Hotbit
