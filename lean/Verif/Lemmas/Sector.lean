import Verif.Spec.Sector
import Verif.Lemmas.Supercell

/-!
# Sectors are repeated structures
-/

set_option linter.unusedSimpArgs false

namespace Hotbit

open Matrix

section Ops

variable {M : ℕ}

theorem angularRange_snd (M : ℕ) (hM : 0 < M) : (angularRange M).2 = firstSector M + M - 1 := by
  unfold firstSector angularRange
  dsimp only
  split <;> dsimp only <;> omega

theorem firstSector_neg (M : ℕ) : - (M : ℤ) < 2 * firstSector M ∨ M = 0 := by
  unfold firstSector angularRange
  dsimp only
  split <;> dsimp only <;> omega

theorem firstSector_nonpos (M : ℕ) (hM : 0 < M) : firstSector M ≤ 0 ∧ 0 ≤ firstSector M + M - 1 := by
  unfold firstSector angularRange
  dsimp only
  split <;> dsimp only <;> omega

theorem sectorOp_bounds (hM : 0 < M) (z : ℤ) :
    firstSector M ≤ sectorOp M z ∧ sectorOp M z ≤ firstSector M + M - 1 := by
  have hM' : (0 : ℤ) < M := by exact_mod_cast hM
  have h0 := Int.emod_nonneg (z - firstSector M) hM'.ne'
  have h1 := Int.emod_lt_of_pos (z - firstSector M) hM'
  unfold sectorOp
  omega

theorem sectorOp_spec (M : ℕ) (z : ℤ) : ∃ q : ℤ, z = sectorOp M z + M * q := by
  refine ⟨(z - firstSector M) / M, ?_⟩
  have := Int.mul_ediv_add_emod (z - firstSector M) M
  unfold sectorOp
  linarith

theorem sector_unique (hM : 0 < M) {a b q : ℤ} (ha : firstSector M ≤ a ∧ a ≤ firstSector M + M - 1)
    (hb : firstSector M ≤ b ∧ b ≤ firstSector M + M - 1) (h : a = b + M * q) : a = b := by
  have hM' : (0 : ℤ) < M := by exact_mod_cast hM
  rcases lt_trichotomy q 0 with hq | hq | hq
  · nlinarith
  · rw [h, hq]; ring
  · nlinarith

/-- Operation `n` from sector `u` to sector `v`. -/
def combSector (M : ℕ) (u v : ℕ) (n : Op) : Op := Function.update n 0 (sectorOp M ((v : ℤ) - u))

theorem combSector_inj {u v w : ℕ} (hM : 0 < M) (hv : v < M) (hw : w < M) {n m : Op} (hn : n 0 = 0)
    (hm : m 0 = 0) (h : combSector M u v n = combSector M u w m) : v = w ∧ n = m := by
  have h1 := congrFun h 0
  simp only [combSector, Function.update_self] at h1
  obtain ⟨q, hq⟩ := sectorOp_spec M ((v : ℤ) - u)
  obtain ⟨p, hp⟩ := sectorOp_spec M ((w : ℤ) - u)
  have e : (M : ℤ) * 0 + v = M * (q - p) + w := by
    have : ((v : ℤ) - u) - M * q = ((w : ℤ) - u) - M * p := by linarith
    rw [mul_sub]
    linarith
  obtain ⟨h2, -⟩ := step_unique hv hw e
  refine ⟨h2, funext fun x => ?_⟩
  by_cases hx : x = 0
  · rw [hx, hn, hm]
  · have := congrFun h x
    simpa [combSector, hx] using this

theorem sectorOp_zero (hM : 0 < M) : sectorOp M 0 = 0 := by
  obtain ⟨q, hq⟩ := sectorOp_spec M 0
  have h := firstSector_nonpos M hM
  exact (sector_unique hM (q := q) (a := 0) (b := sectorOp M 0) h (sectorOp_bounds hM 0) (by linarith)).symm

theorem combSector_zero {u v : ℕ} (hu : u < M) (hv : v < M) {n : Op} (hn : n 0 = 0) :
    combSector M u v n = 0 ↔ u = v ∧ n = 0 := by
  have hM : 0 < M := by omega
  have h0 : combSector M u u 0 = 0 := by
    unfold combSector
    rw [sub_self, sectorOp_zero hM]
    simp
  constructor
  · intro h
    obtain ⟨h1, h2⟩ := combSector_inj hM hv hu hn rfl (h.trans h0.symm)
    exact ⟨h1.symm, h2⟩
  · rintro ⟨rfl, rfl⟩
    exact h0

theorem combSector_surj (hM : 0 < M) (u : ℕ) (n : Op)
    (hn : firstSector M ≤ n 0 ∧ n 0 ≤ firstSector M + M - 1) :
    ∃ v < M, combSector M u v (Function.update n 0 0) = n := by
  have hM' : (0 : ℤ) < M := by exact_mod_cast hM
  have h0 := Int.emod_nonneg (n 0 + u) hM'.ne'
  have h1 := Int.emod_lt_of_pos (n 0 + u) hM'
  refine ⟨((n 0 + u) % M).toNat, by omega, funext fun x => ?_⟩
  by_cases hx : x = 0
  · subst hx
    simp only [combSector, Function.update_self]
    rw [Int.toNat_of_nonneg h0]
    obtain ⟨q, hq⟩ := sectorOp_spec M ((n 0 + u) % M - u)
    have h2 := Int.mul_ediv_add_emod (n 0 + u) M
    refine (sector_unique hM (q := (n 0 + u) / M + q) hn (sectorOp_bounds hM _) ?_).symm
    rw [mul_add]
    linarith
  · simp [combSector, hx]

end Ops

section Cells

variable {A B : Atoms} {M : ℕ}

theorem full_turns (hA : Commuting A.ctype) (h : (∀ r, A.rawTransform r (along 0 M) = r) ∧ A.rawRotation (along 0 M) = 1)
    (q : ℤ) : (∀ r, A.rawTransform r (along 0 (M * q)) = r) ∧ A.rawRotation (along 0 (M * q)) = 1 := by
  have hadd : ∀ a b : ℤ, along 0 (a + b) = along 0 a + along 0 b := fun a b => by
    unfold along; rw [Pi.single_add]
  have hz : along 0 (0 : ℤ) = 0 := by simp [along]
  have nat : ∀ k : ℕ, (∀ r, A.rawTransform r (along 0 (M * (k : ℤ))) = r) ∧ A.rawRotation (along 0 (M * (k : ℤ))) = 1 := by
    intro k
    induction k with
    | zero =>
      rw [Nat.cast_zero, mul_zero, hz]
      exact ⟨rawTransform_zero A hA, rawRotation_zero A hA⟩
    | succ k ih =>
      have e : (M : ℤ) * ((k + 1 : ℕ) : ℤ) = M * k + M := by push_cast; ring
      rw [e, hadd, ← rawRotation_add A hA, ih.2, h.2, Matrix.one_mul]
      refine ⟨fun r => ?_, rfl⟩
      rw [← rawTransform_add A hA, ih.1, h.1]
  rcases Int.eq_nat_or_neg q with ⟨k, rfl | rfl⟩
  · exact nat k
  · have e : ∀ n : Op, along 0 ((M : ℤ) * -(k : ℤ)) + along 0 (M * (k : ℤ)) = 0 := fun _ => by
      rw [← hadd, mul_neg, neg_add_cancel, hz]
    constructor
    · intro r
      have h1 := (nat k).1 (A.rawTransform r (along 0 (M * -(k : ℤ))))
      rw [rawTransform_add A hA, e 0, rawTransform_zero A hA] at h1
      exact h1.symm
    · have h1 := rawRotation_add A hA (along 0 ((M : ℤ) * -(k : ℤ))) (along 0 (M * (k : ℤ)))
      rw [e 0, (nat k).2, Matrix.mul_one, rawRotation_zero A hA] at h1
      exact h1

variable (S : AllSectors A B M)
include S

theorem AllSectors.legal_sector {n : Op} (h : Legal A n) : firstSector M ≤ n 0 ∧ n 0 ≤ firstSector M + M - 1 := by
  have h0 := h 0
  rw [S.sectors] at h0
  simp only [rangeOf, Bound.toEReal] at h0
  have a1 := h0.1; have a2 := h0.2
  norm_cast at a1 a2
  rw [angularRange_snd M S.pos] at a2
  exact ⟨a1, a2⟩

theorem AllSectors.sector_legal {n : Op} (h1 : (A.ranges 1).1.toEReal ≤ ((n 1 : ℝ) : EReal) ∧ ((n 1 : ℝ) : EReal) ≤ (A.ranges 1).2.toEReal)
    (h2 : (A.ranges 2).1.toEReal ≤ ((n 2 : ℝ) : EReal) ∧ ((n 2 : ℝ) : EReal) ≤ (A.ranges 2).2.toEReal)
    (h0 : firstSector M ≤ n 0 ∧ n 0 ≤ firstSector M + M - 1) : Legal A n := by
  intro x
  fin_cases x
  · show _ ∧ _
    simp only [Fin.zero_eta]
    rw [S.sectors]
    simp only [rangeOf, Bound.toEReal]
    have e := angularRange_snd M S.pos
    refine ⟨?_, ?_⟩
    · exact_mod_cast h0.1
    · exact_mod_cast (show n 0 ≤ (angularRange M).2 by rw [e]; exact h0.2)
  · exact h1
  · exact h2

theorem AllSectors.legalB {n : Op} (h : Legal B n) : n 0 = 0 := by
  have h0 := h 0
  rw [S.none] at h0
  simp only [rangeZero, Bound.toEReal] at h0
  have a1 := h0.1; have a2 := h0.2
  norm_cast at a1 a2
  exact le_antisymm a2 a1

theorem AllSectors.legal_comb {n : Op} (h : Legal B n) (u v : ℕ) : Legal A (combSector M u v n) := by
  refine S.sector_legal ?_ ?_ ?_
  · rw [← S.ranges.1]; simpa [combSector] using h 1
  · rw [← S.ranges.2]; simpa [combSector] using h 2
  · simpa [combSector] using sectorOp_bounds S.pos ((v : ℤ) - u)

theorem AllSectors.legal_back {n : Op} (h : Legal A n) : Legal B (Function.update n 0 0) := by
  intro x
  fin_cases x
  · simp only [Fin.zero_eta]
    rw [S.none]
    simp [rangeZero, Bound.toEReal]
  · have := h 1
    rw [← S.ranges.1] at this
    simpa using this
  · have := h 2
    rw [← S.ranges.2] at this
    simpa using this

theorem AllSectors.ops_legal : ∀ n ∈ (List.range M).map (fun u : ℕ => along 0 (firstSector M + u)), Legal A n := by
  by_contra hc
  push Not at hc
  have := (c06_list A _ (by have := S.pos; simp; omega)).2 hc
  rw [S.copies] at this
  cases this

theorem AllSectors.legal_zero : Legal A 0 := by
  have hb := firstSector_nonpos M S.pos
  have := S.ops_legal (along 0 0) (List.mem_map.2 ⟨(-firstSector M).toNat, List.mem_range.2 (by omega), by
    rw [Int.toNat_of_nonneg (by omega), add_neg_cancel]⟩)
  simpa [along] using this

theorem AllSectors.atom :
    B.atoms.length = M * A.atoms.length ∧ ∀ u < M, ∀ i < A.atoms.length, ∀ s r,
      A.atoms[i]? = some (s, r) →
      B.atoms[u * A.atoms.length + i]? = some (s, A.rawTransform r (along 0 (firstSector M + u))) := by
  have hne : ((List.range M).map fun u : ℕ => along 0 (firstSector M + u)) ≠ [] := by
    have := S.pos
    simp; omega
  obtain ⟨out, h1, h2, h3⟩ := (c06_list A _ hne).1 S.ops_legal
  rw [S.copies] at h1
  cases h1
  refine ⟨by simpa using h2, fun u hu i hi s r ha => ?_⟩
  obtain ⟨x, h4, h5⟩ := h3 u (along 0 (firstSector M + u)) i s r (by simp [hu]) ha
  rw [(c05_transform_guard A r _).1 (S.ops_legal _ (List.mem_map.2 ⟨u, List.mem_range.2 hu, rfl⟩))] at h4
  cases h4
  exact h5

theorem AllSectors.length : B.positions.length = M * A.positions.length := by
  unfold Atoms.positions
  rw [List.length_map, List.length_map, S.atom.1]

theorem AllSectors.position {u i : ℕ} (hu : u < M) (hi : i < A.positions.length) :
    B.pos (u * A.positions.length + i) = A.rawTransform (A.pos i) (along 0 (firstSector M + u)) := by
  unfold Atoms.positions at hi
  rw [List.length_map] at hi
  have h := S.atom.2 u hu i hi (A.atoms[i]).1 (A.atoms[i]).2 (List.getElem?_eq_getElem hi)
  unfold Atoms.pos Atoms.positions
  rw [List.length_map]
  simp [List.getD_eq_getElem?_getD, h, List.getElem?_eq_getElem hi]

theorem AllSectors.symbol {u i : ℕ} (hu : u < M) (hi : i < A.atoms.length) :
    ((B.atoms[u * A.atoms.length + i]?).map Prod.fst).getD "" = ((A.atoms[i]?).map Prod.fst).getD "" := by
  have h := S.atom.2 u hu i hi (A.atoms[i]).1 (A.atoms[i]).2 (List.getElem?_eq_getElem hi)
  simp [h, List.getElem?_eq_getElem hi]

theorem AllSectors.sum_op {n : Op} (hn : n 0 = 0) (u v : ℕ) : ∃ q : ℤ,
    along 0 (firstSector M + v) + n = (combSector M u v n + along 0 (firstSector M + u)) + along 0 (M * q) := by
  obtain ⟨q, hq⟩ := sectorOp_spec M ((v : ℤ) - u)
  refine ⟨q, funext fun x => ?_⟩
  by_cases hx : x = 0
  · subst hx
    simp only [along, combSector, Pi.add_apply, Pi.single_eq_same, Function.update_self, hn]
    linarith
  · simp [along, combSector, hx]

/-- Where a copy sees an image. -/
theorem AllSectors.rij {u v i j : ℕ} (hu : u < M) (hv : v < M)
    (hi : i < A.positions.length) (hj : j < A.positions.length) {n : Op} (hn : Legal B n) :
    B.rawTransform (B.pos (v * A.positions.length + j)) n
        - B.rawTransform (B.pos (u * A.positions.length + i)) 0
      = A.rawRotation (along 0 (firstSector M + u)) *ᵥ
        (A.rawTransform (A.pos j) (combSector M u v n) - A.rawTransform (A.pos i) 0) := by
  obtain ⟨q, hq⟩ := S.sum_op (S.legalB hn) u v
  rw [S.position hv hj, S.position hu hi, rawTransform_zero B S.commB, rawTransform_zero A S.commA,
    (S.op n hn).1, rawTransform_add A S.commA, ← rawTransform_sub A S.commA, rawTransform_add A S.commA, hq,
    ← rawTransform_add A S.commA _ _ (along 0 (M * q)), (full_turns S.commA S.full q).1]

theorem AllSectors.turn (u v : ℕ) {n : Op} (hn : Legal B n) :
    B.rawRotation n = A.rawRotation (along 0 (firstSector M + u)) * A.rawRotation (combSector M u v n)
      * (A.rawRotation (along 0 (firstSector M + v)))ᵀ := by
  obtain ⟨q, hq⟩ := S.sum_op (S.legalB hn) u v
  have h1 : A.rawRotation (along 0 (firstSector M + v) + n)
      = A.rawRotation (along 0 (firstSector M + u)) * A.rawRotation (combSector M u v n) := by
    rw [hq, ← rawRotation_add A S.commA _ (along 0 (M * q)), (full_turns S.commA S.full q).2, Matrix.mul_one,
      rawRotation_add A S.commA, add_comm]
  rw [← h1, add_comm, ← rawRotation_add A S.commA, Matrix.mul_assoc,
    mul_eq_one_comm.1 (rawRotation_orth A S.commA _), Matrix.mul_one, (S.op n hn).2]

theorem AllSectors.repeats {G G' : Geom} {s : ℝ} {rng : ℕ → ℕ → ℝ}
    (hN : G.N = A.positions.length) (hN' : G'.N = B.positions.length)
    (hs : ∀ i, G.sym i = ((A.atoms[i]?).map Prod.fst).getD "")
    (hs' : ∀ i, G'.sym i = ((B.atoms[i]?).map Prod.fst).getD "")
    (hr : G.rot = A.rawRotation) (hr' : G'.rot = B.rawRotation)
    (hp : ∀ n i, G.pos n i = s • A.rawTransform (A.pos i) n)
    (hp' : ∀ n i, G'.pos n i = s • B.rawTransform (B.pos i) n)
    (nd : G.ntuples.Nodup) (nd' : G'.ntuples.Nodup)
    (hl : ∀ n ∈ G.ntuples, Legal A n) (hl' : ∀ n ∈ G'.ntuples, Legal B n)
    (all : ∀ n, Legal A n → ∀ i < G.N, ∀ j < G.N, norm3 (G.rij n i j) ≤ rng i j → n ∈ G.ntuples)
    (all' : ∀ n, Legal B n → ∀ u < M, ∀ v < M, ∀ i < G.N, ∀ j < G.N,
      norm3 (G'.rij n (u * G.N + i) (v * G.N + j)) ≤ rng i j → n ∈ G'.ntuples) :
    Repeats G G' M (fun u i => u * A.positions.length + i) (fun u _ => A.rawRotation (along 0 (firstSector M + u)))
      (fun u _ v _ => combSector M u v) rng := by
  have hrij : ∀ u < M, ∀ v < M, ∀ n, Legal B n → ∀ i < G.N, ∀ j < G.N,
      G'.rij n (u * G.N + i) (v * G.N + j)
        = A.rawRotation (along 0 (firstSector M + u)) *ᵥ G.rij (combSector M u v n) i j := by
    intro u hu v hv n hn i hi j hj
    unfold Geom.rij
    rw [hN] at hi hj ⊢
    rw [hp, hp, hp', hp', ← smul_sub, ← smul_sub, Matrix.mulVec_smul, S.rij hu hv hi hj hn]
  refine
    { N := by rw [hN', hN, S.length]
      copies := by rw [hN]; exact copies_block M _
      sym := fun u hu i hi => ?_
      nodup := nd
      nodup' := nd'
      orth := fun u _ _ _ => rawRotation_orth A S.commA _
      rotOrth := fun u _ v _ n _ _ _ _ _ => by rw [hr]; exact rawRotation_orth A S.commA _
      rij := fun u hu v hv n hn i hi j hj => by
        have := hrij u hu v hv n (hl' n hn) i hi j hj
        rwa [hN] at this
      rot := fun u _ v _ n hn _ _ _ _ => by rw [hr, hr']; exact S.turn u v (hl' n hn)
      zero := fun u hu v hv n hn _ _ => combSector_zero hu hv (S.legalB (hl' n hn))
      inj := fun u _ v hv w hw n hn m hm _ _ _ _ h =>
        combSector_inj S.pos hv hw (S.legalB (hl' n hn)) (S.legalB (hl' m hm)) h
      into := fun u _ v _ n hn i hi j hj h => all _ (S.legal_comb (hl' n hn) u v) i hi j hj h
      onto := fun u hu i hi j hj n hn h => ?_ }
  · rw [hs', hs]
    have e : G.N = A.atoms.length := by rw [hN]; unfold Atoms.positions; rw [List.length_map]
    have e' : A.positions.length = A.atoms.length := by unfold Atoms.positions; rw [List.length_map]
    rw [e] at hi
    rw [e']
    exact S.symbol hu hi
  · obtain ⟨v, hv, hm⟩ := combSector_surj S.pos u n (S.legal_sector (hl n hn))
    refine ⟨v, hv, _, ?_, hm⟩
    refine all' _ (S.legal_back (hl n hn)) u hu v hv i hi j hj ?_
    rw [hrij u hu v hv _ (S.legal_back (hl n hn)) i hi j hj, hm, norm3_rot (rawRotation_orth A S.commA _)]
    exact h

end Cells

section Turns

variable {A B : Atoms} {M : ℕ}

/-- The neighbour list of a cluster uses all operations. -/
theorem cluster_scan (h : A.isCluster = true) {n : Op} (hn : Legal A n) : n ∈ scanOps A := by
  rw [mem_scanOps]
  refine ⟨hn, fun k hk => ?_⟩
  unfold Atoms.isCluster at h
  rw [List.all_eq_true] at h
  have := h k (by fin_cases k <;> simp)
  rw [hk] at this
  simp [rangeInf] at this

theorem cluster_images (h : A.isCluster = true) (rng : ℕ → ℕ → ℝ) : HasAllImages A 1 (scanOps A) rng :=
  fun _ hn _ _ _ _ _ _ => cluster_scan h hn

theorem AllSectors.cluster (S : AllSectors A B M) (h : B.isCluster = true) : A.isCluster = true := by
  unfold Atoms.isCluster at h ⊢
  simp only [List.all_cons, List.all_nil, Bool.and_true, Bool.and_eq_true] at h ⊢
  rw [S.ranges.1, S.ranges.2] at h
  refine ⟨?_, h.2⟩
  rw [S.sectors]
  rfl

theorem goodMat_undo (hA : Commuting A.ctype) {P : ScfIn} {e : Op} (hnd : P.scan.Nodup)
    (hscan : ∀ n ∈ P.scan, undoOp e n ∈ P.scan) (he0 : ∀ n ∈ P.scan, 2 * n 0 ≠ - e 0) (k : Vec)
    (he : TrivialOp A k e) (hinv : undoOp e 0 = 0)
    (hcut : ∀ i j, P.cut i j = P.cut j i) (hf : OrbitalsFollow (P.mat A)) (ht : MutualTables P.tab) :
    GoodMat (P.mat A) k (undoOp e) := by
  have h := c29_inverse_pairs A hA P.bohr k P.no P.eps P.seps P.tab P.J e P.cut P.scan hcut hnd
    hscan (Or.inl he0) he hinv
  refine ⟨h.1, hf, { toInversePairs := h.2, posAll := fun n _ i _ j _ => ?_ }, ht⟩
  have := imagePos_inverse A hA P.bohr k e n (fun _ => he) i j
  rw [Matrix.neg_mulVec]
  exact this

theorem SectorScan.half {ops : List Op} (S : AllSectors A B M) (L : SectorScan A M ops) :
    ∀ n ∈ ops, 2 * n 0 ≠ - along 0 M 0 := by
  intro n hn h
  have h1 := S.legal_sector (L.legal n hn)
  have h2 := firstSector_neg M
  have h3 := S.pos
  simp only [along, Pi.single_eq_same] at h
  omega

theorem AllSectors.undo_none (S : AllSectors A B M) : undoOp (along 0 M) 0 = 0 := by
  have := S.pos
  unfold undoOp
  rw [if_neg, neg_zero]
  simp [along]
  omega

theorem bloch_full (hM : 0 < M) (k : Vec) (c : ℕ) (q : ℤ) (hk : k 0 = 2 * Real.pi * c / M) :
    blochPhase k (along 0 (M * q)) = 1 := by
  rw [blochPhase_along, hk, Complex.exp_eq_one_iff]
  refine ⟨q * c, ?_⟩
  have hM' : (M : ℂ) ≠ 0 := by exact_mod_cast hM.ne'
  push_cast
  field_simp

end Turns

section Calc

variable {P P' : ScfIn} {A B : Atoms} {M : ℕ} {kf : Fin P'.nk × Fin M ≃ Fin P.nk}

theorem SectorCalc.legal_none (C : SectorCalc P P' A B M kf) : Legal B 0 := by
  have := C.cell.legal_back C.cell.legal_zero
  simpa using this

theorem SectorCalc.trivial (C : SectorCalc P P' A B M kf) (k : Fin P.nk) : TrivialOp A (P.kpt k) (along 0 M) := by
  refine ⟨C.cell.full.1, C.cell.full.2, ?_⟩
  obtain ⟨⟨k', c⟩, rfl⟩ := kf.surjective k
  have := bloch_full C.cell.pos (P.kpt (kf (k', c))) c 1 (by rw [C.kpoints, Function.update_self])
  rwa [mul_one] at this

theorem SectorCalc.inverse (C : SectorCalc P P' A B M kf) : (P.geom A).Inverse (undoOp (along 0 M)) :=
  c31_containers A C.cell.commA P.bohr (along 0 M) P.cut P.scan C.cutSymm.1 C.scanA.nodup C.scanA.inverse
    (Or.inl (C.scanA.half C.cell)) ⟨C.cell.full.1, C.cell.full.2, by simp [blochPhase]⟩ C.cell.undo_none

theorem SectorCalc.geomRepeats (C : SectorCalc P P' A B M kf) :
    Repeats (P.geom A) (P'.geom B) M (fun u i => u * A.positions.length + i) (fun u _ => A.rawRotation (along 0 (firstSector M + u)))
      (fun u _ v _ => combSector M u v) P.cut := by
  have h0 := C.cell.legal_zero
  have h0' : Legal B 0 := C.legal_none
  have e : A.positions.length = A.atoms.length := by unfold Atoms.positions; rw [List.length_map]
  have e' : B.positions.length = B.atoms.length := by unfold Atoms.positions; rw [List.length_map]
  have eN : (P.geom A).N = A.positions.length := e.symm
  have eN' : (P'.geom B).N = B.positions.length := e'.symm
  have nd : (P.geom A).ntuples.Nodup := C.inverse.nodup
  have nd' : (P'.geom B).ntuples.Nodup := (inverse_ofAtoms C.cell.commB C.scanB C.cutSymm.2).nodup
  have hl : ∀ n ∈ (P.geom A).ntuples, Legal A n := by
    intro n hn
    have : n ∈ selectImages A.atoms.length (imagePos A P.bohr) P.cut P.scan := hn
    unfold selectImages at this
    rcases List.mem_cons.1 this with rfl | h
    · exact h0
    · exact C.scanA.legal n (List.mem_of_mem_filter h)
  refine C.cell.repeats (G := P.geom A) (G' := P'.geom B) (s := P.bohr⁻¹) (rng := P.cut) eN eN' (fun _ => rfl)
    (fun _ => rfl) rfl rfl (fun n i => ?_) (fun n i => ?_) nd nd' hl
    (fun n hn => mem_geom h0' C.scanB hn) ?_ ?_
  · show P.bohr⁻¹ • A.rawTransform _ n = _
    rw [getD_pos]
  · show P'.bohr⁻¹ • B.rawTransform _ n = _
    rw [getD_pos, C.same.1]
  · intro n hn i hi j hj h
    have hi' : i < A.positions.length := lt_of_lt_of_eq hi e.symm
    have hj' : j < A.positions.length := lt_of_lt_of_eq hj e.symm
    exact geom_mem C.cutSymm.1 C.imagesA hn hi' hj' h
  · intro n hn u hu v hv i hi j hj h
    have hi' : i < A.positions.length := lt_of_lt_of_eq hi e.symm
    have hj' : j < A.positions.length := lt_of_lt_of_eq hj e.symm
    rw [eN] at h
    refine geom_mem C.cutSymm.2 C.imagesB hn ?_ ?_ (h.trans_eq (C.cuts u hu v hv i hi' j hj').symm)
    · rw [C.cell.length]; exact copy_lt hu hi'
    · rw [C.cell.length]; exact copy_lt hv hj'

/-- The distances in a cluster are bounded. -/
theorem cluster_bound (h : A.isCluster = true) : ∃ c, ∀ n, Legal A n → ∀ i < A.positions.length,
    ∀ j < A.positions.length, norm3 ((nbGeom A).rij n i j) ≤ c := by
  refine ⟨∑ n ∈ (scanOps A).toFinset, ∑ i ∈ Finset.range A.positions.length,
    ∑ j ∈ Finset.range A.positions.length, norm3 ((nbGeom A).rij n i j), fun n hn i hi j hj => ?_⟩
  have p1 : ∀ n i j, 0 ≤ norm3 ((nbGeom A).rij n i j) := fun _ _ _ => norm3_nonneg _
  refine le_trans ?_ (Finset.single_le_sum (f := fun n => ∑ i ∈ Finset.range A.positions.length,
    ∑ j ∈ Finset.range A.positions.length, norm3 ((nbGeom A).rij n i j))
    (fun n _ => Finset.sum_nonneg fun i _ => Finset.sum_nonneg fun j _ => p1 n i j)
    (List.mem_toFinset.2 (cluster_scan h hn)))
  refine le_trans ?_ (Finset.single_le_sum (f := fun i => ∑ j ∈ Finset.range A.positions.length,
    norm3 ((nbGeom A).rij n i j)) (fun i _ => Finset.sum_nonneg fun j _ => p1 n i j) (Finset.mem_range.2 hi))
  exact Finset.single_le_sum (f := fun j => norm3 ((nbGeom A).rij n i j)) (fun j _ => p1 n i j)
    (Finset.mem_range.2 hj)

theorem SectorCalc.coulombRange (C : SectorCalc P P' A B M kf) : ∃ c, P.scc = true →
    HasAllImages A 1 (scanOps A) (fun _ _ => c) ∧ HasAllImages B 1 (scanOps B) (fun _ _ => c) ∧
    (∀ n, Legal A n → ∀ i < A.positions.length, ∀ j < A.positions.length,
      Near P.gcut (nbGeom A) i j n → norm3 ((nbGeom A).rij n i j) ≤ c) ∧
    (P.gcut.isSome ∨ B.isCluster = true) := by
  by_cases hs : P.scc = true
  · rcases C.coulomb hs with ⟨-, h⟩ | ⟨c, h, h1, h2⟩
    · obtain ⟨c, hc⟩ := cluster_bound (C.cell.cluster h)
      exact ⟨c, fun _ => ⟨cluster_images (C.cell.cluster h) _, cluster_images h _,
        fun n hn i hi j hj _ => hc n hn i hi j hj, Or.inr h⟩⟩
    · exact ⟨c, fun _ => ⟨h1, h2, fun n _ i _ j _ hn => (hn.1 c h).le, Or.inl (by rw [h]; rfl)⟩⟩
  · exact ⟨0, fun h => absurd h hs⟩

theorem SectorCalc.folds (C : SectorCalc P P' A B M kf) (k : Fin P'.nk) :
    Folds (P'.geom B) M A.positions.length (fun u _ v _ => combSector M u v) (P'.kpt k) (fun c => P.kpt (kf (k, c)))
      (fun c u _ => blochPhase (P.kpt (kf (k, c))) (along 0 (firstSector M + u))) := by
  have hk : ∀ c : Fin M, P.kpt (kf (k, c)) 0 = 2 * Real.pi * (c : ℕ) / M := fun c => by
    rw [C.kpoints, Function.update_self]
  have split : ∀ (c : Fin M) (u : ℕ), blochPhase (P.kpt (kf (k, c))) (along 0 (firstSector M + u))
      = blochPhase (P.kpt (kf (k, c))) (along 0 (firstSector M)) *
        Complex.exp (Complex.I * (((u : ℤ) * ((0 + 2 * Real.pi * (c : ℕ)) / M) : ℝ) : ℂ)) := by
    intro c u
    have e : along 0 (firstSector M + u) = along 0 (firstSector M) + along 0 (u : ℤ) := by
      unfold along; rw [Pi.single_add]
    rw [e, blochPhase_add, blochPhase_along _ (u : ℤ), hk, zero_add]
  refine ⟨fun c u hu v hv n hn _ _ _ _ => ?_, fun c u hu _ _ => ?_, fun c e _ _ => ?_⟩
  · have h0 : n 0 = 0 := C.cell.legalB (mem_geom C.legal_none C.scanB hn)
    have h1 : blochPhase (P'.kpt k) n = blochPhase (P.kpt (kf (k, c))) n := by
      rw [C.kpoints]
      unfold blochPhase
      refine congrArg (fun x : ℝ => Complex.exp (Complex.I * (x : ℂ))) ?_
      refine Finset.sum_congr rfl fun x _ => ?_
      by_cases hx : x = 0
      · rw [hx, h0]; simp
      · rw [Function.update_of_ne hx]
    obtain ⟨q, hq⟩ := C.cell.sum_op h0 u v
    rw [h1, ← blochPhase_add, hq, blochPhase_add _ _ (along 0 (M * q)), bloch_full C.cell.pos _ c q (hk c), mul_one,
      blochPhase_add, mul_comm]
  · rw [blochPhase_conj, ← blochPhase_add, neg_add_cancel, blochPhase_zero]
  · have := phase_orth C.cell.pos 0 c e
    have e1 : ∀ u : ℕ, starRingEnd ℂ (blochPhase (P.kpt (kf (k, c))) (along 0 (firstSector M + u)))
        * blochPhase (P.kpt (kf (k, e))) (along 0 (firstSector M + u))
        = (starRingEnd ℂ (blochPhase (P.kpt (kf (k, c))) (along 0 (firstSector M))) *
          blochPhase (P.kpt (kf (k, e))) (along 0 (firstSector M))) *
          (starRingEnd ℂ (Complex.exp (Complex.I * (((u : ℤ) * ((0 + 2 * Real.pi * (c : ℕ)) / M) : ℝ) : ℂ))) *
            Complex.exp (Complex.I * (((u : ℤ) * ((0 + 2 * Real.pi * (e : ℕ)) / M) : ℝ) : ℂ))) := by
      intro u
      rw [split, split, map_mul]
      ring
    rw [Finset.sum_congr rfl fun u _ => e1 u, ← Finset.mul_sum, this]
    by_cases hce : c = e
    · rw [if_pos hce, hce, blochPhase_conj, ← blochPhase_add, neg_add_cancel, blochPhase_zero, one_mul]
    · rw [if_neg hce, mul_zero]

/-- The hypotheses of the unfolding hold for the sectors. -/
noncomputable def SectorCalc.enlarged (C : SectorCalc P P' A B M kf)
    (hv : ∀ i < A.positions.length, ValidNo (P.no i)) : Enlarged P P' A B M where
  ix u i := u * A.positions.length + i
  R u _ := A.rawRotation (along 0 (firstSector M + u))
  comb u _ v _ := combSector M u v
  rng := P.cut
  crng := C.coulombRange.choose
  σ := undoOp (along 0 M)
  τ := undoOp 0
  kf := kf
  φ k c u _ := blochPhase (P.kpt (kf (k, c))) (along 0 (firstSector M + u))
  pos := C.cell.pos
  commA := C.cell.commA
  commB := C.cell.commB
  geom := C.geomRepeats
  orbs := by
    have e : A.positions.length = A.atoms.length := by unfold Atoms.positions; rw [List.length_map]
    have eN : (P.mat A).N = A.positions.length := e.symm
    refine ⟨fun u hu i hi => ?_, fun u hu i hi => ?_, C.same.2.2.2.1, C.same.2.2.2.2.1, fun i hi => hv i (eN ▸ hi),
      fun i hi => C.shell i (eN ▸ hi)⟩
    · rw [eN] at hi; exact (C.atoms u hu i hi).1
    · rw [eN] at hi; exact (C.atoms u hu i hi).2.1
  goodA k := goodMat_undo C.cell.commA C.scanA.nodup C.scanA.inverse (C.scanA.half C.cell) _ (C.trivial k)
    C.cell.undo_none C.cutSymm.1 C.followA C.tables
  goodB k := goodMat_ofAtoms C.cell.commB C.scanB C.cutSymm.2 C.followB (by
    rw [C.same.2.2.2.2.1]; exact C.tables) _
  invA := C.inverse
  invB := inverse_ofAtoms C.cell.commB C.scanB C.cutSymm.2
  reach := C.reach
  fold k := C.folds k
  weight := C.weight
  coul hs := by
    obtain ⟨H, H', hc, hcl⟩ := C.coulombRange.choose_spec hs
    have h0 := C.cell.legal_zero
    have h0' : Legal B 0 := C.legal_none
    refine ⟨C.cell.repeats (s := 1) rfl rfl (fun _ => rfl) (fun _ => rfl) rfl rfl
      (fun n i => (one_smul _ _).symm) (fun n i => (one_smul _ _).symm) (scanOps_nodup A) (scanOps_nodup B)
      (fun n hn => ((mem_scanOps A n).1 hn).1) (fun n hn => ((mem_scanOps B n).1 hn).1) ?_ ?_,
      fun u _ v _ n hn _ _ _ _ => C.cell.legal_comb ((mem_scanOps B n).1 hn).1 u v, hc, hcl⟩
    · intro n hn i hi j hj h
      exact scanOps_mem H h0 hn hi hj h
    · intro n hn u hu v hv i hi j hj h
      refine scanOps_mem H' h0' hn ?_ ?_ h
      · rw [C.cell.length]; exact copy_lt hu hi
      · rw [C.cell.length]; exact copy_lt hv hj
  hubbard u hu i hi := ⟨(C.atoms u hu i hi).2.2.1, (C.atoms u hu i hi).2.2.2.1, (C.atoms u hu i hi).2.2.2.2⟩
  units := ⟨C.same.1, C.same.2.1⟩
  same := ⟨C.same.2.2.1, C.same.2.2.2.2.2⟩
  symV := C.symV
  count := C.count
  tols := C.tols

end Calc

end Hotbit
