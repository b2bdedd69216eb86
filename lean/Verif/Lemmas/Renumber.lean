import Verif.Spec.Renumber
import Verif.Lemmas.Sector

/-!
# Renumbered structures are repeated structures
-/

set_option linter.unusedSimpArgs false

namespace Hotbit

open Matrix

section Structure

variable {A B : Atoms} {σ : ℕ → ℕ} {m : ℕ → Op}

/-- Operation `n` on the image of atom `j`, as seen from the image of atom `i`. -/
def combImage (m : ℕ → Op) (i j : ℕ) (n : Op) : Op := - m i + n + m j

theorem Renumbered.transform (S : Renumbered A B σ m) (r : Vec) (n : Op) :
    B.rawTransform r n = A.rawTransform r n := by
  rw [S.container]
  have hA := S.comm
  have hr : Atoms.rawRotation { A with atoms := B.atoms } n = A.rawRotation n := rfl
  unfold Atoms.rawTransform
  rw [hr]
  dsimp only
  cases h : A.ctype <;> rw [h] at hA <;> simp only [Commuting] at hA <;> rfl

theorem Renumbered.rotation (S : Renumbered A B σ m) (n : Op) : B.rawRotation n = A.rawRotation n := by
  rw [S.container]; rfl

theorem Renumbered.ranges (S : Renumbered A B σ m) : B.ranges = A.ranges := by rw [S.container]; rfl

theorem Renumbered.legal (S : Renumbered A B σ m) {n : Op} : Legal B n ↔ Legal A n := by
  unfold Legal; rw [S.ranges]

theorem Renumbered.ctype (S : Renumbered A B σ m) : B.ctype = A.ctype := by rw [S.container]

theorem Renumbered.commB (S : Renumbered A B σ m) : Commuting B.ctype := by rw [S.ctype]; exact S.comm

theorem Renumbered.cluster (S : Renumbered A B σ m) : B.isCluster = A.isCluster := by
  rw [S.container]; rfl

theorem Renumbered.legal_comb (S : Renumbered A B σ m) {i j : ℕ} (hi : i < A.positions.length)
    (hj : j < A.positions.length) {n : Op} : Legal A (combImage m i j n) ↔ Legal A n := by
  unfold Legal
  refine forall_congr' fun d => ?_
  by_cases h : m i d = 0 ∧ m j d = 0
  · have : combImage m i j n d = n d := by simp [combImage, h.1, h.2]
    rw [this]
  · have hd : A.ranges d = rangeInf := by
      by_cases h1 : m i d = 0
      · exact S.inf j hj d fun h2 => h ⟨h1, h2⟩
      · exact S.inf i hi d h1
    rw [hd]
    simp [rangeInf, Bound.toEReal]

theorem Renumbered.copies (S : Renumbered A B σ m) : Copies 1 A.positions.length fun _ i => σ i where
  lt _ _ i hi := by rw [one_mul]; exact S.lt i hi
  inj u hu i hi v hv j hj h := ⟨by omega, S.inj i hi j hj h⟩

theorem Renumbered.image (S : Renumbered A B σ m) {i : ℕ} (hi : i < A.atoms.length) :
    B.atoms[σ i]? = some ((A.atoms[i]).1, A.rawTransform (A.atoms[i]).2 (m i)) := by
  obtain ⟨x, h1, h2⟩ := S.atom i (A.atoms[i]).1 (A.atoms[i]).2 (List.getElem?_eq_getElem hi)
  have hl : Legal A (m i) := by
    by_contra hc
    rw [(c05_transform_guard A _ _).2 hc] at h1
    cases h1
  rw [(c05_transform_guard A _ _).1 hl] at h1
  cases h1
  exact h2

theorem Renumbered.position (S : Renumbered A B σ m) {i : ℕ} (hi : i < A.positions.length) :
    B.pos (σ i) = A.rawTransform (A.pos i) (m i) := by
  unfold Atoms.positions at hi
  rw [List.length_map] at hi
  have h := S.image hi
  unfold Atoms.pos Atoms.positions
  simp [List.getD_eq_getElem?_getD, h, List.getElem?_eq_getElem hi]

theorem Renumbered.symbol (S : Renumbered A B σ m) {i : ℕ} (hi : i < A.atoms.length) :
    ((B.atoms[σ i]?).map Prod.fst).getD "" = ((A.atoms[i]?).map Prod.fst).getD "" := by
  simp [S.image hi, List.getElem?_eq_getElem hi]

/-- Where the image of an atom sees an image. -/
theorem Renumbered.rij (S : Renumbered A B σ m) {i j : ℕ} (hi : i < A.positions.length)
    (hj : j < A.positions.length) (n : Op) :
    B.rawTransform (B.pos (σ j)) n - B.rawTransform (B.pos (σ i)) 0
      = A.rawRotation (m i) *ᵥ (A.rawTransform (A.pos j) (combImage m i j n) - A.rawTransform (A.pos i) 0) := by
  rw [S.position hj, S.position hi, S.transform, S.transform, rawTransform_zero A S.comm,
    rawTransform_zero A S.comm, rawTransform_add A S.comm, ← rawTransform_sub A S.comm,
    rawTransform_add A S.comm]
  congr 2
  unfold combImage
  abel

theorem Renumbered.turn (S : Renumbered A B σ m) (i j : ℕ) (n : Op) :
    B.rawRotation n = A.rawRotation (m i) * A.rawRotation (combImage m i j n) * (A.rawRotation (m j))ᵀ := by
  rw [rawRotation_add A S.comm]
  have e : m i + combImage m i j n = n + m j := by
    unfold combImage; abel
  rw [e, ← rawRotation_add A S.comm, Matrix.mul_assoc,
    mul_eq_one_comm.1 (rawRotation_orth A S.comm _), Matrix.mul_one, S.rotation]

theorem Renumbered.repeats (S : Renumbered A B σ m) {G G' : Geom} {s : ℝ} {rng : ℕ → ℕ → ℝ}
    (hN : G.N = A.positions.length) (hN' : G'.N = B.positions.length)
    (hs : ∀ i, G.sym i = ((A.atoms[i]?).map Prod.fst).getD "")
    (hs' : ∀ i, G'.sym i = ((B.atoms[i]?).map Prod.fst).getD "")
    (hr : G.rot = A.rawRotation) (hr' : G'.rot = B.rawRotation)
    (hp : ∀ n i, G.pos n i = s • A.rawTransform (A.pos i) n)
    (hp' : ∀ n i, G'.pos n i = s • B.rawTransform (B.pos i) n)
    (nd : G.ntuples.Nodup) (nd' : G'.ntuples.Nodup)
    (hl : ∀ n ∈ G.ntuples, Legal A n) (hl' : ∀ n ∈ G'.ntuples, Legal B n)
    (all : ∀ n, Legal A n → ∀ i < G.N, ∀ j < G.N, norm3 (G.rij n i j) ≤ rng i j → n ∈ G.ntuples)
    (all' : ∀ n, Legal B n → ∀ i < G.N, ∀ j < G.N,
      norm3 (G'.rij n (σ i) (σ j)) ≤ rng i j → n ∈ G'.ntuples) :
    Repeats G G' 1 (fun _ i => σ i) (fun _ i => A.rawRotation (m i)) (fun _ i _ j => combImage m i j) rng := by
  have e' : A.positions.length = A.atoms.length := by unfold Atoms.positions; rw [List.length_map]
  have hrij : ∀ n, ∀ i < G.N, ∀ j < G.N,
      G'.rij n (σ i) (σ j) = A.rawRotation (m i) *ᵥ G.rij (combImage m i j n) i j := by
    intro n i hi j hj
    unfold Geom.rij
    rw [hN] at hi hj
    rw [hp, hp, hp', hp', ← smul_sub, ← smul_sub, Matrix.mulVec_smul, S.rij hi hj]
  refine
    { N := by rw [hN', hN, S.length, one_mul]
      copies := by rw [hN]; exact S.copies
      sym := fun u _ i hi => by rw [hs', hs]; exact S.symbol (by rwa [hN, e'] at hi)
      nodup := nd
      nodup' := nd'
      orth := fun u _ _ _ => rawRotation_orth A S.comm _
      rotOrth := fun u _ v _ n _ _ _ _ _ => by rw [hr]; exact rawRotation_orth A S.comm _
      rij := fun u _ v _ n _ i hi j hj => hrij n i hi j hj
      rot := fun u _ v _ n _ i _ j _ => by rw [hr, hr']; exact S.turn i j n
      zero := fun u hu v hv n _ i _ => ?_
      inj := fun u _ v hv w hw n _ k _ i _ j _ h => ⟨by omega, ?_⟩
      into := fun u _ v _ n hn i hi j hj h =>
        all _ ((S.legal_comb (hN ▸ hi) (hN ▸ hj)).2 (S.legal.1 (hl' n hn))) i hi j hj h
      onto := fun u _ i hi j hj n hn h => ⟨0, one_pos, m i + n - m j, ?_, by unfold combImage; abel⟩ }
  · have : u = v := by omega
    simp only [combImage, this, true_and]
    constructor
    · intro h
      have : n = - m i + n + m i := by abel
      rw [this, h]
    · rintro rfl; abel
  · unfold combImage at h
    exact add_left_cancel (add_right_cancel h)
  · have e : combImage m i j (m i + n - m j) = n := by unfold combImage; abel
    refine all' _ (S.legal.2 ((S.legal_comb (hN ▸ hi) (hN ▸ hj)).1 (by rw [e]; exact hl n hn))) i hi j hj ?_
    rw [hrij _ i hi j hj, e, norm3_rot (rawRotation_orth A S.comm _)]
    exact h

end Structure

section Calc

variable {P P' : ScfIn} {A B : Atoms} {σ : ℕ → ℕ} {m : ℕ → Op} {e : Op} {kf : Fin P'.nk ≃ Fin P.nk}

theorem mem_geom_legal {P : ScfIn} (h0 : Legal A 0) (L : ∀ n ∈ P.scan, Legal A n) {n : Op}
    (hn : n ∈ (P.geom A).ntuples) : Legal A n := by
  have : n ∈ selectImages A.atoms.length (imagePos A P.bohr) P.cut P.scan := hn
  unfold selectImages at this
  rcases List.mem_cons.1 this with rfl | h
  · exact h0
  · exact L n (List.mem_of_mem_filter h)

theorem goodMat_scan (hA : Commuting A.ctype) {P : ScfIn} {e : Op} (L : InverseScan A e P.scan) (k : Vec)
    (he : TrivialOp A k e) (hinv : undoOp e 0 = 0)
    (hcut : ∀ i j, P.cut i j = P.cut j i) (hf : OrbitalsFollow (P.mat A)) (ht : MutualTables P.tab) :
    GoodMat (P.mat A) k (undoOp e) := by
  have h := c29_inverse_pairs A hA P.bohr k P.no P.eps P.seps P.tab P.J e P.cut P.scan hcut L.nodup
    L.inverse L.half he hinv
  refine ⟨h.1, hf, { toInversePairs := h.2, posAll := fun n _ i _ j _ => ?_ }, ht⟩
  have := imagePos_inverse A hA P.bohr k e n (fun _ => he) i j
  rw [Matrix.neg_mulVec]
  exact this

theorem RenumberedCalc.trivial (C : RenumberedCalc P P' A B σ m e kf) (k : Fin P.nk) :
    TrivialOp A (P.kpt k) e := ⟨C.nothing.1, C.nothing.2.1, C.phases k⟩

theorem RenumberedCalc.trivialB (C : RenumberedCalc P P' A B σ m e kf) {k : Vec} (h : TrivialOp A k e) :
    TrivialOp B k e :=
  ⟨fun r => by rw [C.structures.transform]; exact h.1 r, by rw [C.structures.rotation]; exact h.2.1, h.2.2⟩

theorem RenumberedCalc.listB (C : RenumberedCalc P P' A B σ m e kf) : InverseScan B e P'.scan :=
  ⟨C.scanB.nodup, fun n hn => C.structures.legal.2 (C.scanB.legal n hn), C.scanB.inverse, C.scanB.half⟩

theorem RenumberedCalc.geomRepeats (C : RenumberedCalc P P' A B σ m e kf) :
    Repeats (P.geom A) (P'.geom B) 1 (fun _ i => σ i) (fun _ i => A.rawRotation (m i))
      (fun _ i _ j => combImage m i j) P.cut := by
  have h0 := C.structures.none
  have h0' : Legal B 0 := C.structures.legal.2 h0
  have el : A.positions.length = A.atoms.length := by unfold Atoms.positions; rw [List.length_map]
  have el' : B.positions.length = B.atoms.length := by unfold Atoms.positions; rw [List.length_map]
  have eN : (P.geom A).N = A.positions.length := el.symm
  have eN' : (P'.geom B).N = B.positions.length := el'.symm
  have nd : (P.geom A).ntuples.Nodup := by
    show (selectImages A.atoms.length (imagePos A P.bohr) P.cut P.scan).Nodup
    exact selectImages_nodup _ _ _ _ C.scanA.nodup
  have nd' : (P'.geom B).ntuples.Nodup := by
    show (selectImages B.atoms.length (imagePos B P'.bohr) P'.cut P'.scan).Nodup
    exact selectImages_nodup _ _ _ _ C.scanB.nodup
  refine C.structures.repeats (G := P.geom A) (G' := P'.geom B) (s := P.bohr⁻¹) (rng := P.cut) eN eN'
    (fun _ => rfl) (fun _ => rfl) rfl rfl
    (fun n i => ?_) (fun n i => ?_) nd nd' (fun n hn => mem_geom_legal h0 C.scanA.legal hn)
    (fun n hn => mem_geom_legal h0' C.listB.legal hn) ?_ ?_
  · show P.bohr⁻¹ • A.rawTransform _ n = _
    rw [getD_pos]
  · show P'.bohr⁻¹ • B.rawTransform _ n = _
    rw [getD_pos, C.same.1]
  · intro n hn i hi j hj h
    exact geom_mem C.cutSymm.1 C.imagesA hn (lt_of_lt_of_eq hi el.symm) (lt_of_lt_of_eq hj el.symm) h
  · intro n hn i hi j hj h
    have hi' : i < A.positions.length := lt_of_lt_of_eq hi el.symm
    have hj' : j < A.positions.length := lt_of_lt_of_eq hj el.symm
    refine geom_mem C.cutSymm.2 C.imagesB hn ?_ ?_ (h.trans_eq (C.cuts i hi' j hj').symm)
    · rw [C.structures.length]; exact C.structures.lt i hi'
    · rw [C.structures.length]; exact C.structures.lt j hj'

theorem RenumberedCalc.coulombRange (C : RenumberedCalc P P' A B σ m e kf) : ∃ c, P.scc = true →
    HasAllImages A 1 (scanOps A) (fun _ _ => c) ∧ HasAllImages B 1 (scanOps B) (fun _ _ => c) ∧
    (∀ n, Legal A n → ∀ i < A.positions.length, ∀ j < A.positions.length,
      Near P.gcut (nbGeom A) i j n → norm3 ((nbGeom A).rij n i j) ≤ c) ∧
    (P.gcut.isSome ∨ B.isCluster = true) := by
  by_cases hs : P.scc = true
  · rcases C.coulomb hs with ⟨-, h⟩ | ⟨c, h, h1, h2⟩
    · obtain ⟨c, hc⟩ := cluster_bound h
      have h' : B.isCluster = true := by rw [C.structures.cluster]; exact h
      exact ⟨c, fun _ => ⟨cluster_images h _, cluster_images h' _,
        fun n hn i hi j hj _ => hc n hn i hi j hj, Or.inr h'⟩⟩
    · exact ⟨c, fun _ => ⟨h1, h2, fun n _ i _ j _ hn => (hn.1 c h).le, Or.inl (by rw [h]; rfl)⟩⟩
  · exact ⟨0, fun h => absurd h hs⟩

/-- The hypotheses of the unfolding hold for a renumbered structure. -/
noncomputable def RenumberedCalc.enlarged (C : RenumberedCalc P P' A B σ m e kf)
    (hv : ∀ i < A.positions.length, ValidNo (P.no i)) : Enlarged P P' A B 1 where
  ix _ i := σ i
  R _ i := A.rawRotation (m i)
  comb _ i _ j := combImage m i j
  rng := P.cut
  crng := C.coulombRange.choose
  σ := undoOp e
  τ := undoOp e
  kf := (Equiv.prodUnique _ _).trans kf
  φ k _ _ i := blochPhase (P'.kpt k) (m i)
  pos := one_pos
  commA := C.structures.comm
  commB := C.structures.commB
  geom := C.geomRepeats
  orbs := by
    have el : A.positions.length = A.atoms.length := by unfold Atoms.positions; rw [List.length_map]
    have eN : (P.mat A).N = A.positions.length := el.symm
    refine ⟨fun u hu i hi => ?_, fun u hu i hi => ?_, C.same.2.2.2.1, C.same.2.2.2.2.1, fun i hi => hv i (eN ▸ hi),
      fun i hi => C.shell i (eN ▸ hi)⟩
    · rw [eN] at hi; exact (C.atoms i hi).1
    · rw [eN] at hi; exact (C.atoms i hi).2.1
  goodA k := goodMat_scan C.structures.comm C.scanA _ (C.trivial k) C.start C.cutSymm.1 C.followA C.tables
  goodB k := goodMat_scan C.structures.commB C.listB _ (C.trivialB (by
    rw [← C.kpoints]; exact C.trivial _)) C.start C.cutSymm.2 C.followB (by
    rw [C.same.2.2.2.2.1]; exact C.tables)
  invA := c31_containers A C.structures.comm P.bohr e P.cut P.scan C.cutSymm.1 C.scanA.nodup
    C.scanA.inverse C.scanA.half C.nothing C.start
  invB := c31_containers B C.structures.commB P'.bohr e P'.cut P'.scan C.cutSymm.2 C.scanB.nodup
    C.scanB.inverse C.scanB.half (C.trivialB C.nothing) C.start
  reach := C.reach
  fold k := by
    refine ⟨fun c u hu v hv n _ i _ j _ => ?_, fun c u hu i _ => ?_, fun c e i _ => ?_⟩
    · have e1 : P.kpt (((Equiv.prodUnique _ _).trans kf) (k, c)) = P'.kpt k := C.kpoints k
      rw [e1, ← blochPhase_add, ← blochPhase_add]
      congr 1
      unfold combImage; abel
    · rw [blochPhase_conj, ← blochPhase_add, neg_add_cancel, blochPhase_zero]
    · rw [if_pos (Subsingleton.elim c e), Finset.sum_range_one, blochPhase_conj, ← blochPhase_add,
        neg_add_cancel, blochPhase_zero, Nat.cast_one]
  weight k c := by rw [Nat.cast_one, one_mul]; exact C.weight k
  coul hs := by
    obtain ⟨H, H', hc, hcl⟩ := C.coulombRange.choose_spec hs
    have h0 := C.structures.none
    have h0' : Legal B 0 := C.structures.legal.2 h0
    refine ⟨C.structures.repeats (s := 1) rfl rfl (fun _ => rfl) (fun _ => rfl) rfl rfl
      (fun n i => (one_smul _ _).symm) (fun n i => (one_smul _ _).symm) (scanOps_nodup A) (scanOps_nodup B)
      (fun n hn => ((mem_scanOps A n).1 hn).1) (fun n hn => ((mem_scanOps B n).1 hn).1) ?_ ?_,
      fun u _ v _ n hn i hi j hj => (C.structures.legal_comb hi hj).2
        (C.structures.legal.1 ((mem_scanOps B n).1 hn).1), hc, hcl⟩
    · intro n hn i hi j hj h
      exact scanOps_mem H h0 hn hi hj h
    · intro n hn i hi j hj h
      refine scanOps_mem H' h0' hn ?_ ?_ h
      · rw [C.structures.length]; exact C.structures.lt i hi
      · rw [C.structures.length]; exact C.structures.lt j hj
  hubbard u hu i hi := ⟨(C.atoms i hi).2.2.1, (C.atoms i hi).2.2.2.1, (C.atoms i hi).2.2.2.2⟩
  units := ⟨C.same.1, C.same.2.1⟩
  same := ⟨C.same.2.2.1, C.same.2.2.2.2.2⟩
  symV := C.symV
  count := by
    simp only [Nat.cast_one, one_mul]
    exact C.count
  tols := C.tols

end Calc

end Hotbit
