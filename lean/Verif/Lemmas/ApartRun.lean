import Verif.Lemmas.Apart

/-!
# The converged calculation of structures that are far apart
-/

set_option linter.unusedSimpArgs false

namespace Hotbit

open Matrix

section Structure

theorem container_transform {A B : Atoms} (hc : A = { B with atoms := A.atoms }) (hB : Commuting B.ctype)
    (r : Vec) (n : Op) : A.rawTransform r n = B.rawTransform r n := by
  rw [hc]
  have hr : Atoms.rawRotation { B with atoms := A.atoms } n = B.rawRotation n := rfl
  unfold Atoms.rawTransform
  rw [hr]
  dsimp only
  cases h : B.ctype <;> rw [h] at hB <;> simp only [Commuting] at hB <;> rfl

theorem container_rotation {A B : Atoms} (hc : A = { B with atoms := A.atoms }) :
    A.rawRotation = B.rawRotation := by
  rw [hc]; rfl

theorem container_ranges {A B : Atoms} (hc : A = { B with atoms := A.atoms }) : A.ranges = B.ranges := by
  rw [hc]; rfl

theorem container_legal {A B : Atoms} (hc : A = { B with atoms := A.atoms }) {n : Op} : Legal A n ↔ Legal B n := by
  unfold Legal; rw [container_ranges hc]

theorem container_scanOps {A B : Atoms} (hc : A = { B with atoms := A.atoms }) : scanOps A = scanOps B := by
  unfold scanOps; rw [container_ranges hc]

theorem container_comm {A B : Atoms} (hc : A = { B with atoms := A.atoms }) (hB : Commuting B.ctype) :
    Commuting A.ctype := by
  rw [hc]; exact hB

variable {m : ℕ} {A : Fin m → Atoms} {B : Atoms} {ix : Fin m → ℕ → ℕ}

theorem Fragments.position (S : Fragments A B ix) {c : Fin m} {i : ℕ} (hi : i < (A c).positions.length) :
    B.pos (ix c i) = (A c).pos i := by
  have h := S.atom c i hi
  unfold Atoms.pos Atoms.positions
  rw [List.getD_eq_getElem?_getD, List.getD_eq_getElem?_getD, List.getElem?_map, List.getElem?_map, h]

theorem Fragments.symbol (S : Fragments A B ix) {c : Fin m} {i : ℕ} (hi : i < (A c).positions.length) :
    B.symbolAt (ix c i) = (A c).symbolAt i := by
  unfold Atoms.symbolAt
  rw [S.atom c i hi]

theorem Fragments.comms (S : Fragments A B ix) (c : Fin m) : Commuting (A c).ctype :=
  container_comm (S.container c) S.comm

theorem Fragments.inside (S : Fragments A B ix) (c : Fin m) {G G' : Geom} {s : ℝ} {rng : ℕ → ℕ → ℝ}
    (hN : G.N = (A c).positions.length) (hN' : G'.N = B.positions.length)
    (hs : ∀ i, G.sym i = (A c).symbolAt i) (hs' : ∀ i, G'.sym i = B.symbolAt i)
    (hr : G.rot = (A c).rawRotation) (hr' : G'.rot = B.rawRotation)
    (hp : ∀ n i, G.pos n i = s • (A c).rawTransform ((A c).pos i) n)
    (hp' : ∀ n i, G'.pos n i = s • B.rawTransform (B.pos i) n)
    (nd : G.ntuples.Nodup) (nd' : G'.ntuples.Nodup)
    (mem : ∀ n, ∀ i < G.N, ∀ j < G.N, norm3 (G.rij n i j) ≤ rng i j → (n ∈ G.ntuples ↔ n ∈ G'.ntuples)) :
    Inside G G' (ix c) rng where
  nodup := nd
  nodup' := nd'
  lt i hi := by rw [hN'] ; exact S.parts.lt c i (by rwa [hN] at hi)
  inj i hi j hj h := by
    rw [hN] at hi hj
    exact (S.parts.inj c i hi c j hj h).2
  sym i hi := by rw [hs', hs, S.symbol (by rwa [hN] at hi)]
  rij n i hi j hj := by
    rw [hN] at hi hj
    unfold Geom.rij
    rw [hp, hp, hp', hp', S.position hi, S.position hj, container_transform (S.container c) S.comm,
      container_transform (S.container c) S.comm]
  rot := by rw [hr, hr', container_rotation (S.container c)]
  mem := mem

theorem Fragments.nb (S : Fragments A B ix) (c : Fin m) (rng : ℕ → ℕ → ℝ) :
    Inside (nbGeom (A c)) (nbGeom B) (ix c) rng :=
  S.inside c (s := 1) rfl rfl (fun _ => rfl) (fun _ => rfl) rfl rfl (fun n i => (one_smul _ _).symm)
    (fun n i => (one_smul _ _).symm) (scanOps_nodup _) (scanOps_nodup _) fun n i _ j _ _ => by
      show n ∈ scanOps (A c) ↔ n ∈ scanOps B
      rw [container_scanOps (S.container c)]

end Structure

section Coulomb

variable {m : ℕ} {A : Fin m → Atoms} {B : Atoms} {ix : Fin m → ℕ → ℕ} {cut : Option ℝ}

theorem Fragments.near (S : Fragments A B ix) {c : Fin m} {i j : ℕ} (hi : i < (A c).positions.length)
    (hj : j < (A c).positions.length) (n : Op) :
    Near cut (nbGeom B) (ix c i) (ix c j) n ↔ Near cut (nbGeom (A c)) i j n := by
  have H := S.nb c fun _ _ => 0
  have e1 : (nbGeom B).rij n (ix c i) (ix c j) = (nbGeom (A c)).rij n i j := H.rij n i hi j hj
  have e2 : ix c i = ix c j ↔ i = j := ⟨H.inj i hi j hj, fun h => by rw [h]⟩
  unfold Near
  rw [e1, e2]

theorem Fragments.near_sum (S : Fragments A B ix) {c : Fin m} {i j : ℕ} (hi : i < (A c).positions.length)
    (hj : j < (A c).positions.length) (f : ℝ → ℝ) :
    (((nbList B cut).filter fun e => e.i == ix c i && e.j == ix c j).map fun e => f e.d).sum
      = (((nbList (A c) cut).filter fun e => e.i == i && e.j == j).map fun e => f e.d).sum := by
  classical
  have H := S.nb c fun _ _ => 0
  rw [nb_pair_sum (S.comms c) f hi hj, nb_pair_sum S.comm f (S.parts.lt c i hi) (S.parts.lt c j hj)]
  show ((scanOps B).map _).sum = ((scanOps (A c)).map _).sum
  rw [container_scanOps (S.container c)]
  congr 1
  refine List.map_congr_left fun n _ => ?_
  have e1 : (nbGeom B).rij n (ix c i) (ix c j) = (nbGeom (A c)).rij n i j := H.rij n i hi j hj
  rw [e1]
  by_cases h : Near cut (nbGeom (A c)) i j n
  · rw [if_pos h, if_pos ((S.near hi hj n).2 h)]
  · rw [if_neg h, if_neg fun h' => h ((S.near hi hj n).1 h')]

theorem Fragments.near_vec (S : Fragments A B ix) {c : Fin m} {i j : ℕ} (hi : i < (A c).positions.length)
    (hj : j < (A c).positions.length) (f : ℝ → ℝ) :
    (((nbList B cut).filter fun e => e.i == ix c i && e.j == ix c j).map fun e => f e.d • e.n).sum
      = (((nbList (A c) cut).filter fun e => e.i == i && e.j == j).map fun e => f e.d • e.n).sum := by
  classical
  have H := S.nb c fun _ _ => 0
  rw [nb_pair_vec (S.comms c) f hi hj, nb_pair_vec S.comm f (S.parts.lt c i hi) (S.parts.lt c j hj)]
  show ((scanOps B).map _).sum = ((scanOps (A c)).map _).sum
  rw [container_scanOps (S.container c)]
  congr 1
  refine List.map_congr_left fun n _ => ?_
  have e1 : (nbGeom B).rij n (ix c i) (ix c j) = (nbGeom (A c)).rij n i j := H.rij n i hi j hj
  rw [e1]
  by_cases h : Near cut (nbGeom (A c)) i j n
  · rw [if_pos h, if_pos ((S.near hi hj n).2 h)]
  · rw [if_neg h, if_neg fun h' => h ((S.near hi hj n).1 h')]

/-- No neighbours beyond the cutoff. -/
theorem far_sum (hB : Commuting B.ctype) {x y : ℕ} (hx : x < B.positions.length) (hy : y < B.positions.length)
    (h : ∀ n ∈ scanOps B, ¬ Near cut (nbGeom B) x y n) (f : ℝ → ℝ) :
    (((nbList B cut).filter fun e => e.i == x && e.j == y).map fun e => f e.d).sum = 0 ∧
    (((nbList B cut).filter fun e => e.i == x && e.j == y).map fun e => f e.d • e.n).sum = 0 := by
  classical
  rw [nb_pair_sum hB f hx hy, nb_pair_vec hB f hx hy]
  constructor
  · refine List.sum_eq_zero fun z hz => ?_
    obtain ⟨n, hn, rfl⟩ := List.mem_map.1 hz
    rw [if_neg (h n hn)]
  · refine List.sum_eq_zero fun z hz => ?_
    obtain ⟨n, hn, rfl⟩ := List.mem_map.1 hz
    rw [if_neg (h n hn)]

theorem Fragments.gam_same (S : Fragments A B ix) (cd : ChargeDensity) (bohr : ℝ) {U w U' w' : ℕ → ℝ} {c : Fin m}
    (hU : ∀ i < (A c).positions.length, U' (ix c i) = U i ∧ w' (ix c i) = w i)
    {i j : ℕ} (hi : i < (A c).positions.length) (hj : j < (A c).positions.length) :
    gam cd bohr U' w' cut B (ix c i) (ix c j) = gam cd bohr U w cut (A c) i j := by
  have e : ix c i = ix c j ↔ i = j := ⟨(S.nb c fun _ _ => 0).inj i hi j hj, fun h => by rw [h]⟩
  unfold gam corrMatrix gammaEntry
  rw [S.near_sum hi hj, (hU i hi).2, (hU j hj).2, (hU i hi).1,
    S.near_sum hi hj fun d => corrG cd (w i) (w j) (d / bohr)]
  by_cases h : i = j
  · rw [if_pos h, if_pos (e.2 h)]
  · rw [if_neg h, if_neg fun h' => h (e.1 h')]

theorem gam_far (hB : Commuting B.ctype) {x y : ℕ} (hx : x < B.positions.length) (hy : y < B.positions.length)
    (hxy : x ≠ y) (h : ∀ n ∈ scanOps B, ¬ Near cut (nbGeom B) x y n) (cd : ChargeDensity) (bohr : ℝ)
    (U w : ℕ → ℝ) : gam cd bohr U w cut B x y = 0 := by
  unfold gam corrMatrix gammaEntry
  rw [(far_sum hB hx hy h _).1, (far_sum hB hx hy h fun d => corrG cd (w x) (w y) (d / bohr)).1, if_neg hxy]
  simp

end Coulomb

section Main

variable {m : ℕ} {P : Fin m → ScfIn} {P' : ScfIn} {A : Fin m → Atoms} {B : Atoms} {ix : Fin m → ℕ → ℕ} {e : Op}
  {kf : ∀ c, Fin P'.nk ≃ Fin (P c).nk} {elements : Fin m → String → Option ElementData}
  {elements' : String → Option ElementData}

theorem posLen (A : Atoms) : A.positions.length = A.atoms.length := by unfold Atoms.positions; rw [List.length_map]

theorem geom_scan_mem {Q : ScfIn} {A : Atoms} (hc : ∀ i j, Q.cut i j = Q.cut j i)
    {n : Op} (hn : n ≠ 0 → n ∈ Q.scan) {i j : ℕ} (hi : i < A.positions.length) (hj : j < A.positions.length)
    (h : norm3 ((Q.geom A).rij n i j) ≤ Q.cut i j) : n ∈ (Q.geom A).ntuples := by
  show n ∈ selectImages A.atoms.length (imagePos A Q.bohr) Q.cut Q.scan
  unfold selectImages
  by_cases h0 : n = 0
  · rw [h0]; exact List.mem_cons_self
  refine List.mem_cons_of_mem _ (List.mem_filter.2 ⟨hn h0, decide_eq_true
    ⟨h0, j, posLen A ▸ hj, i, posLen A ▸ hi, ?_⟩⟩)
  have e2 : ∑ c, (imagePos A Q.bohr 0 i c - imagePos A Q.bohr n j c) ^ 2
      = norm3 (imagePos A Q.bohr n j - imagePos A Q.bohr 0 i) ^ 2 := by
    rw [← sum_sq_norm3]
    exact Finset.sum_congr rfl fun c _ => by simp only [Pi.sub_apply]; ring
  rw [e2, hc j i]
  exact pow_le_pow_left₀ (norm3_nonneg _) h 2

theorem geom_mem_scan {Q : ScfIn} {A : Atoms} {n : Op} (hn : n ∈ (Q.geom A).ntuples) (h0 : n ≠ 0) :
    n ∈ Q.scan := by
  have : n ∈ selectImages A.atoms.length (imagePos A Q.bohr) Q.cut Q.scan := hn
  unfold selectImages at this
  rcases List.mem_cons.1 this with rfl | h
  · exact absurd rfl h0
  · exact List.mem_of_mem_filter h

theorem ApartCalc.inside (C : ApartCalc P P' A B ix e kf) (c : Fin m) :
    Inside ((P c).geom (A c)) (P'.geom B) (ix c) (P c).cut := by
  have S := C.fragments
  have nd : ((P c).geom (A c)).ntuples.Nodup := by
    show (selectImages (A c).atoms.length (imagePos (A c) (P c).bohr) (P c).cut (P c).scan).Nodup
    exact selectImages_nodup _ _ _ _ (C.scans c).nodup
  have nd' : (P'.geom B).ntuples.Nodup := by
    show (selectImages B.atoms.length (imagePos B P'.bohr) P'.cut P'.scan).Nodup
    exact selectImages_nodup _ _ _ _ C.scan.nodup
  have hp : ∀ n i, ((P c).geom (A c)).pos n i = P'.bohr⁻¹ • (A c).rawTransform ((A c).pos i) n := fun n i => by
    show (P c).bohr⁻¹ • (A c).rawTransform _ n = _
    rw [getD_pos, (C.same c).1]
  have hp' : ∀ n i, (P'.geom B).pos n i = P'.bohr⁻¹ • B.rawTransform (B.pos i) n := fun n i => by
    show P'.bohr⁻¹ • B.rawTransform _ n = _
    rw [getD_pos]
  refine S.inside c (G := (P c).geom (A c)) (G' := P'.geom B) (s := P'.bohr⁻¹) (posLen _).symm (posLen _).symm
    (fun _ => rfl) (fun _ => rfl) rfl rfl hp hp' nd nd' fun n i hi j hj h => ?_
  have hi' : i < (A c).positions.length := lt_of_lt_of_eq hi (posLen _).symm
  have hj' : j < (A c).positions.length := lt_of_lt_of_eq hj (posLen _).symm
  have hd : imageDist (A c) P'.bohr i j n ≤ (P c).cut i j := by
    rw [← (C.same c).1]; exact h
  have hr : norm3 ((P'.geom B).rij n (ix c i) (ix c j)) ≤ P'.cut (ix c i) (ix c j) := by
    rw [C.cuts c i hi' j hj']
    refine le_trans (le_of_eq ?_) h
    unfold Geom.rij
    rw [hp, hp, hp', hp', S.position hi', S.position hj', container_transform (S.container c) S.comm,
      container_transform (S.container c) S.comm]
  constructor
  · intro hn
    exact geom_scan_mem C.cutSymm.2 (fun h0 => (C.images c i hi' j hj' n h0 hd).1 (geom_mem_scan hn h0))
      (S.parts.lt c i hi') (S.parts.lt c j hj') hr
  · intro hn
    exact geom_scan_mem (C.cutSymm.1 c) (fun h0 => (C.images c i hi' j hj' n h0 hd).2 (geom_mem_scan hn h0))
      hi' hj' h

theorem ApartCalc.trivial (C : ApartCalc P P' A B ix e kf) (k : Fin P'.nk) : TrivialOp B (P'.kpt k) e :=
  ⟨C.nothing.1, C.nothing.2.1, C.phases k⟩

theorem ApartCalc.trivials (C : ApartCalc P P' A B ix e kf) (c : Fin m) {k : Vec} (h : TrivialOp B k e) :
    TrivialOp (A c) k e :=
  ⟨fun r => by rw [container_transform (C.fragments.container c) C.fragments.comm]; exact h.1 r,
    by rw [container_rotation (C.fragments.container c)]; exact h.2.1, h.2.2⟩

theorem ApartCalc.list (C : ApartCalc P P' A B ix e kf) (c : Fin m) : InverseScan (A c) e (P c).scan :=
  ⟨(C.scans c).nodup, fun n hn => (container_legal (C.fragments.container c)).2 ((C.scans c).legal n hn),
    (C.scans c).inverse, (C.scans c).half⟩

theorem ApartCalc.good (C : ApartCalc P P' A B ix e kf) (k : Fin P'.nk) :
    GoodMat (P'.mat B) (P'.kpt k) (undoOp e) :=
  goodMat_scan C.fragments.comm C.scan _ (C.trivial k) C.start C.cutSymm.2 C.follow C.tables

theorem ApartCalc.goods (C : ApartCalc P P' A B ix e kf) (c : Fin m) (k : Fin P'.nk) :
    GoodMat ((P c).mat (A c)) ((P c).kpt (kf c k)) (undoOp e) :=
  goodMat_scan (C.fragments.comms c) (C.list c) _ (by
    rw [(C.kpoints c k).1]; exact C.trivials c (C.trivial k)) C.start (C.cutSymm.1 c) (C.follows c) (by
    rw [(C.same c).2.2.2.2.1]; exact C.tables)

theorem ApartCalc.inv (C : ApartCalc P P' A B ix e kf) : (P'.geom B).Inverse (undoOp e) :=
  c31_containers B C.fragments.comm P'.bohr e P'.cut P'.scan C.cutSymm.2 C.scan.nodup
    C.scan.inverse C.scan.half C.nothing C.start

theorem ApartCalc.invs (C : ApartCalc P P' A B ix e kf) (c : Fin m) : ((P c).geom (A c)).Inverse (undoOp e) :=
  c31_containers (A c) (C.fragments.comms c) (P c).bohr e (P c).cut (P c).scan (C.cutSymm.1 c) (C.scans c).nodup
    (C.scans c).inverse (C.scans c).half (C.trivials c C.nothing) C.start

theorem ApartCalc.legal (C : ApartCalc P P' A B ix e kf) {n : Op} (hn : n ∈ (P'.mat B).ntuples) : Legal B n :=
  mem_geom_legal C.fragments.none C.scan.legal hn

/-- Atoms of different structures are out of reach. -/
theorem ApartCalc.far (C : ApartCalc P P' A B ix e kf) {c d : Fin m} (hcd : c ≠ d) {i j : ℕ}
    (hi : i < (A c).positions.length) (hj : j < (A d).positions.length) {n : Op} (hn : n ∈ (P'.mat B).ntuples) :
    (P'.tab ((P'.mat B).sym (ix c i)) ((P'.mat B).sym (ix d j))).r2 < norm3 ((P'.mat B).rij n (ix c i) (ix d j)) ∧
    P'.rmax < norm3 ((P'.mat B).rij n (ix c i) (ix d j)) ∧
    0.1 < norm3 ((P'.mat B).rij n (ix c i) (ix d j)) := by
  have := C.apart c d hcd i hi j hj n (C.legal hn)
  exact ⟨this.1, this.2.1, this.2.2.1⟩

theorem ApartCalc.not_near (C : ApartCalc P P' A B ix e kf) (hs : P'.scc = true) {c d : Fin m} (hcd : c ≠ d)
    {i j : ℕ} (hi : i < (A c).positions.length) (hj : j < (A d).positions.length) {n : Op}
    (hn : n ∈ scanOps B) : ¬ Near P'.gcut (nbGeom B) (ix c i) (ix d j) n := by
  obtain ⟨g, h1, h2⟩ := (C.apart c d hcd i hi j hj n ((mem_scanOps B n).1 hn).1).2.2.2 hs
  intro h
  have h3 := h.1 g h1
  have e : imageDist B 1 (ix c i) (ix d j) n = norm3 ((nbGeom B).rij n (ix c i) (ix d j)) := by
    unfold imageDist imagePos Geom.rij nbGeom
    simp only [getD_pos, inv_one, one_smul]
  rw [e] at h2
  linarith

theorem ApartCalc.ne (C : ApartCalc P P' A B ix e kf) {c d : Fin m} (hcd : c ≠ d) {i j : ℕ}
    (hi : i < (A c).positions.length) (hj : j < (A d).positions.length) : ix c i ≠ ix d j :=
  fun h => hcd (C.fragments.parts.inj c i hi d j hj h).1

theorem ApartCalc.reach' (C : ApartCalc P P' A B ix e kf) (c : Fin m) : ∀ i < ((P c).mat (A c)).N,
    ∀ j < ((P c).mat (A c)).N,
    (((P c).mat (A c)).tab (((P c).mat (A c)).sym i) (((P c).mat (A c)).sym j)).r2 ≤ (P c).cut i j := by
  intro i hi j hj
  rw [matN] at hi hj
  have := (C.reach c i hi j hj).1
  rw [← (C.same c).2.2.2.2.1] at this
  exact this

/-- The matrices of all structures are made of the blocks of each of them. -/
theorem ApartCalc.get (C : ApartCalc P P' A B ix e kf) {k : Fin P'.nk} {st' : MatSt}
    (h' : getMatrices (P'.mat B) (P'.kpt k) = .ok st') {c : Fin m} {st : MatSt}
    (h : getMatrices ((P c).mat (A c)) ((P c).kpt (kf c k)) = .ok st) (K : Comp) {i j : ℕ}
    (hi : i < (A c).positions.length) (hj : j < (A c).positions.length) {p q : Fin 9} (hp : p.val < (P c).no i)
    (hq : q.val < (P c).no j) :
    K.get st' (ix c i) (ix c j) p q = K.get st i j p q := by
  have g' := C.good k
  have g := C.goods c k
  have H : Inside ((P c).mat (A c)).geom (P'.mat B).geom (ix c) (P c).cut := C.inside c
  have hN : ((P c).mat (A c)).N = (A c).positions.length := matN _ _
  have hN' : (P'.mat B).N = B.positions.length := matN _ _
  have ht : (P'.mat B).tab = ((P c).mat (A c)).tab := (C.same c).2.2.2.2.1.symm
  rw [elements_all h' g'.id g'.follow g'.mirror g'.tables K (by rw [hN']; exact C.fragments.parts.lt c i hi)
    (by rw [hN']; exact C.fragments.parts.lt c j hj)
    (show p.val < P'.no (ix c i) by rw [(C.atoms c i hi).1]; exact hp)
    (show q.val < P'.no (ix c j) by rw [(C.atoms c j hj).1]; exact hq),
    elements_all h g.id g.follow g.mirror g.tables K (by rw [hN]; exact hi) (by rw [hN]; exact hj) hp hq,
    H.blochSum ht (C.reach' c) (by rw [hN]; exact hi) (by rw [hN]; exact hj), (C.kpoints c k).1]
  congr 1
  have e1 : ix c i = ix c j ↔ i = j := ⟨fun hh => (C.fragments.parts.inj c i hi c j hj hh).2, fun hh => by rw [hh]⟩
  have e2 : K.diag (P'.mat B) (ix c i) p = K.diag ((P c).mat (A c)) i p := by
    cases K
    · exact congrFun (C.atoms c i hi).2.1 p
    · show 1 + P'.seps = 1 + (P c).seps
      rw [(C.same c).2.2.2.1]
  rw [e2]
  by_cases hh : i = j ∧ p = q
  · rw [if_pos hh, if_pos ⟨e1.2 hh.1, hh.2⟩]
  · rw [if_neg hh, if_neg fun h2 => hh ⟨e1.1 h2.1, h2.2⟩]

theorem ApartCalc.get_far (C : ApartCalc P P' A B ix e kf) {k : Fin P'.nk} {st' : MatSt}
    (h' : getMatrices (P'.mat B) (P'.kpt k) = .ok st') {c d : Fin m} (hcd : c ≠ d) (K : Comp) {i j : ℕ}
    (hi : i < (A c).positions.length) (hj : j < (A d).positions.length) {p q : Fin 9} (hp : p.val < (P c).no i)
    (hq : q.val < (P d).no j) :
    K.get st' (ix c i) (ix d j) p q = 0 := by
  have g' := C.good k
  have hN' : (P'.mat B).N = B.positions.length := matN _ _
  rw [elements_all h' g'.id g'.follow g'.mirror g'.tables K (by rw [hN']; exact C.fragments.parts.lt c i hi)
    (by rw [hN']; exact C.fragments.parts.lt d j hj)
    (show p.val < P'.no (ix c i) by rw [(C.atoms c i hi).1]; exact hp)
    (show q.val < P'.no (ix d j) by rw [(C.atoms d j hj).1]; exact hq),
    if_neg fun h => C.ne hcd hi hj h.1, blochSum_far fun n hn => (C.far hcd hi hj hn).1, add_zero]

/-- The derivatives too. -/
theorem ApartCalc.getD (C : ApartCalc P P' A B ix e kf) (T : MutualDerivatives P'.tab)
    (hA : ∀ c, Fits (P c) (A c) (elements c)) (hB : Fits P' B elements') {k : Fin P'.nk} {st' : MatSt}
    (h' : getMatrices (P'.mat B) (P'.kpt k) = .ok st') {c : Fin m} {st : MatSt}
    (h : getMatrices ((P c).mat (A c)) ((P c).kpt (kf c k)) = .ok st) (K : Comp) (a : Fin 3) {i j : ℕ}
    (hi : i < (A c).positions.length) (hj : j < (A c).positions.length) {p q : Fin 9} (hp : p.val < (P c).no i)
    (hq : q.val < (P c).no j) :
    K.getD st' a (ix c i) (ix c j) p q = K.getD st a i j p q := by
  have g' := C.good k
  have g := C.goods c k
  have H : Inside ((P c).mat (A c)).geom (P'.mat B).geom (ix c) (P c).cut := C.inside c
  have hN : ((P c).mat (A c)).N = (A c).positions.length := matN _ _
  have hN' : (P'.mat B).N = B.positions.length := matN _ _
  have ht : (P'.mat B).tab = ((P c).mat (A c)).tab := (C.same c).2.2.2.2.1.symm
  have hv : ∀ i < ((P c).mat (A c)).N, ValidNo (((P c).mat (A c)).no i) := fun i hi =>
    ((hA c).numbers i (by rwa [hN] at hi)).2
  have T1 : MutualDerivatives ((P c).mat (A c)).tab := by rw [← ht]; exact T
  rw [elementsD_all h' g' T (fun i hi => (hB.numbers i (by rwa [hN'] at hi)).2) K
    (by rw [hN']; exact C.fragments.parts.lt c i hi)
    (by rw [hN']; exact C.fragments.parts.lt c j hj) a
    (show p.val < P'.no (ix c i) by rw [(C.atoms c i hi).1]; exact hp)
    (show q.val < P'.no (ix c j) by rw [(C.atoms c j hj).1]; exact hq),
    elementsD_all h g T1 hv K (by rw [hN]; exact hi) (by rw [hN]; exact hj) a hp hq,
    H.dSum ht (C.reach' c) (far_all g.mirror (notTooClose_of_ok h g.id hv g.follow)) (by rw [hN]; exact hi)
      (by rw [hN]; exact hj) (fun i hi => ⟨(C.atoms c i (by rwa [hN] at hi)).1, hv i hi⟩), (C.kpoints c k).1]

theorem ApartCalc.getD_far (C : ApartCalc P P' A B ix e kf) (T : MutualDerivatives P'.tab)
    (hB : Fits P' B elements') {k : Fin P'.nk} {st' : MatSt}
    (h' : getMatrices (P'.mat B) (P'.kpt k) = .ok st') {c d : Fin m} (hcd : c ≠ d) (K : Comp) (a : Fin 3)
    {i j : ℕ} (hi : i < (A c).positions.length) (hj : j < (A d).positions.length) {p q : Fin 9}
    (hp : p.val < (P c).no i) (hq : q.val < (P d).no j) :
    K.getD st' a (ix c i) (ix d j) p q = 0 := by
  have g' := C.good k
  have hN' : (P'.mat B).N = B.positions.length := matN _ _
  rw [elementsD_all h' g' T (fun i hi => (hB.numbers i (by rwa [hN'] at hi)).2) K
    (by rw [hN']; exact C.fragments.parts.lt c i hi) (by rw [hN']; exact C.fragments.parts.lt d j hj) a
    (show p.val < P'.no (ix c i) by rw [(C.atoms c i hi).1]; exact hp)
    (show q.val < P'.no (ix d j) by rw [(C.atoms d j hj).1]; exact hq),
    dSum_far fun n hn => (C.far hcd hi hj hn).1, neg_zero]

/-- No atoms are too close. -/
theorem ApartCalc.no_close (C : ApartCalc P P' A B ix e kf) (hA : ∀ c, Fits (P c) (A c) (elements c))
    {st : Fin m → MatSt} {k : Fin P'.nk}
    (h : ∀ c, getMatrices ((P c).mat (A c)) ((P c).kpt (kf c k)) = .ok (st c)) :
    ∀ x y, x < B.positions.length → y < B.positions.length → ∀ n ∈ (P'.mat B).ntuples, ¬ (x = y ∧ n = 0) →
      0.1 < norm3 ((P'.mat B).rij n x y) := by
  intro x y hx hy n hn hne
  obtain ⟨c, i, hi, rfl⟩ := C.fragments.parts.split hx
  obtain ⟨d, j, hj, rfl⟩ := C.fragments.parts.split hy
  by_cases hcd : c = d
  · subst hcd
    have hN : ((P c).mat (A c)).N = (A c).positions.length := matN _ _
    have H : Inside ((P c).mat (A c)).geom (P'.mat B).geom (ix c) (P c).cut := C.inside c
    have er : (P'.mat B).rij n (ix c i) (ix c j) = ((P c).mat (A c)).rij n i j :=
      H.rij n i (lt_of_lt_of_eq hi hN.symm) j (lt_of_lt_of_eq hj hN.symm)
    rw [er]
    by_contra hle
    push Not at hle
    have hm : n ∈ ((P c).mat (A c)).ntuples := (H.mem n i (lt_of_lt_of_eq hi hN.symm) j
      (lt_of_lt_of_eq hj hN.symm) (hle.trans (C.reach c i hi j hj).2.2)).2 hn
    have g := C.goods c k
    have hcl := notTooClose_of_ok (h c) g.id (fun i hi => ((hA c).numbers i (by rwa [hN] at hi)).2) g.follow
    have hne' : ¬ (i = j ∧ n = 0) := fun hh => hne ⟨by rw [hh.1], hh.2⟩
    rcases le_total i j with hij | hij
    · exact absurd (hcl i j hij (by rw [hN]; exact hj) n hm hne') (not_lt.2 hle)
    · have hmr := g.mirror
      have := hcl j i hij (by rw [hN]; exact hi) (undoOp e n) (hmr.mem n hm) (by
        rintro ⟨h1, h2⟩
        refine hne' ⟨h1.symm, ?_⟩
        rw [← hmr.invol n hm, h2, hmr.zero])
      rw [hmr.posAll n hm i (by rw [hN]; exact hi) j (by rw [hN]; exact hj), neg_mulVec, norm3_neg', norm3_rot] at this
      · exact absurd this (not_lt.2 hle)
      · rw [transpose_transpose]
        exact mul_eq_one_comm.1 (hmr.orth n hm)
  · exact (C.far hcd hi hj hn).2.2

theorem ApartCalc.mats (C : ApartCalc P P' A B ix e kf) (hA : ∀ c, Fits (P c) (A c) (elements c))
    (hB : Fits P' B elements') {st : Fin m → MatSt} {k : Fin P'.nk}
    (h : ∀ c, getMatrices ((P c).mat (A c)) ((P c).kpt (kf c k)) = .ok (st c)) :
    ∃ st', getMatrices (P'.mat B) (P'.kpt k) = .ok st' := by
  refine (c29_too_close (I := P'.mat B) (P'.kpt k) (C.good k).id
    (fun i hi => (hB.numbers i (by rwa [matN] at hi)).2) (C.good k).follow).1 ?_
  intro i j hij hj n hn hne
  rw [matN] at hj
  exact C.no_close hA h i j (by omega) hj n hn hne

/-- The pairing of orbitals. -/
def JoinOrbitals (P : Fin m → ScfIn) (P' : ScfIn) (ix : Fin m → ℕ → ℕ)
    (g : (Σ c, Fin (P c).t.norb) ≃ Fin P'.t.norb) : Prop :=
  ∀ c x, P'.t.atomAt (g ⟨c, x⟩) = ix c ((P c).t.atomAt x) ∧ P'.t.numAt (g ⟨c, x⟩) = (P c).t.numAt x

theorem ApartCalc.orbitals (C : ApartCalc P P' A B ix e kf) (hA : ∀ c, Fits (P c) (A c) (elements c))
    (hB : Fits P' B elements') : ∃ g : (Σ c, Fin (P c).t.norb) ≃ Fin P'.t.norb, JoinOrbitals P P' ix g :=
  C.fragments.parts.orb_equiv (fun c => (hA c).lay) hB.lay fun c i hi => (C.atoms c i hi).1

/-- Matrices made of the blocks, also when the blocks are multiplied by numbers. -/
theorem ApartCalc.flat (C : ApartCalc P P' A B ix e kf) (hA : ∀ c, Fits (P c) (A c) (elements c))
    {g : (Σ c, Fin (P c).t.norb) ≃ Fin P'.t.norb} (hg : JoinOrbitals P P' ix g) {k : Fin P'.nk} {st' : MatSt}
    (h' : getMatrices (P'.mat B) (P'.kpt k) = .ok st') {st : Fin m → MatSt}
    (h : ∀ c, getMatrices ((P c).mat (A c)) ((P c).kpt (kf c k)) = .ok (st c)) (K : Comp) :
    P'.t.flat (K.get st') = joinM g fun c => (P c).t.flat (K.get (st c)) := by
  refine joinM_ext g (fun c x y => ?_) fun c d hcd x y => ?_
  · unfold OrbTables.flat
    rw [of_apply, of_apply, (hg c x).1, (hg c x).2, (hg c y).1, (hg c y).2]
    exact C.get h' (h c) K ((hA c).lay.lt x) ((hA c).lay.lt y) ((hA c).lay.num_lt x) ((hA c).lay.num_lt y)
  · unfold OrbTables.flat
    rw [of_apply, (hg c x).1, (hg c x).2, (hg d y).1, (hg d y).2]
    exact C.get_far h' hcd K ((hA c).lay.lt x) ((hA d).lay.lt y) ((hA c).lay.num_lt x) ((hA d).lay.num_lt y)

theorem ApartCalc.flatD (C : ApartCalc P P' A B ix e kf) (T : MutualDerivatives P'.tab)
    (hA : ∀ c, Fits (P c) (A c) (elements c)) (hB : Fits P' B elements')
    {g : (Σ c, Fin (P c).t.norb) ≃ Fin P'.t.norb} (hg : JoinOrbitals P P' ix g) {k : Fin P'.nk} {st' : MatSt}
    (h' : getMatrices (P'.mat B) (P'.kpt k) = .ok st') {st : Fin m → MatSt}
    (h : ∀ c, getMatrices ((P c).mat (A c)) ((P c).kpt (kf c k)) = .ok (st c)) (K : Comp) (a : Fin 3) :
    P'.t.flat (K.getD st' a) = joinM g fun c => (P c).t.flat (K.getD (st c) a) := by
  refine joinM_ext g (fun c x y => ?_) fun c d hcd x y => ?_
  · unfold OrbTables.flat
    rw [of_apply, of_apply, (hg c x).1, (hg c x).2, (hg c y).1, (hg c y).2]
    exact C.getD T hA hB h' (h c) K a ((hA c).lay.lt x) ((hA c).lay.lt y) ((hA c).lay.num_lt x)
      ((hA c).lay.num_lt y)
  · unfold OrbTables.flat
    rw [of_apply, (hg c x).1, (hg c x).2, (hg d y).1, (hg d y).2]
    exact C.getD_far T hB h' hcd K a ((hA c).lay.lt x) ((hA d).lay.lt y) ((hA c).lay.num_lt x)
      ((hA d).lay.num_lt y)

/-- The potential at the atoms. -/
theorem ApartCalc.epsilon (C : ApartCalc P P' A B ix e kf) (hs : P'.scc = true) {q : Fin m → List ℝ}
    {c : Fin m} {G G' : ℕ → ℕ → ℝ} {dG dG' : ℕ → ℕ → Vec} {s s' : DC} {phi phi' : List ℝ}
    (h : EsState (P c).cd (P c).bohr (P c).U (P c).w (P c).gcut (A c) (q c) G dG s) (hphi : dcPotential s = .ok phi)
    (h' : EsState P'.cd P'.bohr P'.U P'.w P'.gcut B
      (joinList B.positions.length (fun c => (A c).positions.length) ix q) G' dG' s')
    (hphi' : dcPotential s' = .ok phi') {i : ℕ} (hi : i < (A c).positions.length) :
    epsilonOf B.positions.length G' P'.bohr (fun i => phi'.getD i 0)
        (chg (joinList B.positions.length (fun c => (A c).positions.length) ix q)) (ix c i)
      = epsilonOf (A c).positions.length G (P c).bohr (fun i => phi.getD i 0) (chg (q c)) i := by
  have S := C.fragments
  rw [epsilon_gam h hphi hi, epsilon_gam h' hphi' (S.parts.lt c i hi), S.parts.sum_one _ c]
  · refine Finset.sum_congr rfl fun j hj => ?_
    rw [Finset.mem_range] at hj
    rw [joinList_get S.parts q hj, S.gam_same P'.cd P'.bohr
      (fun i hi => ⟨(C.atoms c i hi).2.2.1, (C.atoms c i hi).2.2.2.1⟩) hi hj]
    obtain ⟨s1, -, -, -, -, -, s7, s8, -⟩ := C.same c
    rw [s1, s7, s8]
  · intro d hd j hj
    rw [gam_far S.comm (S.parts.lt c i hi) (S.parts.lt d j hj) (C.ne hd.symm hi hj)
      (fun n hn => C.not_near hs hd.symm hi hj hn), zero_mul]

theorem ApartCalc.potential (C : ApartCalc P P' A B ix e kf) (q : List ℝ) : ∃ (G' : ℕ → ℕ → ℝ) (dG' : ℕ → ℕ → Vec)
    (s' : DC) (phi' : List ℝ) (field' : List Vec), P'.scc = true →
      EsState P'.cd P'.bohr P'.U P'.w P'.gcut B q G' dG' s' ∧
      dcPotential s' = .ok phi' ∧ dcGetField s' = .ok field' := by
  by_cases hs : P'.scc = true
  · obtain ⟨s', h1⟩ := esState_exists P'.cd P'.bohr P'.U P'.w P'.gcut B q (C.coulomb hs)
    have hf := (esState_eq _ _ _ _ _ _ _ _ _ _ h1).2.2.1
    obtain ⟨-, hs'⟩ := fresh_eq _ _ _ _ hf
    exact ⟨_, _, s', _, _, fun _ => ⟨h1, by rw [hs']; rfl, by rw [hs']; rfl⟩⟩
  · exact ⟨0, 0, { cutoff := none }, [], [], fun h => absurd h hs⟩

/-- Repulsion. -/
theorem ApartCalc.pair_zero (C : ApartCalc P P' A B ix e kf) {c d : Fin m} (hcd : c ≠ d) {i j : ℕ}
    (hi : i < (A c).positions.length) (hj : j < (A d).positions.length) {n : Op} (hn : n ∈ (P'.geom B).ntuples) :
    P'.rmax < norm3 ((P'.geom B).rij n (ix c i) (ix d j)) := (C.far hcd hi hj hn).2.1

theorem ApartCalc.cellEnergy (C : ApartCalc P P' A B ix e kf) :
    cellEnergy (P'.geom B) (cutPot (P'.geom B) P'.V P'.rmax)
      = ∑ c, cellEnergy ((P c).geom (A c)) (cutPot ((P c).geom (A c)) (P c).V (P c).rmax) := by
  classical
  unfold Hotbit.cellEnergy
  rw [← Finset.mul_sum, geomN, C.fragments.parts.sum]
  congr 1
  refine Finset.sum_congr rfl fun c _ => ?_
  rw [geomN]
  refine Finset.sum_congr rfl fun i hi => ?_
  rw [Finset.mem_range] at hi
  rw [C.fragments.parts.sum_one _ c]
  · refine Finset.sum_congr rfl fun j hj => ?_
    rw [Finset.mem_range] at hj
    have hi' : i < ((P c).geom (A c)).N := by rw [geomN]; exact hi
    have hj' : j < ((P c).geom (A c)).N := by rw [geomN]; exact hj
    have H := C.inside c
    obtain ⟨-, -, -, -, -, -, -, -, s9, s10⟩ := C.same c
    obtain ⟨Q, hQ⟩ : ∃ Q : Op → Prop, ∀ n, Q n ↔ ¬ (i = j ∧ n = 0) ∧ norm3 (((P c).geom (A c)).rij n i j) ≤ P'.rmax :=
      ⟨_, fun _ => Iff.rfl⟩
    have key := H.reindex hi' hj' Q (fun n hn => ((hQ n).1 hn).2.trans (C.reach c i hi j hj).2.1)
      (fun n => P'.V (((P c).geom (A c)).sym i) (((P c).geom (A c)).sym j) 0 (norm3 (((P c).geom (A c)).rij n i j)))
    have e1 : ∀ n, (if i = j ∧ n = 0 then 0 else cutPot ((P c).geom (A c)) (P c).V (P c).rmax i j
        (norm3 (((P c).geom (A c)).rij n i j))) = if Q n then
        P'.V (((P c).geom (A c)).sym i) (((P c).geom (A c)).sym j) 0 (norm3 (((P c).geom (A c)).rij n i j)) else 0 := by
      intro n
      unfold cutPot
      rw [s9, s10]
      by_cases h1 : i = j ∧ n = 0
      · rw [if_pos h1, if_neg fun h => ((hQ n).1 h).1 h1]
      · rw [if_neg h1]
        by_cases h2 : norm3 (((P c).geom (A c)).rij n i j) ≤ P'.rmax
        · rw [if_pos h2, if_pos ((hQ n).2 ⟨h1, h2⟩)]
        · rw [if_neg h2, if_neg fun h => h2 ((hQ n).1 h).2]
    have e2 : ∀ n, (if ix c i = ix c j ∧ n = 0 then 0 else cutPot (P'.geom B) P'.V P'.rmax (ix c i) (ix c j)
        (norm3 ((P'.geom B).rij n (ix c i) (ix c j)))) = if Q n then
        P'.V (((P c).geom (A c)).sym i) (((P c).geom (A c)).sym j) 0 (norm3 (((P c).geom (A c)).rij n i j)) else 0 := by
      intro n
      have e3 : ix c i = ix c j ↔ i = j := ⟨H.inj i hi' j hj', fun h => by rw [h]⟩
      unfold cutPot
      rw [H.rij n i hi' j hj', H.sym i hi', H.sym j hj']
      by_cases h1 : i = j ∧ n = 0
      · rw [if_pos ⟨e3.2 h1.1, h1.2⟩, if_neg fun h => ((hQ n).1 h).1 h1]
      · rw [if_neg fun h => h1 ⟨e3.1 h.1, h.2⟩]
        by_cases h2 : norm3 (((P c).geom (A c)).rij n i j) ≤ P'.rmax
        · rw [if_pos h2, if_pos ((hQ n).2 ⟨h1, h2⟩)]
        · rw [if_neg h2, if_neg fun h => h2 ((hQ n).1 h).2]
    simp only [e1, e2]
    exact key
  · intro d hd j hj
    refine List.sum_eq_zero fun z hz => ?_
    obtain ⟨n, hn, rfl⟩ := List.mem_map.1 hz
    rw [if_neg fun h => C.ne hd.symm hi hj h.1]
    unfold cutPot
    rw [if_neg (not_le.2 (C.pair_zero hd.symm hi hj hn))]

theorem ApartCalc.repulsion (C : ApartCalc P P' A B ix e kf) (hA : ∀ c, Fits (P c) (A c) (elements c))
    {st : Fin m → MatSt} {k : Fin P'.nk}
    (h : ∀ c, getMatrices ((P c).mat (A c)) ((P c).kpt (kf c k)) = .ok (st c)) {En : Fin m → ℝ}
    (hE : ∀ c, repEnergy ((P c).geom (A c)) (P c).V (P c).rmax (P c).hartree = .ok (En c)) :
    repEnergy (P'.geom B) P'.V P'.rmax P'.hartree = .ok (∑ c, En c) := by
  obtain ⟨En', hE'⟩ := c31_succeeds (G := P'.geom B) (V := P'.V) (rmax := P'.rmax) (hartree := P'.hartree)
    C.inv.idFirst (by
      intro i j hij hj n hn hc
      rw [geomN] at hj
      have := C.no_close hA h i j (by omega) hj n hn hc.1
      have h2 := hc.2.2
      have e : (P'.geom B).rij n i j = (P'.mat B).rij n i j := rfl
      rw [e] at h2
      norm_num at this h2
      linarith)
  rw [hE']
  congr 1
  rw [c31_energy C.inv (fun i _ j _ => C.symV _ _) hE', C.cellEnergy, Finset.sum_mul]
  refine Finset.sum_congr rfl fun c _ => ?_
  rw [c31_energy (C.invs c) (fun i _ j _ => by rw [(C.same c).2.2.2.2.2.2.2.2.1]; exact C.symV _ _) (hE c),
    (C.same c).2.1]

theorem list_sum_getD (l : List ℝ) : l.sum = ∑ i ∈ Finset.range l.length, l.getD i 0 := by
  rw [Finset.sum_range]
  have : l.sum = (List.ofFn fun i : Fin l.length => l.getD i 0).sum := by
    congr 1
    apply List.ext_getElem
    · simp
    · intro i h1 h2
      simp
  rw [this, List.sum_ofFn]

theorem ApartCalc.val_sum (C : ApartCalc P P' A B ix e kf) (hA : ∀ c, Fits (P c) (A c) (elements c))
    (hB : Fits P' B elements') : P'.val.sum = ∑ c, (P c).val.sum := by
  rw [list_sum_getD, hB.valences, C.fragments.parts.sum]
  refine Finset.sum_congr rfl fun c _ => ?_
  rw [list_sum_getD, (hA c).valences]
  exact Finset.sum_congr rfl fun i hi => (C.atoms c i (Finset.mem_range.1 hi)).2.2.2.2

/-- Sums over the orbitals of an atom. -/
theorem ApartCalc.atom_sum (C : ApartCalc P P' A B ix e kf) (hA : ∀ c, Fits (P c) (A c) (elements c))
    {g : (Σ c, Fin (P c).t.norb) ≃ Fin P'.t.norb} (hg : JoinOrbitals P P' ix g) (X : ∀ c, CMat (P c).t.norb)
    {c : Fin m} {i : ℕ} (hi : i < (A c).positions.length) :
    (∑ x : Fin P'.t.norb, if P'.t.atomAt x = ix c i then joinM g X x x else 0)
      = ∑ x : Fin (P c).t.norb, if (P c).t.atomAt x = i then X c x x else 0 := by
  rw [join_sum g, Finset.sum_eq_single c]
  · refine Finset.sum_congr rfl fun x _ => ?_
    rw [(hg c x).1, joinM_same]
    by_cases h : (P c).t.atomAt x = i
    · rw [if_pos h, if_pos (by rw [h])]
    · rw [if_neg h, if_neg fun h' => h (C.fragments.parts.inj c _ ((hA c).lay.lt x) c i hi h').2]
  · intro d _ hd
    refine Finset.sum_eq_zero fun x _ => ?_
    rw [(hg d x).1, if_neg fun h' => hd (C.fragments.parts.inj d _ ((hA d).lay.lt x) c i hi h').1]
  · intro h; exact absurd (Finset.mem_univ c) h

end Main

end Hotbit
