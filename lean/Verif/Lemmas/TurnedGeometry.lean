import Verif.Lemmas.TurnedScf
import Verif.Spec.Invariance
import Verif.Props.MatricesRaise

/-!
# The geometry of a turned structure
-/

set_option linter.unusedSimpArgs false

namespace Hotbit

open Matrix
open scoped ComplexOrder

variable {P : ScfIn} {A A' : Atoms} {elements : String → Option ElementData} {R : Mat} {c : Vec}

theorem foldlM_congr_turn {α β : Type} {f g : β → α → Except Exn β} :
    ∀ {l : List α} {b : β}, (∀ b, ∀ a ∈ l, f b a = g b a) → l.foldlM f b = l.foldlM g b := by
  intro l
  induction l with
  | nil => intro b _; rfl
  | cons a l ih =>
    intro b h
    rw [List.foldlM_cons, List.foldlM_cons, h b a List.mem_cons_self]
    congr 1
    funext x
    exact ih fun b a ha => h b a (List.mem_cons_of_mem _ ha)

namespace RigidlyMoved

variable (h : RigidlyMoved A A' R c)
include h

theorem length : A'.atoms.length = A.atoms.length := by rw [h.atoms, List.length_map]

theorem plength : A'.positions.length = A.positions.length := by
  simp [Atoms.positions, h.length]

theorem symbols : A'.symbols = A.symbols := by
  unfold Atoms.symbols
  rw [h.atoms, List.map_map]
  rfl

theorem sym (i : ℕ) : ((A'.atoms[i]?).map Prod.fst).getD "" = ((A.atoms[i]?).map Prod.fst).getD "" := by
  rw [h.atoms, List.getElem?_map, Option.map_map]
  rfl

theorem pos {i : ℕ} (hi : i < A.atoms.length) :
    (A'.positions[i]?).getD 0 = R *ᵥ (A.positions[i]?).getD 0 + c := by
  unfold Atoms.positions
  rw [h.atoms, List.map_map, List.getElem?_map, List.getElem?_map, List.getElem?_eq_getElem hi]
  rfl

theorem pos' {i : ℕ} (hi : i < A.atoms.length) : A'.pos i = R *ᵥ A.pos i + c := by
  have := h.pos hi
  unfold Atoms.pos
  rw [List.getD_eq_getElem?_getD, List.getD_eq_getElem?_getD, this]

theorem dist {i j : ℕ} (hi : i < A.atoms.length) (hj : j < A.atoms.length) (m n : Op) (b : ℝ) :
    b • A'.rawTransform ((A'.positions[i]?).getD 0) m - b • A'.rawTransform ((A'.positions[j]?).getD 0) n
      = R *ᵥ (b • A.rawTransform ((A.positions[i]?).getD 0) m
        - b • A.rawTransform ((A.positions[j]?).getD 0) n) := by
  rw [h.pos hi, h.pos hj, h.images, h.images, mulVec_sub, mulVec_smul, mulVec_smul]
  rw [← smul_sub, ← smul_sub]
  congr 1
  abel

theorem select (bohr : ℝ) (cut : ℕ → ℕ → ℝ) (scan : List Op) :
    selectImages A'.atoms.length (fun n j => bohr⁻¹ • A'.rawTransform ((A'.positions[j]?).getD 0) n) cut scan
      = selectImages A.atoms.length (fun n j => bohr⁻¹ • A.rawTransform ((A.positions[j]?).getD 0) n)
        cut scan := by
  rw [h.length]
  refine selectImages_congr fun n _ i hi j hj => ?_
  have hd := h.dist hj hi 0 n bohr⁻¹
  have hn := norm3_rot h.orth (bohr⁻¹ • A.rawTransform ((A.positions[j]?).getD 0) 0
        - bohr⁻¹ • A.rawTransform ((A.positions[i]?).getD 0) n)
  rw [← hd] at hn
  have key : ∀ v : Vec, ∑ c, v c ^ 2 = norm3 v ^ 2 := by
    intro v
    unfold norm3
    rw [Real.sq_sqrt (by positivity), Fin.sum_univ_three]
  have e1 := key (bohr⁻¹ • A'.rawTransform ((A'.positions[j]?).getD 0) 0
        - bohr⁻¹ • A'.rawTransform ((A'.positions[i]?).getD 0) n)
  have e2 := key (bohr⁻¹ • A.rawTransform ((A.positions[j]?).getD 0) 0
        - bohr⁻¹ • A.rawTransform ((A.positions[i]?).getD 0) n)
  simp only [Pi.sub_apply] at e1 e2
  rw [e1, e2, hn]

/-- The matrices are those of the turned structure. -/
theorem matTurned {k : Vec} {σ : Op → Op} (hσ : InversePairs (P.mat A) k σ) :
    MatTurned (P.mat A) (P.mat A') R where
  orth := h.orth
  N := h.length
  no := rfl
  eps := rfl
  sym := funext h.sym
  seps := rfl
  ntuples := h.select P.bohr P.cut P.scan
  tab := rfl
  J := rfl
  rotOrth := hσ.orth
  rot n _ := h.rotations n
  rij n _ i hi j hj := h.dist hj hi n 0 P.bohr⁻¹

theorem neighbors (hA : A.ctype ≠ .twistAndTurn) (cut : Option ℝ) :
    nbList A' cut = (nbList A cut).map fun e => { e with n := R *ᵥ e.n } := by
  have hs : scanOps A' = scanOps A := by
    unfold scanOps
    rw [h.ranges]
  unfold nbList
  rw [hs, List.map_flatMap]
  rw [List.flatMap_def, List.flatMap_def]
  congr 1
  refine List.map_congr_left fun x hx => ?_
  have hl : Legal A x := ((mem_scanOps A x).1 hx).1
  have hl' : Legal A' x := by
    unfold Legal
    rw [h.ranges]
    exact hl
  unfold nbBlock
  rw [h.plength, List.map_flatMap, List.flatMap_def, List.flatMap_def]
  congr 1
  refine List.map_congr_left fun i hi => ?_
  rw [List.map_filterMap]
  refine List.filterMap_congr fun j hj => ?_
  have hN : A.positions.length = A.atoms.length := by simp [Atoms.positions]
  rw [List.mem_range, hN] at hi hj
  have hdr : drOf A' (A'.rawTransform 0 x) (A'.rawRotation x) i j
      = R *ᵥ drOf A (A.rawTransform 0 x) (A.rawRotation x) i j := by
    rw [drOf_eq A' (by rw [h.ctype]; exact hA) x hl', drOf_eq A hA x hl, h.pos' hi, h.pos' hj, h.images,
      mulVec_sub]
    abel
  dsimp only
  rw [hdr]
  have hm : maskOf cut x (R *ᵥ drOf A (A.rawTransform 0 x) (A.rawRotation x) i j) i j
      ↔ maskOf cut x (drOf A (A.rawTransform 0 x) (A.rawRotation x) i j) i j := by
    unfold maskOf
    rw [norm3_rot h.orth]
  by_cases hmm : maskOf cut x (drOf A (A.rawTransform 0 x) (A.rawRotation x) i j) i j
  · rw [if_pos hmm, if_pos (hm.2 hmm), Option.map_some, norm3_rot h.orth, mulVec_smul]
  · rw [if_neg hmm, if_neg (fun e => hmm (hm.1 e)), Option.map_none]

theorem cluster : A'.isCluster = A.isCluster := by
  unfold Atoms.isCluster
  rw [h.ranges]

theorem getNeighbors_moved (hA : A.ctype ≠ .twistAndTurn) (cut : Option ℝ) :
    getNeighbors A' cut = (getNeighbors A cut).map
      (Option.map (List.map fun e => { e with n := R *ᵥ e.n })) := by
  by_cases hc : cut.isSome ∨ A.isCluster = true
  · rw [getNeighbors_eq A cut hc, getNeighbors_eq A' cut (by rw [h.cluster]; exact hc), h.neighbors hA,
      List.isEmpty_map, Except.map]
    split <;> rfl
  · push Not at hc
    unfold getNeighbors
    rw [h.cluster, if_pos (by simp at hc; simp [hc]), if_pos (by simp at hc; simp [hc])]
    rfl

theorem geom_rij {i j : ℕ} (hi : i < A.atoms.length) (hj : j < A.atoms.length) (n : Op) :
    (P.geom A').rij n i j = R *ᵥ (P.geom A).rij n i j := h.dist hj hi n 0 P.bohr⁻¹

theorem rep_step {i j : ℕ} (hi : i < A.atoms.length) (hj : j < A.atoms.length)
    (V : String → String → Pot) (rmax : ℝ) (e : ℝ) (im : Op × ℕ) :
    repStep (P.geom A') V rmax i j e im = repStep (P.geom A) V rmax i j e im := by
  have hs : ∀ i, (P.geom A').sym i = (P.geom A).sym i := h.sym
  unfold repStep
  rw [h.geom_rij hi hj, norm3_rot h.orth, hs, hs]

theorem repEnergy_moved : repEnergy (P.geom A') P.V P.rmax P.hartree
    = repEnergy (P.geom A) P.V P.rmax P.hartree := by
  have hN : (P.geom A').N = (P.geom A).N := h.length
  have hnt : (P.geom A').ntuples = (P.geom A).ntuples := h.select P.bohr P.cut P.scan
  unfold repEnergy
  rw [hN, hnt]
  congr 1
  refine foldlM_congr_turn fun e i hi => ?_
  refine foldlM_congr_turn fun e j hj => ?_
  refine foldlM_congr_turn fun e im _ => ?_
  rw [List.mem_range] at hi
  rw [List.mem_range'_1] at hj
  have hN' : (P.geom A).N = A.atoms.length := rfl
  exact h.rep_step (by omega) (by omega) _ _ _ _

theorem repForces_moved {i : ℕ} (hi : i < A.atoms.length) : repForces (P.geom A') P.V P.rmax i
    = R *ᵥ repForces (P.geom A) P.V P.rmax i := by
  have hN : (P.geom A').N = (P.geom A).N := h.length
  have hnt : (P.geom A').ntuples = (P.geom A).ntuples := h.select P.bohr P.cut P.scan
  have hs : ∀ i, (P.geom A').sym i = (P.geom A).sym i := h.sym
  unfold repForces
  rw [hN, hnt]
  have inner : ∀ j < A.atoms.length, ∀ (l : List (Op × ℕ)) (f : Vec),
      l.foldl (forceStep (P.geom A') (P.V ((P.geom A').sym i) ((P.geom A').sym j)) P.rmax i j) (R *ᵥ f)
        = R *ᵥ l.foldl (forceStep (P.geom A) (P.V ((P.geom A).sym i) ((P.geom A).sym j)) P.rmax i j) f := by
    intro j hj l
    induction l with
    | nil => intro f; rfl
    | cons im l ih =>
      intro f
      rw [List.foldl_cons, List.foldl_cons, ← ih]
      congr 1
      unfold forceStep
      split
      · rfl
      · dsimp only
        rw [h.geom_rij hi hj, norm3_rot h.orth, hs, hs]
        split
        · rw [mulVec_add, mulVec_smul]
        · rfl
  have outer : ∀ (l : List ℕ), (∀ j ∈ l, j < A.atoms.length) → ∀ f : Vec,
      l.foldl (fun f j => (P.geom A).ntuples.zipIdx.foldl
        (forceStep (P.geom A') (P.V ((P.geom A').sym i) ((P.geom A').sym j)) P.rmax i j) f) (R *ᵥ f)
      = R *ᵥ l.foldl (fun f j => (P.geom A).ntuples.zipIdx.foldl
        (forceStep (P.geom A) (P.V ((P.geom A).sym i) ((P.geom A).sym j)) P.rmax i j) f) f := by
    intro l
    induction l with
    | nil => intro _ f; rfl
    | cons j l ih =>
      intro hl f
      rw [List.foldl_cons, List.foldl_cons, ← ih (fun j hj => hl j (List.mem_cons_of_mem _ hj)),
        inner j (hl j List.mem_cons_self)]
  have := outer (List.range (P.geom A).N) (fun j hj => List.mem_range.1 hj) 0
  rw [mulVec_zero] at this
  exact this

end RigidlyMoved

/-- Loading lists of results that correspond. -/
theorem mapM_rel {α β : Type} {f g : α → Except Exn β} {Rl : α → β → β → Prop} :
    ∀ (l : List α), (∀ a ∈ l, (∃ e, f a = .error e ∧ g a = .error e) ∨
      ∃ b b', f a = .ok b ∧ g a = .ok b' ∧ Rl a b b') →
    (∃ e, l.mapM f = .error e ∧ l.mapM g = .error e) ∨
    ∃ bs bs', l.mapM f = .ok bs ∧ l.mapM g = .ok bs' ∧
      ∀ (i : ℕ) (a : α), l[i]? = some a → ∃ b b', bs[i]? = some b ∧ bs'[i]? = some b' ∧ Rl a b b' ∧
        f a = .ok b ∧ g a = .ok b' := by
  intro l
  induction l with
  | nil => intro _; exact .inr ⟨[], [], rfl, rfl, by simp⟩
  | cons a l ih =>
    intro h
    rw [List.mapM_cons, List.mapM_cons]
    rcases h a List.mem_cons_self with ⟨e, h1, h2⟩ | ⟨b, b', h1, h2, h3⟩
    · left
      exact ⟨e, by rw [h1]; rfl, by rw [h2]; rfl⟩
    · rcases ih (fun x hx => h x (List.mem_cons_of_mem _ hx)) with ⟨e, h4, h5⟩ | ⟨bs, bs', h4, h5, h6⟩
      · left
        exact ⟨e, by rw [h1, h4]; rfl, by rw [h2, h5]; rfl⟩
      · right
        refine ⟨b :: bs, b' :: bs', by rw [h1, h4]; rfl, by rw [h2, h5]; rfl, ?_⟩
        intro i x hx
        cases i with
        | zero =>
          rw [List.getElem?_cons_zero] at hx
          cases hx
          exact ⟨b, b', rfl, rfl, h3, h1, h2⟩
        | succ i =>
          rw [List.getElem?_cons_succ] at hx ⊢
          rw [List.getElem?_cons_succ]
          exact h6 i x hx

theorem mat_idFirst (P : ScfIn) (A : Atoms) : IdFirst (P.mat A) :=
  ⟨_, rfl, by simp⟩

/-- What is computed once for the turned structure. -/
theorem setup_turn {Mx : Type} {T : ScfTools P Mx} (hfit : Fits P A elements) (h : RigidlyMoved A A' R c)
    (hA : A.ctype ≠ .twistAndTurn) {σ : Op → Op} (hw : WellPosed T A σ) (hf' : OrbitalsFollow (P.mat A')) :
    (∃ e, setupOf P A = .error e ∧ setupOf P A' = .error e) ∨
    ∃ x x', setupOf P A = .ok x ∧ setupOf P A' = .ok x' ∧ SetupTurned R x x' ∧ Solvable T x := by
  have hN : A.positions.length = A.atoms.length := by simp [Atoms.positions]
  have hno : ∀ i < (P.mat A).N, ValidNo ((P.mat A).no i) := fun i hi =>
    (hfit.numbers i (by rw [hN]; exact hi)).2
  have hno' : ∀ i < (P.mat A').N, ValidNo ((P.mat A').no i) := fun i hi =>
    hno i (lt_of_lt_of_eq hi h.length)
  have hm : ∀ k, (∃ e, getMatrices (P.mat A) (P.kpt k) = .error e ∧
      getMatrices (P.mat A') (P.kpt k) = .error e) ∨
      ∃ b b', getMatrices (P.mat A) (P.kpt k) = .ok b ∧ getMatrices (P.mat A') (P.kpt k) = .ok b' ∧ True := by
    intro k
    have T' := h.matTurned (hw.pairs k)
    have t1 := c29_too_close (P.kpt k) (mat_idFirst P A) hno hw.follow
    have t2 := c29_too_close (P.kpt k) (mat_idFirst P A') hno' hf'
    by_cases hc : NotTooClose (P.mat A)
    · obtain ⟨b, hb⟩ := t1.1 hc
      obtain ⟨b', hb'⟩ := t2.1 (T'.notTooClose.2 hc)
      exact .inr ⟨b, b', hb, hb', trivial⟩
    · exact .inl ⟨_, t1.2 hc, t2.2 fun e => hc (T'.notTooClose.1 e)⟩
  unfold setupOf
  rcases mapM_rel (Rl := fun _ _ _ => True) (List.finRange P.nk) (fun k _ => hm k) with
    ⟨e, h1, h2⟩ | ⟨bs, bs', h1, h2, h3⟩
  · left
    exact ⟨e, by rw [h1]; rfl, by rw [h2]; rfl⟩
  · rw [h1, h2]
    simp only [Bind.bind, Except.bind, pure, Except.pure]
    have hk : ∀ k : Fin P.nk, getMatrices (P.mat A) (P.kpt k) = .ok (bs.getD k MatSt.zero) ∧
        getMatrices (P.mat A') (P.kpt k) = .ok (bs'.getD k MatSt.zero) := by
      intro k
      obtain ⟨b, b', e1, e2, -, e3, e4⟩ := h3 k k (by rw [List.getElem?_eq_getElem (by simp)]; simp)
      rw [List.getD_eq_getElem?_getD, List.getD_eq_getElem?_getD, e1, e2]
      exact ⟨e3, e4⟩
    have fin : ∀ nb : Option (List Nb), SetupTurned R
        (⟨fun k => bs.getD k MatSt.zero, nb.getD []⟩ : Setup P)
        ⟨fun k => bs'.getD k MatSt.zero,
          (nb.map (List.map fun e => { e with n := R *ᵥ e.n })).getD []⟩ := by
      intro nb
      have lay := hfit.lay
      have low : ∀ i < A.positions.length, i < (P.mat A).N := fun i hi => by rw [hN] at hi; exact hi
      have gets : ∀ (K : Comp) (k : Fin P.nk) i, i < A.positions.length → ∀ j, j < A.positions.length →
          Cov R (K.get (bs'.getD k MatSt.zero) i j) (K.get (bs.getD k MatSt.zero) i j) := by
        intro K k i hi j hj
        refine (h.matTurned (hw.pairs k)).get_cov (hk k).1 (hk k).2 (mat_idFirst P A) hw.follow hf' hno K ?_
          (low i hi) (low j hj)
        intro i hi a b ha hb hab
        cases K with
        | H => exact hw.shells i hi a b ha hb hab
        | S => rfl
      have getsD : ∀ (K : Comp) (k : Fin P.nk) (c : Fin 3) i, i < A.positions.length → ∀ j, j < A.positions.length →
          Cov R (K.getD (bs'.getD k MatSt.zero) c i j)
            (fun p q => ∑ d, (R c d : ℂ) * K.getD (bs.getD k MatSt.zero) d i j p q) := by
        intro K k c i hi j hj
        exact (h.matTurned (hw.pairs k)).getD_cov (hk k).1 (hk k).2 (mat_idFirst P A) hw.follow hf' hno K
          (low i hi) (low j hj) c
      have lin : ∀ (X : Fin 3 → BMat) (c : Fin 3),
          (Matrix.of fun x y => ∑ d, (R c d : ℂ) * X d (P.t.atomAt x) (P.t.atomAt y) (P.t.numAt x) (P.t.numAt y) :
            CMat P.t.norb) = ∑ d, (R c d : ℂ) • P.t.flat (X d) := by
        intro X c
        ext x y
        rw [Matrix.sum_apply]
        rfl
      refine ⟨fun k => ?_, fun k => ?_, fun c k => ?_, fun c k => ?_, ?_⟩
      · exact lay.flat_cov (gets Comp.H k)
      · exact lay.flat_cov (gets Comp.S k)
      · have := lay.flat_cov (X := fun i j p q => ∑ d, (R c d : ℂ) * Comp.H.getD (bs.getD k MatSt.zero) d i j p q)
          (getsD Comp.H k c)
        rw [lin (Comp.H.getD (bs.getD k MatSt.zero)) c] at this
        exact this
      · have := lay.flat_cov (X := fun i j p q => ∑ d, (R c d : ℂ) * Comp.S.getD (bs.getD k MatSt.zero) d i j p q)
          (getsD Comp.S k c)
        rw [lin (Comp.S.getD (bs.getD k MatSt.zero)) c] at this
        exact this
      · cases nb <;> rfl
    have solv : ∀ nb : Option (List Nb), Solvable T
        (⟨fun k => bs.getD k MatSt.zero, nb.getD []⟩ : Setup P) := by
      intro nb
      refine ⟨hw.orbitals, hw.lapack, hw.tolerance, fun k => ?_, fun k => hw.overlap k _ (hk k).1⟩
      exact (flatten_hermitian (hk k).1 (mat_idFirst P A) hw.follow (hw.pairs k) (fun i hi => hw.parity i hi)
        (fun x => ⟨by have := (hfit.numAt x).1; rw [hN] at this; exact this, (hfit.numAt x).2.1⟩)).1
    split
    · rw [h.getNeighbors_moved hA]
      rcases getNeighbors A P.gcut with e | nb
      · exact .inl ⟨e, rfl, rfl⟩
      · exact .inr ⟨_, _, rfl, rfl, fin nb, solv nb⟩
    · exact .inr ⟨_, _, rfl, rfl, fin none, solv none⟩

end Hotbit
