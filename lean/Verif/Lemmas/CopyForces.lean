import Verif.Lemmas.UnfoldForces

/-!
# The forces on the copies of an atom
-/

set_option linter.unusedSimpArgs false

namespace Hotbit

open Matrix

section Rep

variable {G G' : Geom} {M : ℕ} {ix : ℕ → ℕ → ℕ} {R : ℕ → ℕ → Mat} {comb : ℕ → ℕ → ℕ → ℕ → Op → Op} {rng : ℕ → ℕ → ℝ}

/-- The central forces on a copy are those on the atom, turned with the copy. -/
theorem centralForce_unfold (H : Repeats G G' M ix R comb rng) (V : String → String → Pot) {rmax : ℝ}
    (hr : ∀ i < G.N, ∀ j < G.N, rmax ≤ rng i j) {u i : ℕ} (hu : u < M) (hi : i < G.N) :
    centralForce G' (cutDer G' V rmax) (ix u i) = R u i *ᵥ centralForce G (cutDer G V rmax) i := by
  classical
  rw [centralForce_coef, centralForce_coef, H.N, H.copies.sum, Finset.sum_comm]
  have e0 : R u i *ᵥ (∑ j ∈ Finset.range G.N, (G.ntuples.map fun n => coef G (cutDer G V rmax) n i j • G.rij n i j).sum)
      = ∑ j ∈ Finset.range G.N, R u i *ᵥ (G.ntuples.map fun n => coef G (cutDer G V rmax) n i j • G.rij n i j).sum :=
    map_sum (Matrix.mulVecLin (R u i)) _ _
  rw [e0]
  refine Finset.sum_congr rfl fun j hj => ?_
  rw [Finset.mem_range] at hj
  obtain ⟨Q, hQ⟩ : ∃ Q : Op → Prop, ∀ n, Q n ↔ ¬ (n = 0 ∧ i = j) ∧ norm3 (G.rij n i j) < rmax :=
    ⟨_, fun _ => Iff.rfl⟩
  set F : Op → Vec := fun n => (V (G.sym i) (G.sym j) 1 (norm3 (G.rij n i j)) / norm3 (G.rij n i j)) •
    (R u i *ᵥ G.rij n i j) with hF
  have e1 : R u i *ᵥ (G.ntuples.map fun n => coef G (cutDer G V rmax) n i j • G.rij n i j).sum
      = (G.ntuples.map fun n => if Q n then F n else 0).sum := by
    rw [mulVec_list_sum, List.map_map]
    congr 1
    refine List.map_congr_left fun n _ => ?_
    simp only [Function.comp]
    rw [mulVec_smul]
    unfold coef cutDer
    by_cases h1 : i = j ∧ n = 0
    · rw [if_pos h1, if_neg fun h => ((hQ n).1 h).1 ⟨h1.2, h1.1⟩, zero_smul]
    · rw [if_neg h1]
      by_cases h2 : norm3 (G.rij n i j) < rmax
      · rw [if_pos h2, if_pos ((hQ n).2 ⟨fun h => h1 ⟨h.2, h.1⟩, h2⟩)]
      · rw [if_neg h2, if_neg fun h => h2 ((hQ n).1 h).2, zero_div, zero_smul]
  rw [e1, ← H.reindex hu hi hj Q (fun n hn => ((hQ n).1 hn).2.le.trans (hr i hi j hj)) F]
  refine Finset.sum_congr rfl fun v hv => ?_
  rw [Finset.mem_range] at hv
  congr 1
  refine List.map_congr_left fun n hn => ?_
  have e2 := repeats_norm H hu hv hn hi hj
  have e3 := repeats_self H hu hv hn hi hj
  unfold coef cutDer
  rw [e2, H.sym u hu i hi, H.sym v hv j hj, H.rij u hu v hv n hn i hi j hj]
  by_cases h1 : comb u i v j n = 0 ∧ i = j
  · rw [if_pos ⟨(e3.2 h1).2, (e3.2 h1).1⟩, if_neg fun h => ((hQ _).1 h).1 h1, zero_smul]
  · rw [if_neg fun h => h1 (e3.1 ⟨h.2, h.1⟩)]
    by_cases h2 : norm3 (G.rij (comb u i v j n) i j) < rmax
    · rw [if_pos h2, if_pos ((hQ _).2 ⟨h1, h2⟩)]
    · rw [if_neg h2, if_neg fun h => h2 ((hQ _).1 h).2, zero_div, zero_smul]

end Rep

section Coulomb

variable {A B : Atoms} {cut : Option ℝ}

open Classical in
/-- Sums of vectors over the neighbours of a pair of atoms. -/
theorem nb_pair_vec (hA : Commuting A.ctype) (f : ℝ → ℝ) {i j : ℕ} (hi : i < A.positions.length)
    (hj : j < A.positions.length) :
    (((nbList A cut).filter fun e => e.i == i && e.j == j).map fun e => f e.d • e.n).sum
      = ((nbGeom A).ntuples.map fun n => if Near cut (nbGeom A) i j n then
        (f (norm3 ((nbGeom A).rij n i j)) * (norm3 ((nbGeom A).rij n i j))⁻¹) • -(nbGeom A).rij n i j else 0).sum := by
  funext c
  have hl : ∀ {α : Type} (l : List α) (F : α → Vec), (l.map F).sum c = (l.map fun e => F e c).sum := by
    intro α l F
    induction l with
    | nil => simp
    | cons e l ih => rw [List.map_cons, List.sum_cons, List.map_cons, List.sum_cons, Pi.add_apply, ih]
  rw [hl, hl]
  have hf : ∀ l : List Nb, ((l.filter fun e => e.i == i && e.j == j).map fun e => (f e.d • e.n) c).sum
      = (l.map fun e => if e.i = i ∧ e.j = j then (f e.d • e.n) c else 0).sum := by
    intro l
    induction l with
    | nil => rfl
    | cons e l ih =>
      rw [List.filter_cons, List.map_cons, List.sum_cons]
      by_cases h : e.i = i ∧ e.j = j
      · rw [if_pos h, if_pos (by simp [h.1, h.2]), List.map_cons, List.sum_cons, ih]
      · rw [if_neg h, if_neg (by simpa using h), ih, zero_add]
  rw [hf, nbList_sum]
  show _ = ((scanOps A).map _).sum
  congr 1
  refine List.map_congr_left fun x hx => ?_
  have hm : maskOf cut x (drOf A (A.rawTransform 0 x) (A.rawRotation x) i j) i j ↔ Near cut (nbGeom A) i j x := by
    unfold maskOf Near
    rw [nbGeom_dist hA hx]
    cases cut <;> simp
  have hd : drOf A (A.rawTransform 0 x) (A.rawRotation x) i j = - (nbGeom A).rij x i j := by
    rw [drOf_eq A hA.ne_tat x ((mem_scanOps A x).1 hx).1]
    unfold Geom.rij nbGeom
    dsimp only
    rw [rawTransform_zero A hA, neg_sub]
  simp only [list_range_sum]
  rw [Finset.sum_eq_single i, Finset.sum_eq_single j]
  · by_cases h : Near cut (nbGeom A) i j x
    · rw [if_pos h, if_pos (hm.2 h), if_pos ⟨rfl, rfl⟩, nbGeom_dist hA hx, smul_smul, hd]
    · rw [if_neg h, if_neg fun e => h (hm.1 e)]
      rfl
  · intro b _ hb
    split
    · rw [if_neg fun e => hb e.2]
    · rfl
  · intro h; exact absurd (Finset.mem_range.2 hj) h
  · intro b _ hb
    refine Finset.sum_eq_zero fun c _ => ?_
    split
    · rw [if_neg fun e => hb e.1]
    · rfl
  · intro h; exact absurd (Finset.mem_range.2 hi) h

/-- Sums of vectors over the neighbours of an atom in all copies. -/
theorem near_vec {M : ℕ} {ix : ℕ → ℕ → ℕ} {R : ℕ → ℕ → Mat} {comb : ℕ → ℕ → ℕ → ℕ → Op → Op} {crng : ℝ}
    (H : Repeats (nbGeom A) (nbGeom B) M ix R comb fun _ _ => crng) (hA : Commuting A.ctype)
    (hB : Commuting B.ctype)
    (hl : ∀ u < M, ∀ v < M, ∀ n ∈ (nbGeom B).ntuples,
      ∀ i < A.positions.length, ∀ j < A.positions.length, Legal A (comb u i v j n))
    (hc : ∀ n, Legal A n → ∀ i < A.positions.length, ∀ j < A.positions.length,
      Near cut (nbGeom A) i j n → norm3 ((nbGeom A).rij n i j) ≤ crng)
    (f : ℝ → ℝ) {u : ℕ} (hu : u < M) {i j : ℕ} (hi : i < A.positions.length)
    (hj : j < A.positions.length) :
    ∑ v ∈ Finset.range M, (((nbList B cut).filter fun e => e.i == ix u i &&
      e.j == ix v j).map fun e => f e.d • e.n).sum
      = R u i *ᵥ (((nbList A cut).filter fun e => e.i == i && e.j == j).map fun e => f e.d • e.n).sum := by
  classical
  have hN : B.positions.length = M * A.positions.length := H.N
  obtain ⟨Q, hQ⟩ : ∃ Q : Op → Prop, ∀ n, Q n ↔ Near cut (nbGeom A) i j n ∧ Legal A n := ⟨_, fun _ => Iff.rfl⟩
  set F : Op → Vec := fun n => (f (norm3 ((nbGeom A).rij n i j)) * (norm3 ((nbGeom A).rij n i j))⁻¹) •
    -(R u i *ᵥ (nbGeom A).rij n i j) with hF
  have e0 : (R u i *ᵥ (((nbList A cut).filter fun e => e.i == i && e.j == j).map fun e => f e.d • e.n).sum)
      = ((nbGeom A).ntuples.map fun n => if Q n then F n else 0).sum := by
    rw [nb_pair_vec hA f hi hj, mulVec_list_sum, List.map_map]
    congr 1
    refine List.map_congr_left fun n hn => ?_
    have : Legal A n := ((mem_scanOps A n).1 hn).1
    simp only [Function.comp]
    by_cases h : Near cut (nbGeom A) i j n
    · rw [if_pos h, if_pos ((hQ n).2 ⟨h, this⟩), mulVec_smul, mulVec_neg]
    · rw [if_neg h, if_neg fun h' => h ((hQ n).1 h').1, mulVec_zero]
  rw [e0, ← H.reindex hu hi hj Q (fun n h => hc n ((hQ n).1 h).2 i hi j hj ((hQ n).1 h).1)]
  refine Finset.sum_congr rfl fun v hv => ?_
  rw [Finset.mem_range] at hv
  rw [nb_pair_vec hB f (by rw [hN]; exact H.copies.lt u hu i hi) (by rw [hN]; exact H.copies.lt v hv j hj)]
  congr 1
  refine List.map_congr_left fun n hn => ?_
  have e1 := repeats_norm H hu hv hn hi hj
  have e2 := repeats_self H hu hv hn hi hj
  have e4 : (nbGeom B).rij n (ix u i) (ix v j)
      = R u i *ᵥ (nbGeom A).rij (comb u i v j n) i j := H.rij u hu v hv n hn i hi j hj
  have e1' : norm3 (R u i *ᵥ (nbGeom A).rij (comb u i v j n) i j) = norm3 ((nbGeom A).rij (comb u i v j n) i j) :=
    norm3_rot (H.orth u hu i hi) _
  have e3 : Near cut (nbGeom B) (ix u i) (ix v j) n
      ↔ Near cut (nbGeom A) i j (comb u i v j n) := by
    unfold Near
    refine and_congr ?_ (not_congr e2)
    refine forall_congr' fun c => imp_congr_right fun _ => ?_
    exact iff_of_eq (congrArg (· < c) e1)
  by_cases h : Near cut (nbGeom A) i j (comb u i v j n)
  · rw [if_pos ((hQ _).2 ⟨h, hl u hu v hv n hn i hi j hj⟩), if_pos (e3.2 h), e4, e1']
  · rw [if_neg fun h' => h ((hQ _).1 h').1, if_neg fun h' => h (e3.1 h')]

/-- The Coulomb force on an atom as a sum over pairs. -/
theorem gammaForces_pairs (A : Atoms) (cut : Option ℝ) (cd : ChargeDensity) (bohr : ℝ) (w : ℕ → ℝ)
    (q : List ℝ) (a : ℕ) : gammaForces true A.positions.length
      (corrDMatrix cd bohr w (nbList A cut)) bohr (dcField cut q (some (nbList A cut))) (chg q) a
      = ∑ j ∈ Finset.range A.positions.length, (chg q a * chg q j) •
        (((nbList A cut).filter fun e => e.i == a && e.j == j).map fun e =>
          (corrDG cd (w a) (w j) (e.d / bohr) + bohr ^ 2 * coulField cut e.d) • e.n).sum := by
  rw [gammaForces_list, ← sum_filter_range2 _ (nbList A cut) _ a fun e he => (nbList_i A cut e he).2]
  refine Finset.sum_congr rfl fun j _ => ?_
  rw [← list_sum_smul]
  congr 1
  refine List.map_congr_left fun e he => ?_
  simp only [List.mem_filter, Bool.and_eq_true, beq_iff_eq] at he
  rw [he.2.1, he.2.2, smul_smul]

theorem gammaForces_state {cd : ChargeDensity} {bohr : ℝ} {U w : ℕ → ℝ} {q : List ℝ} {G : ℕ → ℕ → ℝ}
    {dG : ℕ → ℕ → Vec} {s : DC} {field : List Vec} (h : EsState cd bohr U w cut A q G dG s)
    (hf : dcGetField s = .ok field) {a : ℕ} (ha : a < A.positions.length) :
    gammaForces true A.positions.length dG bohr (fun i => field.getD i 0) (chg q) a
      = gammaForces true A.positions.length (corrDMatrix cd bohr w (nbList A cut)) bohr
        (dcField cut q (some (nbList A cut))) (chg q) a := by
  obtain ⟨-, h2, h3, -⟩ := esState_eq _ _ _ _ _ _ _ _ _ _ h
  obtain ⟨-, h4⟩ := fresh_eq _ _ _ _ h3
  rw [h4] at hf
  have h5 : field = (List.range A.positions.length).map fun i =>
        (((nbList A cut).filter fun e => e.i == i).map fun e =>
          (chg q e.j * coulField cut e.d) • e.n).sum := by
    cases hf
    rfl
  unfold gammaForces
  rw [h2]
  dsimp only
  have h6 : field.getD a 0 = dcField cut q (some (nbList A cut)) a := by
    rw [h5, List.getD_eq_getElem?_getD, List.getElem?_eq_getElem (by simpa using ha), Option.getD_some,
      List.getElem_map, List.getElem_range]
    rfl
  rw [h6]

end Coulomb

section Main

variable {P P' : ScfIn} {A B : Atoms} {M : ℕ} {elements elements' : String → Option ElementData}

theorem Enlarged.actD (E : Enlarged P P' A B M) (hA : Fits P A elements) (T : MutualDerivatives P.tab)
    {g : Fin M × Fin P.t.norb ≃ Fin P'.t.norb} (hg : CopyOrbitals P P' E.ix g) {k : Fin P'.nk} {c : Fin M}
    {st st' : MatSt} (h : getMatrices (P.mat A) (P.kpt (E.kf (k, c))) = .ok st)
    (h' : getMatrices (P'.mat B) (P'.kpt k) = .ok st') (K : Comp) (hh : ℕ → ℕ → ℂ) (X : Fin 3 → CMat P.t.norb)
    (hX : ∀ d x y, X d x y = hh (P.t.atomAt x) (P.t.atomAt y) * P.t.flat (K.getD st d) x y) (a : Fin 3)
    (X' : CMat P'.t.norb)
    (hX' : ∀ u x v y, X' (g (u, x)) (g (v, y)) = hh (P.t.atomAt x) (P.t.atomAt y) *
      P'.t.flat (K.getD st' a) (g (u, x)) (g (v, y))) (u : Fin M) (x y : Fin P.t.norb) :
    (X' * E.wave g k c) (g (u, x)) y = ∑ d, (E.R u (P.t.atomAt x) a d : ℂ) * (E.wave g k c * X d) (g (u, x)) y := by
  have hl := hA.lay
  rw [← matN P A] at hl
  exact flatD_unfold (I := P.mat A) (J := P'.mat B) (atom' := fun x : Fin P'.t.norb => P'.t.atomAt x)
    (num' := fun x => P'.t.numAt x) E.geom E.orbs
    (fun i hi j hj => (E.reach i (by rwa [matN] at hi) j (by rwa [matN] at hj)).1)
    (fun u hu v hv n hn i hi j hj => (E.fold k).phase c u hu v hv n hn i (by rwa [matN] at hi) j (by rwa [matN] at hj))
    (E.goodA _) (E.goodB k) T h h' K hl g (fun u x => hg u x) hh X hX a X' hX' u x y

/-- Traces over a copy of products with density matrices. -/
theorem Enlarged.trace_turned (E : Enlarged P P' A B M) (hA : Fits P A elements)
    {g : Fin M × Fin P.t.norb ≃ Fin P'.t.norb} (hg : CopyOrbitals P P' E.ix g) {k : Fin P'.nk} (a : Fin 3)
    {X' rho' : CMat P'.t.norb} {X : Fin M → Fin 3 → CMat P.t.norb} {rho : Fin M → CMat P.t.norb}
    (hX : ∀ c (u : Fin M) x y, (X' * E.wave g k c) (g (u, x)) y
      = ∑ d, (E.R u (P.t.atomAt x) a d : ℂ) * (E.wave g k c * X c d) (g (u, x)) y)
    (hrho : rho' = ((M : ℂ)⁻¹) • ∑ c, E.wave g k c * rho c * (E.wave g k c)ᴴ) {u i : ℕ} (hu : u < M)
    (hi : i < A.positions.length) :
    (∑ x : Fin P'.t.norb, if P'.t.atomAt x = E.ix u i then (X' * rho') x x else 0)
      = ∑ d, (E.R u i a d : ℂ) * (((M : ℂ)⁻¹) * ∑ c, ∑ x : Fin P.t.norb,
        if P.t.atomAt x = i then (X c d * rho c) x x else 0) := by
  set Z : Fin 3 → CMat P'.t.norb := fun d =>
    ((M : ℂ)⁻¹) • ∑ c, E.wave g k c * (X c d * rho c) * (E.wave g k c)ᴴ with hZ
  have e1 : ∀ d, ((M : ℂ)⁻¹) * (∑ c, ∑ x : Fin P.t.norb, if P.t.atomAt x = i then (X c d * rho c) x x else 0)
      = ∑ x : Fin P'.t.norb, if P'.t.atomAt x = E.ix u i then Z d x x else 0 :=
    fun d => (E.population hA hg (X' := Z d) (X := fun c => X c d * rho c) rfl hu hi).symm
  simp only [e1, Finset.mul_sum]
  rw [Finset.sum_comm]
  refine Finset.sum_congr rfl fun x' _ => ?_
  obtain ⟨⟨v, x⟩, rfl⟩ := g.surjective x'
  by_cases hx : P'.t.atomAt (g (v, x)) = E.ix u i
  · simp only [if_pos hx]
    have hvi : v = ⟨u, hu⟩ ∧ P.t.atomAt x = i := by
      rw [(hg v x).1] at hx
      have := E.copies.inj v v.2 _ (hA.lay.lt x) u hu i hi hx
      exact ⟨Fin.ext this.1, this.2⟩
    have e2 : X' * rho' = ((M : ℂ)⁻¹) • ∑ c, (X' * E.wave g k c) * (rho c * (E.wave g k c)ᴴ) := by
      rw [hrho, Matrix.mul_smul, Matrix.mul_sum]
      simp only [Matrix.mul_assoc]
    have e3 : ∀ d, Z d = ((M : ℂ)⁻¹) • ∑ c, (E.wave g k c * X c d) * (rho c * (E.wave g k c)ᴴ) := by
      intro d
      rw [hZ]
      simp only [Matrix.mul_assoc]
    have hRu : E.R u i = E.R v (P.t.atomAt x) := by rw [hvi.1, hvi.2]
    rw [e2, Matrix.smul_apply, Matrix.sum_apply, smul_eq_mul]
    simp only [e3, Matrix.smul_apply, Matrix.sum_apply, smul_eq_mul]
    simp only [Matrix.mul_apply (M := X' * E.wave g k _), hX, hRu]
    simp only [Matrix.mul_apply (M := E.wave g k _ * X _ _), Finset.mul_sum, Finset.sum_mul]
    rw [Finset.sum_congr rfl fun c _ => Finset.sum_comm, Finset.sum_comm]
    refine Finset.sum_congr rfl fun d _ => ?_
    refine Finset.sum_congr rfl fun c _ => ?_
    refine Finset.sum_congr rfl fun y _ => ?_
    ring
  · simp only [if_neg hx, mul_zero, Finset.sum_const_zero]

theorem geomN (P : ScfIn) (A : Atoms) : (P.geom A).N = A.positions.length := by
  simp [ScfIn.geom, Geom.ofAtoms, Atoms.positions]

theorem Enlarged.rep_force (E : Enlarged P P' A B M) {u i : ℕ} (hu : u < M) (hi : i < A.positions.length) :
    repForces (P'.geom B) P'.V P'.rmax (E.ix u i)
      = E.R u i *ᵥ repForces (P.geom A) P.V P.rmax i := by
  rw [c31_forces E.invB.idFirst, c31_forces E.invA.idFirst, E.same.2.2.2.2.1, E.same.2.2.2.2.2]
  have := centralForce_unfold E.geom P.V (rmax := P.rmax) (fun i hi j hj =>
    (E.reach i (by rwa [geomN] at hi) j (by rwa [geomN] at hj)).2.1) hu (by rw [geomN]; exact hi)
  exact this

theorem Enlarged.coul_force (E : Enlarged P P' A B M) (hs : P.scc = true) {q : List ℝ} {G G' : ℕ → ℕ → ℝ}
    {dG dG' : ℕ → ℕ → Vec} {s s' : DC} {field field' : List Vec}
    (h : EsState P.cd P.bohr P.U P.w P.gcut A q G dG s) (hf : dcGetField s = .ok field)
    (h' : EsState P'.cd P'.bohr P'.U P'.w P'.gcut B (copyList M A.positions.length E.ix q) G' dG' s')
    (hf' : dcGetField s' = .ok field') {u i : ℕ} (hu : u < M) (hi : i < A.positions.length) :
    gammaForces true B.positions.length dG' P'.bohr (fun i => field'.getD i 0)
        (chg (copyList M A.positions.length E.ix q)) (E.ix u i)
      = E.R u i *ᵥ gammaForces true A.positions.length dG P.bohr (fun i => field.getD i 0) (chg q) i := by
  obtain ⟨hR, hl, hn, -⟩ := E.coul hs
  rw [gammaForces_state h hf hi, gammaForces_state h' hf' (by rw [E.length]; exact E.copies.lt u hu i hi),
    gammaForces_pairs, gammaForces_pairs, E.length, E.copies.sum, Finset.sum_comm]
  have e0 : ∀ F : ℕ → Vec, E.R u i *ᵥ (∑ j ∈ Finset.range A.positions.length, F j)
      = ∑ j ∈ Finset.range A.positions.length, E.R u i *ᵥ F j :=
    fun F => map_sum (Matrix.mulVecLin (E.R u i)) _ _
  rw [e0]
  refine Finset.sum_congr rfl fun j hj => ?_
  rw [Finset.mem_range] at hj
  rw [mulVec_smul, ← near_vec hR E.commA E.commB hl hn
    (fun x => corrDG P.cd (P.w i) (P.w j) (x / P.bohr) + P.bohr ^ 2 * coulField P.gcut x) hu hi hj, Finset.smul_sum]
  refine Finset.sum_congr rfl fun v hv => ?_
  rw [Finset.mem_range] at hv
  rw [copyList_get E.copies hv hj, copyList_get E.copies hu hi, (E.hubbard u hu i hi).2.1, (E.hubbard v hv j hj).2.1, E.units.1,
    E.same.2.2.1, E.same.2.2.2.1]

/-- The band-structure force on a copy. -/
theorem Enlarged.band_force (E : Enlarged P P' A B M) (hA : Fits P A elements) (hB : Fits P' B elements')
    (T : MutualDerivatives P.tab) {r : ScfRun P} {r' : ScfRun P'} (h : Converged P A r) (h' : Converged P' B r')
    (hdq : r'.dq = copyList M A.positions.length E.ix r.dq)
    {g : Fin M × Fin P.t.norb ≃ Fin P'.t.norb} (hg : CopyOrbitals P P' E.ix g)
    (hrho : ∀ k, r'.rho k = ((M : ℂ)⁻¹) • ∑ c, E.wave g k c * r.rho (E.kf (k, c)) * (E.wave g k c)ᴴ ∧
      r'.rhoe k = ((M : ℂ)⁻¹) • ∑ c, E.wave g k c * r.rhoe (E.kf (k, c)) * (E.wave g k c)ᴴ)
    {u i : ℕ} (hu : u < M) (hi : i < A.positions.length) (a : Fin 3) :
    (bandForces P'.wk (fun k => dHfull (r'.dH0 a k) (r'.dS a k) (r'.h1 B.positions.length)) (r'.dS a) r'.rho
        r'.rhoe P'.t.blocks).getD (E.ix u i) 0
      = ∑ d, E.R u i a d * (bandForces P.wk (fun k => dHfull (r.dH0 d k) (r.dS d k) (r.h1 A.positions.length))
        (r.dS d) r.rho r.rhoe P.t.blocks).getD i 0 := by
  have hM : (M : ℂ) ≠ 0 := by exact_mod_cast E.pos.ne'
  have hMr : (M : ℝ) ≠ 0 := by exact_mod_cast E.pos.ne'
  have hS : ∀ k c (u : Fin M) x y, (r'.dS a k * E.wave g k c) (g (u, x)) y
      = ∑ d, (E.R u (P.t.atomAt x) a d : ℂ) * (E.wave g k c * r.dS d (E.kf (k, c))) (g (u, x)) y := by
    intro k c
    exact E.actD hA T hg (h.mats _) (h'.mats k) .S (fun _ _ => 1) (fun d => r.dS d (E.kf (k, c)))
      (fun d x y => (one_mul _).symm) a _ fun u x v y => (one_mul _).symm
  have hH0 : ∀ k c (u : Fin M) x y, (r'.dH0 a k * E.wave g k c) (g (u, x)) y
      = ∑ d, (E.R u (P.t.atomAt x) a d : ℂ) * (E.wave g k c * r.dH0 d (E.kf (k, c))) (g (u, x)) y := by
    intro k c
    exact E.actD hA T hg (h.mats _) (h'.mats k) .H (fun _ _ => 1) (fun d => r.dH0 d (E.kf (k, c)))
      (fun d x y => (one_mul _).symm) a _ fun u x v y => (one_mul _).symm
  have hH : ∀ k c (u : Fin M) x y,
      (dHfull (r'.dH0 a k) (r'.dS a k) (r'.h1 B.positions.length) * E.wave g k c) (g (u, x)) y
      = ∑ d, (E.R u (P.t.atomAt x) a d : ℂ) * (E.wave g k c * dHfull (r.dH0 d (E.kf (k, c))) (r.dS d (E.kf (k, c)))
        (r.h1 A.positions.length)) (g (u, x)) y := by
    intro k c u x y
    by_cases hs : P.scc = true
    · have hs' : P'.scc = true := by rw [E.same.1]; exact hs
      have heps : ∀ u < M, ∀ i < A.positions.length,
          r'.epsilon B.positions.length (E.ix u i) = r.epsilon A.positions.length i := by
        intro u hu i hi
        obtain ⟨h1, h2, -⟩ := h.potential hs
        obtain ⟨h1', h2', -⟩ := h'.potential hs'
        unfold ScfRun.epsilon
        rw [hdq] at h1' ⊢
        exact E.epsilon hs h1 h2 h1' h2' hu hi
      have e1 : r'.h1 B.positions.length = some fun x y : Fin P'.t.norb =>
          constructH1 P'.t B.positions.length (r'.epsilon B.positions.length) (fun _ => 0) x y := by
        unfold ScfRun.h1
        rw [if_pos hs']
      have e2 : r.h1 A.positions.length = some fun x y : Fin P.t.norb =>
          constructH1 P.t A.positions.length (r.epsilon A.positions.length) (fun _ => 0) x y := by
        unfold ScfRun.h1
        rw [if_pos hs]
      set W' : CMat P'.t.norb := Matrix.of fun x y : Fin P'.t.norb =>
        ((constructH1 P'.t B.positions.length (r'.epsilon B.positions.length) (fun _ => 0) x y : ℝ) : ℂ)
          * r'.dS a k x y with hW'
      set W : Fin 3 → CMat P.t.norb := fun d => Matrix.of fun x y : Fin P.t.norb =>
        ((constructH1 P.t A.positions.length (r.epsilon A.positions.length) (fun _ => 0) x y : ℝ) : ℂ)
          * r.dS d (E.kf (k, c)) x y with hW
      have f1 : dHfull (r'.dH0 a k) (r'.dS a k) (r'.h1 B.positions.length) = r'.dH0 a k + W' := by
        rw [e1]; rfl
      have f2 : ∀ d, dHfull (r.dH0 d (E.kf (k, c))) (r.dS d (E.kf (k, c))) (r.h1 A.positions.length)
          = r.dH0 d (E.kf (k, c)) + W d := by
        intro d; rw [e2]; rfl
      have key := E.actD hA T hg (h.mats (E.kf (k, c))) (h'.mats k) .S
        (fun p q => (((r.epsilon A.positions.length p + r.epsilon A.positions.length q) / 2 : ℝ) : ℂ)) W
        (fun d x y => by
          rw [hW]
          dsimp only
          rw [Matrix.of_apply, h1_value hA]
          rfl) a W' (fun u x v y => by
          rw [hW', Matrix.of_apply, h1_value hB, (hg u x).1, (hg v y).1, heps u u.2 _ (hA.lay.lt x),
            heps v v.2 _ (hA.lay.lt y)]
          rfl) u x y
      rw [f1, Matrix.add_mul, Matrix.add_apply, hH0, key, ← Finset.sum_add_distrib]
      refine Finset.sum_congr rfl fun d _ => ?_
      rw [f2, Matrix.mul_add, Matrix.add_apply, mul_add]
    · have hs' : ¬ P'.scc = true := by rw [E.same.1]; exact hs
      have e1 : r'.h1 B.positions.length = none := by
        unfold ScfRun.h1
        rw [if_neg hs']
      have e2 : r.h1 A.positions.length = none := by
        unfold ScfRun.h1
        rw [if_neg hs]
      rw [e1, e2]
      exact hH0 k c u x y
  rw [bandForces_entry hB _ _ _ _ (by rw [E.length]; exact E.copies.lt u hu i hi)]
  simp only [bandForces_entry hA _ _ _ _ hi]
  set F : Fin 3 → Fin P.nk → ℝ := fun d k => (∑ y : Fin P.t.norb, if P.t.atomAt y = i then
    (dHfull (r.dH0 d k) (r.dS d k) (r.h1 A.positions.length) * r.rho k - r.dS d k * r.rhoe k) y y else 0).re
    with hF
  have key : ∀ k, (∑ y : Fin P'.t.norb, if P'.t.atomAt y = E.ix u i then
      (dHfull (r'.dH0 a k) (r'.dS a k) (r'.h1 B.positions.length) * r'.rho k - r'.dS a k * r'.rhoe k) y y
      else 0).re = ∑ d, E.R u i a d * ((M : ℝ)⁻¹ * ∑ c, F d (E.kf (k, c))) := by
    intro k
    have t1 := E.trace_turned hA hg a (hH k) (hrho k).1 hu hi
    have t2 := E.trace_turned hA hg a (hS k) (hrho k).2 hu hi
    have e1 : (∑ y : Fin P'.t.norb, if P'.t.atomAt y = E.ix u i then
      (dHfull (r'.dH0 a k) (r'.dS a k) (r'.h1 B.positions.length) * r'.rho k - r'.dS a k * r'.rhoe k) y y
      else 0) = ∑ d, (E.R u i a d : ℂ) * (((M : ℂ)⁻¹) * ∑ c, ∑ y : Fin P.t.norb, if P.t.atomAt y = i then
        (dHfull (r.dH0 d (E.kf (k, c))) (r.dS d (E.kf (k, c))) (r.h1 A.positions.length) * r.rho (E.kf (k, c))
          - r.dS d (E.kf (k, c)) * r.rhoe (E.kf (k, c))) y y else 0) := by
      have e2 : ∀ {n : ℕ} (p : Fin n → Prop) [DecidablePred p] (X Y : CMat n), (∑ y, if p y then (X - Y) y y else 0)
          = (∑ y, if p y then X y y else 0) - ∑ y, if p y then Y y y else 0 := by
        intro n p _ X Y
        rw [← Finset.sum_sub_distrib]
        refine Finset.sum_congr rfl fun y _ => ?_
        split <;> simp
      rw [e2, t1, t2, ← Finset.sum_sub_distrib]
      refine Finset.sum_congr rfl fun d _ => ?_
      rw [← mul_sub, ← mul_sub, ← Finset.sum_sub_distrib]
      simp only [e2]
    rw [e1, Complex.re_sum]
    refine Finset.sum_congr rfl fun d _ => ?_
    have e3 : ((M : ℂ)⁻¹) = (((M : ℝ)⁻¹ : ℝ) : ℂ) := by push_cast; rfl
    rw [e3, Complex.re_ofReal_mul, Complex.re_ofReal_mul, Complex.re_sum]
  simp only [key]
  have e4 : ∀ d, ∑ k, P'.wk k * ∑ c, F d (E.kf (k, c)) = M * ∑ k, P.wk k * F d k := fun d => E.sum_k (F d)
  calc ∑ k, -(2 * P'.wk k * ∑ d, E.R u i a d * ((M : ℝ)⁻¹ * ∑ c, F d (E.kf (k, c))))
      = ∑ d, -(2 * E.R u i a d * (M : ℝ)⁻¹ * ∑ k, P'.wk k * ∑ c, F d (E.kf (k, c))) := by
        simp only [Finset.mul_sum (s := (Finset.univ : Finset (Fin 3))), ← Finset.sum_neg_distrib]
        rw [Finset.sum_comm]
        refine Finset.sum_congr rfl fun d _ => ?_
        rw [Finset.mul_sum, ← Finset.sum_neg_distrib]
        refine Finset.sum_congr rfl fun k _ => ?_
        ring
    _ = ∑ d, E.R u i a d * ∑ k, -(2 * P.wk k * F d k) := by
        refine Finset.sum_congr rfl fun d _ => ?_
        rw [e4]
        have : ∑ k, -(2 * P.wk k * F d k) = -(2 * ∑ k, P.wk k * F d k) := by
          rw [Finset.mul_sum, ← Finset.sum_neg_distrib]
          refine Finset.sum_congr rfl fun k _ => ?_
          ring
        rw [this]
        field_simp

/-- The force on a copy of an atom is the force on the atom, turned with the copy. -/
theorem Enlarged.force (E : Enlarged P P' A B M) (hA : Fits P A elements) (hB : Fits P' B elements')
    (T : MutualDerivatives P.tab) {r : ScfRun P} {r' : ScfRun P'} (h : Converged P A r) (h' : Converged P' B r')
    (hdq : r'.dq = copyList M A.positions.length E.ix r.dq)
    {g : Fin M × Fin P.t.norb ≃ Fin P'.t.norb} (hg : CopyOrbitals P P' E.ix g)
    (hrho : ∀ k, r'.rho k = ((M : ℂ)⁻¹) • ∑ c, E.wave g k c * r.rho (E.kf (k, c)) * (E.wave g k c)ᴴ ∧
      r'.rhoe k = ((M : ℂ)⁻¹) • ∑ c, E.wave g k c * r.rhoe (E.kf (k, c)) * (E.wave g k c)ᴴ)
    {u i : ℕ} (hu : u < M) (hi : i < A.positions.length) :
    r'.force B (E.ix u i) = E.R u i *ᵥ r.force A i := by
  funext a
  have e1 := E.band_force hA hB T h h' hdq hg hrho hu hi a
  have e2 := congrFun (E.rep_force hu hi) a
  have e3 : gammaForces P'.scc B.positions.length r'.dG P'.bohr (fun i => r'.field.getD i 0) (chg r'.dq)
      (E.ix u i) a = ∑ d, E.R u i a d *
        gammaForces P.scc A.positions.length r.dG P.bohr (fun i => r.field.getD i 0) (chg r.dq) i d := by
    by_cases hs : P.scc = true
    · have hs' : P'.scc = true := by rw [E.same.1]; exact hs
      obtain ⟨h1, -, h2⟩ := h.potential hs
      obtain ⟨h1', -, h2'⟩ := h'.potential hs'
      rw [hdq] at h1' ⊢
      rw [hs, hs']
      exact congrFun (E.coul_force hs h1 h2 h1' h2' hu hi) a
    · have hs' : P'.scc = false := by rw [E.same.1]; simpa using hs
      have hs0 : P.scc = false := by simpa using hs
      rw [hs', hs0]
      simp [gammaForces]
  unfold ScfRun.force
  dsimp only
  rw [e1, e2, e3, E.units.1, E.units.2]
  simp only [Matrix.mulVec, dotProduct]
  rw [← Finset.sum_add_distrib, ← Finset.sum_add_distrib, Finset.sum_mul]
  refine Finset.sum_congr rfl fun d _ => ?_
  ring

end Main

end Hotbit
