import Verif.Spec.Apart
import Verif.Lemmas.Renumber
import Verif.Lemmas.CopyForces
import Mathlib.Data.Matrix.Block

/-!
# Structures that are far apart: sums, matrix elements, block-diagonal matrices
-/

set_option linter.unusedSimpArgs false

namespace Hotbit

open Matrix

section Parts

variable {m N' : ℕ} {N : Fin m → ℕ} {ix : Fin m → ℕ → ℕ}

theorem Parts.split (C : Parts N' N ix) {x : ℕ} (hx : x < N') : ∃ c, ∃ i < N c, ix c i = x := by
  have h := Finset.surj_on_of_inj_on_of_card_le (s := Finset.univ.sigma fun c : Fin m => Finset.range (N c))
    (t := Finset.range N') (fun p _ => ix p.1 p.2)
    (fun p hp => by
      simp only [Finset.mem_sigma, Finset.mem_range] at hp ⊢
      exact C.lt _ _ hp.2)
    (fun p q hp hq h => by
      simp only [Finset.mem_sigma, Finset.mem_range] at hp hq
      have := C.inj _ _ hp.2 _ _ hq.2 h
      exact Sigma.ext this.1 (heq_of_eq this.2))
    (by simp [C.total]) x (Finset.mem_range.2 hx)
  obtain ⟨p, hp, h⟩ := h
  simp only [Finset.mem_sigma, Finset.mem_range] at hp
  exact ⟨p.1, p.2, hp.2, h.symm⟩

theorem Parts.sum (C : Parts N' N ix) {β : Type} [AddCommMonoid β] (f : ℕ → β) :
    ∑ x ∈ Finset.range N', f x = ∑ c, ∑ i ∈ Finset.range (N c), f (ix c i) := by
  rw [Finset.sum_sigma']
  refine (Finset.sum_bij (fun p _ => ix p.1 p.2) ?_ ?_ ?_ fun _ _ => rfl).symm
  · intro p hp
    simp only [Finset.mem_sigma, Finset.mem_range] at hp ⊢
    exact C.lt _ _ hp.2
  · intro p hp q hq h
    simp only [Finset.mem_sigma, Finset.mem_range] at hp hq
    have := C.inj _ _ hp.2 _ _ hq.2 h
    exact Sigma.ext this.1 (heq_of_eq this.2)
  · intro x hx
    obtain ⟨c, i, hi, h⟩ := C.split (Finset.mem_range.1 hx)
    exact ⟨⟨c, i⟩, by simp [hi], h⟩

/-- Sums in which only the structure of atom `i` of `c` counts. -/
theorem Parts.sum_one (C : Parts N' N ix) {β : Type} [AddCommMonoid β] (f : ℕ → β) (c : Fin m)
    (h : ∀ d, d ≠ c → ∀ j < N d, f (ix d j) = 0) :
    ∑ x ∈ Finset.range N', f x = ∑ j ∈ Finset.range (N c), f (ix c j) := by
  rw [C.sum, Finset.sum_eq_single c]
  · intro d _ hd
    exact Finset.sum_eq_zero fun j hj => h d hd j (Finset.mem_range.1 hj)
  · intro hn; exact absurd (Finset.mem_univ c) hn

open Classical in
/-- The charges of all structures in one list. -/
noncomputable def joinList (N' : ℕ) (N : Fin m → ℕ) (ix : Fin m → ℕ → ℕ) (q : Fin m → List ℝ) : List ℝ :=
  (List.range N').map fun x => if h : ∃ p : Fin m × ℕ, p.2 < N p.1 ∧ ix p.1 p.2 = x then
    (q h.choose.1).getD h.choose.2 0 else 0

theorem joinList_get (C : Parts N' N ix) (q : Fin m → List ℝ) {c : Fin m} {i : ℕ} (hi : i < N c) :
    chg (joinList N' N ix q) (ix c i) = chg (q c) i := by
  have hx := C.lt c i hi
  have h : ∃ p : Fin m × ℕ, p.2 < N p.1 ∧ ix p.1 p.2 = ix c i := ⟨(c, i), hi, rfl⟩
  have h1 := C.inj _ _ h.choose_spec.1 _ _ hi h.choose_spec.2
  unfold chg joinList
  rw [List.getD_eq_getElem?_getD, List.getElem?_eq_getElem (by simpa using hx), Option.getD_some,
    List.getElem_map, List.getElem_range, dif_pos h, h1.1, h1.2]

/-- The orbitals of all structures. -/
theorem Parts.orb_equiv {n : Fin m → ℕ} {n' : ℕ} (C : Parts N' N ix)
    {atom : ∀ c, Fin (n c) → ℕ} {num : ∀ c, Fin (n c) → Fin 9} {no : Fin m → ℕ → ℕ}
    {atom' : Fin n' → ℕ} {num' : Fin n' → Fin 9} {no' : ℕ → ℕ} (L : ∀ c, OrbLay (atom c) (num c) (no c) (N c))
    (L' : OrbLay atom' num' no' N') (hno : ∀ c, ∀ i < N c, no' (ix c i) = no c i) :
    ∃ g : (Σ c, Fin (n c)) ≃ Fin n', ∀ c x, atom' (g ⟨c, x⟩) = ix c (atom c x) ∧ num' (g ⟨c, x⟩) = num c x := by
  have ex : ∀ p : Σ c, Fin (n c), ∃ y, atom' y = ix p.1 (atom p.1 p.2) ∧ num' y = num p.1 p.2 := by
    rintro ⟨c, x⟩
    exact L'.surj _ (C.lt c _ ((L c).lt x)) _ (by rw [hno c _ ((L c).lt x)]; exact (L c).num_lt x)
  choose g hg using ex
  have hinj : Function.Injective g := by
    rintro ⟨c, x⟩ ⟨d, y⟩ h
    have h1 := hg ⟨c, x⟩
    have h2 := hg ⟨d, y⟩
    rw [h] at h1
    obtain ⟨h3, h4⟩ := C.inj _ _ ((L c).lt x) _ _ ((L d).lt y) (h1.1.symm.trans h2.1)
    subst h3
    rw [(L c).inj x y h4 (h1.2.symm.trans h2.2)]
  have hsurj : Function.Surjective g := by
    intro y
    obtain ⟨c, i, hi, hd⟩ := C.split (L'.lt y)
    have hl := L'.num_lt y
    rw [← hd, hno _ _ hi] at hl
    obtain ⟨x, h1, h2⟩ := (L c).surj _ hi _ hl
    refine ⟨⟨c, x⟩, ?_⟩
    have h3 := hg ⟨c, x⟩
    refine L'.inj _ _ ?_ ?_
    · rw [h3.1]; simp only [h1]; exact hd
    · rw [h3.2]; exact h2
  exact ⟨Equiv.ofBijective g ⟨hinj, hsurj⟩, fun c x => hg ⟨c, x⟩⟩

end Parts

section Join

variable {m : ℕ} {n : Fin m → ℕ} {n' : ℕ} (g : (Σ c, Fin (n c)) ≃ Fin n')

/-- The matrices of all structures as blocks of one matrix. -/
noncomputable def joinM (X : ∀ c, CMat (n c)) : CMat n' := (blockDiagonal' X).submatrix g.symm g.symm

theorem joinM_same (X : ∀ c, CMat (n c)) (c : Fin m) (x y : Fin (n c)) :
    joinM g X (g ⟨c, x⟩) (g ⟨c, y⟩) = X c x y := by
  simp [joinM, blockDiagonal'_apply_eq]

theorem joinM_ne (X : ∀ c, CMat (n c)) {c d : Fin m} (h : c ≠ d) (x : Fin (n c)) (y : Fin (n d)) :
    joinM g X (g ⟨c, x⟩) (g ⟨d, y⟩) = 0 := by
  simp only [joinM, Matrix.submatrix_apply, Equiv.symm_apply_apply]
  exact blockDiagonal'_apply_ne X x y h

theorem joinM_ext {X' : CMat n'} {X : ∀ c, CMat (n c)}
    (h1 : ∀ c x y, X' (g ⟨c, x⟩) (g ⟨c, y⟩) = X c x y)
    (h2 : ∀ c d, c ≠ d → ∀ x y, X' (g ⟨c, x⟩) (g ⟨d, y⟩) = 0) : X' = joinM g X := by
  ext x' y'
  obtain ⟨⟨c, x⟩, rfl⟩ := g.surjective x'
  obtain ⟨⟨d, y⟩, rfl⟩ := g.surjective y'
  by_cases h : c = d
  · subst h
    rw [h1, joinM_same]
  · rw [h2 c d h, joinM_ne g X h]

theorem joinM_mul (X Y : ∀ c, CMat (n c)) : joinM g X * joinM g Y = joinM g fun c => X c * Y c := by
  unfold joinM
  rw [Matrix.submatrix_mul_equiv, blockDiagonal'_mul]

theorem joinM_sub (X Y : ∀ c, CMat (n c)) : joinM g X - joinM g Y = joinM g fun c => X c - Y c := by
  refine joinM_ext g (fun c x y => ?_) fun c d h x y => ?_
  · rw [Matrix.sub_apply, joinM_same, joinM_same]; rfl
  · rw [Matrix.sub_apply, joinM_ne g _ h, joinM_ne g _ h, sub_zero]

theorem joinM_conjTranspose (X : ∀ c, CMat (n c)) : (joinM g X)ᴴ = joinM g fun c => (X c)ᴴ := by
  unfold joinM
  rw [conjTranspose_submatrix, blockDiagonal'_conjTranspose]

theorem joinM_one : joinM g (fun c => (1 : CMat (n c))) = 1 := by
  unfold joinM
  have : blockDiagonal' (fun c => (1 : CMat (n c))) = 1 := blockDiagonal'_one
  rw [this, Matrix.submatrix_one_equiv]

theorem join_sum {β : Type} [AddCommMonoid β] (F : Fin n' → β) : ∑ x, F x = ∑ c, ∑ x, F (g ⟨c, x⟩) := by
  rw [← Equiv.sum_comp g, Fintype.sum_sigma]

theorem joinM_trace (X : ∀ c, CMat (n c)) : (joinM g X).trace = ∑ c, (X c).trace := by
  unfold Matrix.trace
  rw [join_sum g]
  refine Finset.sum_congr rfl fun c _ => Finset.sum_congr rfl fun x _ => ?_
  exact joinM_same g X c x x

/-- The states of all structures, sorted, are the states of the block-diagonal matrices. -/
theorem join_states {H S : ∀ c, CMat (n c)} {e : ∀ c, Fin (n c) → ℝ} {wf : ∀ c, CMat (n c)}
    (h : ∀ c, AreStates (H c) (S c) (e c) (wf c)) :
    ∃ e' wf', AreStates (joinM g H) (joinM g S) e' wf' ∧
      (∃ τ : Fin n' ≃ Σ c, Fin (n c), ∀ b, e' b = e (τ b).1 (τ b).2) ∧
      ∀ F : ℝ → ℝ, computeRho wf' (fun b => F (e' b))
        = joinM g fun c => computeRho (wf c) (fun a => F (e c a)) := by
  set E : Fin n' → ℝ := fun x => e (g.symm x).1 (g.symm x).2 with hE
  have hEg : ∀ c x, E (g ⟨c, x⟩) = e c x := fun c x => by rw [hE]; dsimp only; rw [Equiv.symm_apply_apply]
  set π := Tuple.sort E with hπ
  set Z0 : CMat n' := joinM g fun c => (wf c)ᵀ with hZ0
  have k := fun c => (areStates_iff (H c) (S c) (e c) (wf c)ᵀ).1 (by rw [transpose_transpose]; exact h c)
  have hd : ∀ F : ℝ → ℝ, (diagonal fun x => (F (E x) : ℂ))
      = joinM g fun c => (diagonal fun a => (F (e c a) : ℂ) : CMat (n c)) := by
    intro F
    refine joinM_ext g (fun c x y => ?_) fun c d hcd x y => ?_
    · by_cases hxy : x = y
      · rw [hxy, diagonal_apply_eq, diagonal_apply_eq, hEg]
      · rw [diagonal_apply_ne _ hxy, diagonal_apply_ne]
        intro hc
        have := g.injective hc
        simp only [Sigma.mk.injEq, heq_eq_eq, true_and] at this
        exact hxy this
    · rw [diagonal_apply_ne]
      intro hc
      have := g.injective hc
      simp only [Sigma.mk.injEq] at this
      exact hcd this.1
  have o1 : Z0ᴴ * joinM g S * Z0 = 1 := by
    rw [hZ0, joinM_conjTranspose, joinM_mul, joinM_mul, ← joinM_one g]
    congr 1
    funext c
    exact (k c).2.1
  have o2 : joinM g H * Z0 = joinM g S * Z0 * diagonal fun x => (E x : ℂ) := by
    have := hd id
    simp only [id] at this
    rw [this, hZ0, joinM_mul, joinM_mul, joinM_mul]
    congr 1
    funext c
    exact (k c).2.2
  set Z : CMat n' := Z0.submatrix id π with hZ
  refine ⟨fun b => E (π b), Zᵀ, ?_, ⟨π.trans g.symm, fun _ => rfl⟩, ?_⟩
  · rw [areStates_iff]
    refine ⟨?_, ?_, ?_⟩
    · exact Tuple.monotone_sort E
    · have : Zᴴ * joinM g S * Z = (Z0ᴴ * joinM g S * Z0).submatrix π π := by
        ext a b
        simp only [Matrix.mul_apply, Matrix.submatrix_apply]; rfl
      rw [this, o1, Matrix.submatrix_one_equiv]
    · ext x b
      have e1 : (joinM g H * Z) x b = (joinM g H * Z0) x (π b) := by simp only [Matrix.mul_apply]; rfl
      have e2 : (joinM g S * Z) x b = (joinM g S * Z0) x (π b) := by simp only [Matrix.mul_apply]; rfl
      rw [e1, o2, Matrix.mul_diagonal, Matrix.mul_diagonal, e2]
  · intro F
    have e1 : ∀ c, computeRho (wf c) (fun a => F (e c a))
        = (wf c)ᵀ * (diagonal fun a => (F (e c a) : ℂ)) * (wf c)ᵀᴴ := by
      intro c
      unfold computeRho
      rw [Matrix.mul_assoc]
      congr 1
      ext a j
      rw [Matrix.diagonal_mul]
      rfl
    simp only [e1]
    rw [← joinM_mul g (fun c => (wf c)ᵀ * diagonal fun a => (F (e c a) : ℂ)) (fun c => (wf c)ᵀᴴ),
      ← joinM_mul g (fun c => (wf c)ᵀ) (fun c => diagonal fun a => (F (e c a) : ℂ)), ← hd F,
      ← joinM_conjTranspose g (fun c => (wf c)ᵀ), ← hZ0]
    ext x y
    have e2 : computeRho Zᵀ (fun b => F (E (π b))) x y
        = ∑ b, Z0 x b * ((F (E b) : ℂ) * starRingEnd ℂ (Z0 y b)) := by
      rw [← Equiv.sum_comp π]
      unfold computeRho
      rw [Matrix.mul_apply]
      rfl
    rw [e2, Matrix.mul_apply]
    refine Finset.sum_congr rfl fun b _ => ?_
    rw [Matrix.mul_diagonal, conjTranspose_apply, ← starRingEnd_apply]
    ring

end Join

section Elements

/-- The geometry `G` is part of `G'`: atom `i` has number `ix i` there, and the images within the range `rng`
are the same. -/
structure Inside (G G' : Geom) (ix : ℕ → ℕ) (rng : ℕ → ℕ → ℝ) : Prop where
  nodup : G.ntuples.Nodup
  nodup' : G'.ntuples.Nodup
  lt : ∀ i < G.N, ix i < G'.N
  inj : ∀ i < G.N, ∀ j < G.N, ix i = ix j → i = j
  sym : ∀ i < G.N, G'.sym (ix i) = G.sym i
  rij : ∀ n, ∀ i < G.N, ∀ j < G.N, G'.rij n (ix i) (ix j) = G.rij n i j
  rot : G'.rot = G.rot
  mem : ∀ n, ∀ i < G.N, ∀ j < G.N, norm3 (G.rij n i j) ≤ rng i j → (n ∈ G.ntuples ↔ n ∈ G'.ntuples)

variable {G G' : Geom} {ix : ℕ → ℕ} {rng : ℕ → ℕ → ℝ}

open Classical in
theorem Inside.reindex (H : Inside G G' ix rng) {β : Type} [AddCommMonoid β] {i j : ℕ}
    (hi : i < G.N) (hj : j < G.N) (Q : Op → Prop)
    (hQ : ∀ n, Q n → norm3 (G.rij n i j) ≤ rng i j) (F : Op → β) :
    (G'.ntuples.map fun n => if Q n then F n else 0).sum = (G.ntuples.map fun n => if Q n then F n else 0).sum := by
  rw [list_sum_toFinset H.nodup', list_sum_toFinset H.nodup, ← Finset.sum_filter, ← Finset.sum_filter]
  refine Finset.sum_congr ?_ fun _ _ => rfl
  ext n
  simp only [Finset.mem_filter, List.mem_toFinset]
  refine and_congr_left fun h => ?_
  exact (H.mem n i hi j hj (hQ n h)).symm

variable {I J : MatIn}

theorem Inside.act (H : Inside I.geom J.geom ix rng) (ht : J.tab = I.tab) {i j : ℕ} (hi : i < I.N)
    (hj : j < I.N) (n : Op) : Act J (ix i) (ix j) n ↔ Act I i j n := by
  have e1 : J.rij n (ix i) (ix j) = I.rij n i j := H.rij n i hi j hj
  have e2 : J.sym (ix i) = I.sym i := H.sym i hi
  have e3 : J.sym (ix j) = I.sym j := H.sym j hj
  have e4 : ix i = ix j ↔ i = j := ⟨H.inj i hi j hj, fun h => by rw [h]⟩
  unfold Act
  rw [e1, e2, e3, ht, e4]

theorem Inside.imageElem (H : Inside I.geom J.geom ix rng) (ht : J.tab = I.tab) {i j : ℕ} (hi : i < I.N)
    (hj : j < I.N) (f : SkTable → ℝ → Fin 14 → ℝ) (n : Op) (p q : Fin 9) :
    imageElem J f (ix i) (ix j) n p q = imageElem I f i j n p q := by
  have e1 : J.rij n (ix i) (ix j) = I.rij n i j := H.rij n i hi j hj
  have e2 : J.sym (ix i) = I.sym i := H.sym i hi
  have e3 : J.sym (ix j) = I.sym j := H.sym j hj
  have e4 : J.rot = I.rot := H.rot
  unfold Hotbit.imageElem
  rw [e1, e2, e3, ht, e4]

open Classical in
theorem blochSum_act (I : MatIn) (f : SkTable → ℝ → Fin 14 → ℝ) (k : Vec) (i j : ℕ) (p q : Fin 9) :
    blochSum I f k i j p q = (I.ntuples.map fun n =>
      if Act I i j n then blochPhase k n * (imageElem I f i j n p q : ℂ) else 0).sum := by
  unfold blochSum Act; congr!

theorem Inside.blochSum (H : Inside I.geom J.geom ix rng) (ht : J.tab = I.tab)
    (hrng : ∀ i < I.N, ∀ j < I.N, (I.tab (I.sym i) (I.sym j)).r2 ≤ rng i j) {i j : ℕ} (hi : i < I.N)
    (hj : j < I.N) (f : SkTable → ℝ → Fin 14 → ℝ) (k : Vec) (p q : Fin 9) :
    blochSum J f k (ix i) (ix j) p q = blochSum I f k i j p q := by
  classical
  rw [blochSum_act, blochSum_act]
  refine Eq.trans ?_ (H.reindex hi hj (Act I i j) (fun n hn => hn.2.2.trans (hrng i hi j hj))
    (fun n => blochPhase k n * (Hotbit.imageElem I f i j n p q : ℂ)))
  show (J.ntuples.map _).sum = (J.ntuples.map _).sum
  congr 1
  refine List.map_congr_left fun n _ => ?_
  rw [H.imageElem ht hi hj]
  by_cases h : Act I i j n
  · rw [if_pos h, if_pos ((H.act ht hi hj n).2 h)]
  · rw [if_neg h, if_neg fun h' => h ((H.act ht hi hj n).1 h')]

theorem blochSum_far {i j : ℕ} (h : ∀ n ∈ J.ntuples, (J.tab (J.sym i) (J.sym j)).r2 < norm3 (J.rij n i j))
    (f : SkTable → ℝ → Fin 14 → ℝ) (k : Vec) (p q : Fin 9) : blochSum J f k i j p q = 0 := by
  classical
  rw [blochSum_act]
  refine List.sum_eq_zero fun x hx => ?_
  obtain ⟨n, hn, rfl⟩ := List.mem_map.1 hx
  rw [if_neg fun ha => absurd ha.2.2 (not_le.2 (h n hn))]

theorem Inside.dImg (H : Inside I.geom J.geom ix rng) (ht : J.tab = I.tab) {i j : ℕ} (hi : i < I.N)
    (hj : j < I.N) (hno : ∀ i < I.N, J.no (ix i) = I.no i ∧ ValidNo (I.no i)) (K : Comp) (n : Op)
    (hx : I.rij n i j ≠ 0) (c : Fin 3) (p q : Fin 9) :
    dImg J K (ix i) (ix j) n c p q = dImg I K i j n c p q := by
  have e1 : J.rij n (ix i) (ix j) = I.rij n i j := H.rij n i hi j hj
  have e2 : J.sym (ix i) = I.sym i := H.sym i hi
  have e3 : J.sym (ix j) = I.sym j := H.sym j hj
  have e4 : J.rot = I.rot := H.rot
  unfold Hotbit.dImg
  rw [e1, e2, e3, ht, e4, (hno i hi).1, (hno j hj).1, delemMat_junk J.J I.J (hno i hi).2 (hno j hj).2 _ _ hx]

theorem Inside.dSum (H : Inside I.geom J.geom ix rng) (ht : J.tab = I.tab)
    (hrng : ∀ i < I.N, ∀ j < I.N, (I.tab (I.sym i) (I.sym j)).r2 ≤ rng i j)
    (hfar : ∀ i < I.N, ∀ j < I.N, ∀ n ∈ I.ntuples, ¬ (i = j ∧ n = 0) → I.rij n i j ≠ 0) {i j : ℕ} (hi : i < I.N)
    (hj : j < I.N) (hno : ∀ i < I.N, J.no (ix i) = I.no i ∧ ValidNo (I.no i)) (K : Comp)
    (k : Vec) (c : Fin 3) (p q : Fin 9) :
    dSum J K k (ix i) (ix j) c p q = dSum I K k i j c p q := by
  classical
  unfold Hotbit.dSum
  refine Eq.trans ?_ ((H.reindex hi hj (Act I i j) (fun n hn => hn.2.2.trans (hrng i hi j hj))
    (fun n => blochPhase k n * (Hotbit.dImg I K i j n c p q : ℂ))).trans (by congr!))
  show (J.ntuples.map _).sum = (J.ntuples.map _).sum
  congr 1
  refine List.map_congr_left fun n hn => ?_
  by_cases h : Act I i j n
  · have hm : n ∈ I.ntuples := (H.mem n i hi j hj (h.2.2.trans (hrng i hi j hj))).2 hn
    rw [if_pos h, if_pos ((H.act ht hi hj n).2 h), H.dImg ht hi hj hno K n (hfar i hi j hj n hm h.1)]
  · rw [if_neg h, if_neg fun h' => h ((H.act ht hi hj n).1 h')]

theorem dSum_far {i j : ℕ} (h : ∀ n ∈ J.ntuples, (J.tab (J.sym i) (J.sym j)).r2 < norm3 (J.rij n i j))
    (K : Comp) (k : Vec) (c : Fin 3) (p q : Fin 9) : dSum J K k i j c p q = 0 := by
  classical
  unfold dSum
  refine List.sum_eq_zero fun x hx => ?_
  obtain ⟨n, hn, rfl⟩ := List.mem_map.1 hx
  rw [if_neg fun ha => absurd ha.2.2 (not_le.2 (h n hn))]

end Elements

end Hotbit
