import Verif.Lemmas.UnfoldStates
import Verif.Lemmas.TurnedScf

/-!
# The self-consistent solution of a repeated structure
-/

set_option linter.unusedSimpArgs false

namespace Hotbit

open Matrix

section Flat

variable {n n' M N : ℕ} {atom : Fin n → ℕ} {num : Fin n → Fin 9} {no : ℕ → ℕ}
  {atom' : Fin n' → ℕ} {num' : Fin n' → Fin 9}

/-- The matrix of the repeated structure acts on Bloch waves as the matrix of the original, also when
the blocks are multiplied by numbers. -/
theorem flat_unfold {I J : MatIn} {ix : ℕ → ℕ → ℕ} {R : ℕ → ℕ → Mat} {comb : ℕ → ℕ → ℕ → ℕ → Op → Op} {rng : ℕ → ℕ → ℝ}
    (G : Repeats I.geom J.geom M ix R comb rng) (O : SameOrbitals I J M ix)
    (hrng : ∀ i < I.N, ∀ j < I.N, (I.tab (I.sym i) (I.sym j)).r2 ≤ rng i j) {k κ : Vec} {φ : ℕ → ℕ → ℂ}
    (hφ : ∀ u < M, ∀ v < M, ∀ n ∈ J.ntuples, ∀ i < I.N, ∀ j < I.N, φ v j * blochPhase k n = φ u i * blochPhase κ (comb u i v j n))
    {σ τ : Op → Op} (gI : GoodMat I κ σ) (gJ : GoodMat J k τ) {st st' : MatSt}
    (h : getMatrices I κ = .ok st) (h' : getMatrices J k = .ok st') (K : Comp)
    (L : OrbLay atom num I.no I.N) (g : Fin M × Fin n ≃ Fin n')
    (hg : ∀ u x, atom' (g (u, x)) = ix u (atom x) ∧ num' (g (u, x)) = num x) (hh : ℕ → ℕ → ℂ)
    (X : CMat n) (hX : ∀ x y, X x y = hh (atom x) (atom y) * K.get st (atom x) (atom y) (num x) (num y))
    (X' : CMat n') (hX' : ∀ u x v y, X' (g (u, x)) (g (v, y)) = hh (atom x) (atom y) *
      K.get st' (atom' (g (u, x))) (atom' (g (v, y))) (num' (g (u, x))) (num' (g (v, y)))) :
    X' * blochMap g (fun u => atomRep atom num (R u) (φ u))
      = blochMap g (fun u => atomRep atom num (R u) (φ u)) * X := by
  ext x' y
  obtain ⟨⟨u, x⟩, rfl⟩ := g.surjective x'
  have hi := L.lt x
  have hj := L.lt y
  have key := get_unfold G O hrng hφ gI gJ h h' K u.2 hi hj (L.num_lt x) (L.num_lt y)
  rw [Matrix.mul_apply, Matrix.mul_apply, sum_copies g]
  have e1 : ∀ v : Fin M, (∑ z, X' (g (u, x)) (g (v, z))
      * blochMap g (fun u => atomRep atom num (R u) (φ u)) (g (v, z)) y)
      = hh (atom x) (atom y) * (φ v (atom y) * ∑ b, (if b.val < I.no (atom y) then
        K.get st' (ix u (atom x)) (ix v (atom y)) (num x) b
        * ((orbRep (R v (atom y)) b (num y) : ℝ) : ℂ) else 0)) := by
    intro v
    rw [← L.sum_atom hj (fun b => (if b.val < I.no (atom y) then
        K.get st' (ix u (atom x)) (ix v (atom y)) (num x) b
        * ((orbRep (R v (atom y)) b (num y) : ℝ) : ℂ) else 0)) (fun a ha => by rw [if_neg ha]), Finset.mul_sum,
      Finset.mul_sum]
    refine Finset.sum_congr rfl fun z _ => ?_
    rw [hX', blochMap_apply, (hg u x).1, (hg u x).2, (hg v z).1, (hg v z).2]
    unfold atomRep bigRep
    rw [Matrix.of_apply, Matrix.of_apply]
    by_cases hz : atom z = atom y
    · rw [if_pos hz, if_pos hz, if_pos (by rw [← hz]; exact L.num_lt z), hz]
      ring
    · rw [if_neg hz, if_neg hz]
      ring
  have e2 : (∑ z, blochMap g (fun u => atomRep atom num (R u) (φ u)) (g (u, x)) z * X z y)
      = hh (atom x) (atom y) * (φ u (atom x) * ∑ a, (if a.val < I.no (atom x) then
        ((orbRep (R u (atom x)) (num x) a : ℝ) : ℂ) * K.get st (atom x) (atom y) a (num y) else 0)) := by
    rw [← L.sum_atom hi (fun a => (if a.val < I.no (atom x) then
        ((orbRep (R u (atom x)) (num x) a : ℝ) : ℂ) * K.get st (atom x) (atom y) a (num y) else 0))
        (fun a ha => by rw [if_neg ha]), Finset.mul_sum, Finset.mul_sum]
    refine Finset.sum_congr rfl fun z _ => ?_
    rw [hX, blochMap_apply]
    unfold atomRep bigRep
    rw [Matrix.of_apply, Matrix.of_apply]
    by_cases hz : atom z = atom x
    · rw [if_pos hz.symm, if_pos hz, if_pos (by rw [← hz]; exact L.num_lt z), hz]
      ring
    · rw [if_neg (fun e => hz e.symm), if_neg hz]
      ring
  rw [Finset.sum_congr rfl fun v _ => e1 v, e2, ← key, Finset.sum_range, Finset.mul_sum]

end Flat

section Coulomb

variable {A B : Atoms} {cut : Option ℝ}

theorem norm3_neg' (v : Vec) : norm3 (-v) = norm3 v := by
  unfold norm3; simp

theorem nbGeom_dist (hA : Commuting A.ctype) {x : Op} (hx : x ∈ scanOps A) (i j : ℕ) :
    norm3 (drOf A (A.rawTransform 0 x) (A.rawRotation x) i j) = norm3 ((nbGeom A).rij x i j) := by
  rw [drOf_eq A hA.ne_tat x ((mem_scanOps A x).1 hx).1]
  unfold Geom.rij nbGeom
  dsimp only
  rw [rawTransform_zero A hA, ← norm3_neg', neg_sub]

open Classical in
/-- Sums over the neighbours of a pair of atoms. -/
theorem nb_pair_sum (hA : Commuting A.ctype) (f : ℝ → ℝ) {i j : ℕ} (hi : i < A.positions.length)
    (hj : j < A.positions.length) :
    (((nbList A cut).filter fun e => e.i == i && e.j == j).map fun e => f e.d).sum
      = ((nbGeom A).ntuples.map fun n => if Near cut (nbGeom A) i j n then
        f (norm3 ((nbGeom A).rij n i j)) else 0).sum := by
  have hf : ∀ l : List Nb, ((l.filter fun e => e.i == i && e.j == j).map fun e => f e.d).sum
      = (l.map fun e => if e.i = i ∧ e.j = j then f e.d else 0).sum := by
    intro l
    induction l with
    | nil => rfl
    | cons e l ih =>
      rw [List.filter_cons, List.map_cons, List.sum_cons]
      by_cases h : e.i = i ∧ e.j = j
      · rw [if_pos h, if_pos (by simp [h.1, h.2]), List.map_cons, List.sum_cons, ih]
      · rw [if_neg h, if_neg (by simpa using h), ih, zero_add]
  rw [hf, nbList_sum]
  show _ = ((scanOps A).map _).sum
  congr 1
  refine List.map_congr_left fun x hx => ?_
  have hm : maskOf cut x (drOf A (A.rawTransform 0 x) (A.rawRotation x) i j) i j ↔ Near cut (nbGeom A) i j x := by
    unfold maskOf Near
    rw [nbGeom_dist hA hx]
    cases cut <;> simp
  simp only [list_range_sum]
  rw [Finset.sum_eq_single i, Finset.sum_eq_single j]
  · by_cases h : Near cut (nbGeom A) i j x
    · rw [if_pos h, if_pos (hm.2 h), if_pos ⟨rfl, rfl⟩, nbGeom_dist hA hx]
    · rw [if_neg h, if_neg fun e => h (hm.1 e)]
  · intro b _ hb
    split
    · rw [if_neg fun e => hb e.2]
    · rfl
  · intro h; exact absurd (Finset.mem_range.2 hj) h
  · intro b _ hb
    refine Finset.sum_eq_zero fun c _ => ?_
    split
    · rw [if_neg fun e => hb e.1]
    · rfl
  · intro h; exact absurd (Finset.mem_range.2 hi) h

theorem repeats_norm {G G' : Geom} {M : ℕ} {ix : ℕ → ℕ → ℕ} {R : ℕ → ℕ → Mat} {comb : ℕ → ℕ → ℕ → ℕ → Op → Op} {rng : ℕ → ℕ → ℝ}
    (H : Repeats G G' M ix R comb rng) {u v : ℕ} (hu : u < M) (hv : v < M) {n : Op} (hn : n ∈ G'.ntuples)
    {i j : ℕ} (hi : i < G.N) (hj : j < G.N) :
    norm3 (G'.rij n (ix u i) (ix v j)) = norm3 (G.rij (comb u i v j n) i j) := by
  rw [H.rij u hu v hv n hn i hi j hj, norm3_rot (H.orth u hu i hi)]

theorem repeats_self {G G' : Geom} {M : ℕ} {ix : ℕ → ℕ → ℕ} {R : ℕ → ℕ → Mat} {comb : ℕ → ℕ → ℕ → ℕ → Op → Op} {rng : ℕ → ℕ → ℝ}
    (H : Repeats G G' M ix R comb rng) {u v : ℕ} (hu : u < M) (hv : v < M) {n : Op} (hn : n ∈ G'.ntuples)
    {i j : ℕ} (hi : i < G.N) (hj : j < G.N) :
    (n = 0 ∧ ix u i = ix v j) ↔ (comb u i v j n = 0 ∧ i = j) := by
  constructor
  · rintro ⟨h1, h2⟩
    obtain ⟨rfl, rfl⟩ := H.copies.inj u hu i hi v hv j hj h2
    exact ⟨(H.zero u hu u hu n hn i hi).2 ⟨rfl, h1⟩, rfl⟩
  · rintro ⟨h1, rfl⟩
    obtain ⟨rfl, h3⟩ := (H.zero u hu v hv n hn i hi).1 h1
    exact ⟨h3, rfl⟩

/-- Sums over the neighbours of an atom in all copies. -/
theorem near_unfold {M : ℕ} {ix : ℕ → ℕ → ℕ} {R : ℕ → ℕ → Mat} {comb : ℕ → ℕ → ℕ → ℕ → Op → Op} {crng : ℝ}
    (H : Repeats (nbGeom A) (nbGeom B) M ix R comb fun _ _ => crng) (hA : Commuting A.ctype)
    (hB : Commuting B.ctype)
    (hl : ∀ u < M, ∀ v < M, ∀ n ∈ (nbGeom B).ntuples,
      ∀ i < A.positions.length, ∀ j < A.positions.length, Legal A (comb u i v j n))
    (hc : ∀ n, Legal A n → ∀ i < A.positions.length, ∀ j < A.positions.length,
      Near cut (nbGeom A) i j n → norm3 ((nbGeom A).rij n i j) ≤ crng)
    (f : ℝ → ℝ) {u : ℕ} (hu : u < M) {i j : ℕ} (hi : i < A.positions.length)
    (hj : j < A.positions.length) :
    ∑ v ∈ Finset.range M, (((nbList B cut).filter fun e => e.i == ix u i &&
      e.j == ix v j).map fun e => f e.d).sum
      = (((nbList A cut).filter fun e => e.i == i && e.j == j).map fun e => f e.d).sum := by
  classical
  have hN : B.positions.length = M * A.positions.length := H.N
  obtain ⟨Q, hQ⟩ : ∃ Q : Op → Prop, ∀ n, Q n ↔ Near cut (nbGeom A) i j n ∧ Legal A n := ⟨_, fun _ => Iff.rfl⟩
  have e0 : ((nbGeom A).ntuples.map fun n => if Near cut (nbGeom A) i j n then f (norm3 ((nbGeom A).rij n i j)) else 0)
      = (nbGeom A).ntuples.map fun n => if Q n then
        f (norm3 ((nbGeom A).rij n i j)) else 0 := by
    refine List.map_congr_left fun n hn => ?_
    have : Legal A n := ((mem_scanOps A n).1 hn).1
    by_cases h : Near cut (nbGeom A) i j n
    · rw [if_pos h, if_pos ((hQ n).2 ⟨h, this⟩)]
    · rw [if_neg h, if_neg fun h' => h ((hQ n).1 h').1]
  rw [nb_pair_sum hA f hi hj, e0, ← H.reindex hu hi hj Q
    (fun n h => hc n ((hQ n).1 h).2 i hi j hj ((hQ n).1 h).1)]
  refine Finset.sum_congr rfl fun v hv => ?_
  rw [Finset.mem_range] at hv
  rw [nb_pair_sum hB f (by rw [hN]; exact H.copies.lt u hu i hi) (by rw [hN]; exact H.copies.lt v hv j hj)]
  congr 1
  refine List.map_congr_left fun n hn => ?_
  have e1 := repeats_norm H hu hv hn hi hj
  have e2 := repeats_self H hu hv hn hi hj
  have e3 : Near cut (nbGeom B) (ix u i) (ix v j) n
      ↔ Near cut (nbGeom A) i j (comb u i v j n) := by
    unfold Near
    refine and_congr ?_ (not_congr e2)
    refine forall_congr' fun c => imp_congr_right fun _ => ?_
    exact iff_of_eq (congrArg (· < c) e1)
  by_cases h : Near cut (nbGeom A) i j (comb u i v j n)
  · rw [if_pos ((hQ _).2 ⟨h, hl u hu v hv n hn i hi j hj⟩), if_pos (e3.2 h)]
    exact congrArg f e1
  · rw [if_neg fun h' => h ((hQ _).1 h').1, if_neg fun h' => h (e3.1 h')]

/-- The interaction of charges, summed over copies. -/
theorem gam_unfold {M : ℕ} {ix : ℕ → ℕ → ℕ} {R : ℕ → ℕ → Mat} {comb : ℕ → ℕ → ℕ → ℕ → Op → Op} {crng : ℝ}
    (H : Repeats (nbGeom A) (nbGeom B) M ix R comb fun _ _ => crng) (hA : Commuting A.ctype)
    (hB : Commuting B.ctype)
    (hl : ∀ u < M, ∀ v < M, ∀ n ∈ (nbGeom B).ntuples,
      ∀ i < A.positions.length, ∀ j < A.positions.length, Legal A (comb u i v j n))
    (hc : ∀ n, Legal A n → ∀ i < A.positions.length, ∀ j < A.positions.length,
      Near cut (nbGeom A) i j n → norm3 ((nbGeom A).rij n i j) ≤ crng)
    (cd : ChargeDensity) (bohr : ℝ) {U w U' w' : ℕ → ℝ}
    (hU : ∀ u < M, ∀ i < A.positions.length, U' (ix u i) = U i)
    (hw : ∀ u < M, ∀ i < A.positions.length, w' (ix u i) = w i)
    {u : ℕ} (hu : u < M) {i j : ℕ} (hi : i < A.positions.length) (hj : j < A.positions.length) :
    ∑ v ∈ Finset.range M, gam cd bohr U' w' cut B (ix u i) (ix v j)
      = gam cd bohr U w cut A i j := by
  unfold gam corrMatrix gammaEntry
  rw [Finset.sum_add_distrib, Finset.sum_add_distrib, ← Finset.sum_mul, near_unfold H hA hB hl hc _ hu hi hj]
  congr 2
  · rw [Finset.sum_eq_single u]
    · rw [hU u hu i hi]
      have := H.copies.iff hu hi hu hj
      by_cases h : i = j
      · rw [if_pos h, if_pos (by rw [h])]
      · rw [if_neg h, if_neg (by omega)]
    · intro v hv' hv
      rw [if_neg]
      exact fun h => hv (H.copies.inj u hu i hi v (Finset.mem_range.1 hv') j hj h).1.symm
    · intro h; exact absurd (Finset.mem_range.2 hu) h
  · rw [← near_unfold H hA hB hl hc (fun d => corrG cd (w i) (w j) (d / bohr)) hu hi hj]
    refine Finset.sum_congr rfl fun v hv => ?_
    rw [hw u hu i hi, hw v (Finset.mem_range.1 hv) j hj]

end Coulomb

section Repulsion

variable {G G' : Geom} {M : ℕ} {ix : ℕ → ℕ → ℕ} {R : ℕ → ℕ → Mat} {comb : ℕ → ℕ → ℕ → ℕ → Op → Op} {rng : ℕ → ℕ → ℝ}

theorem cellEnergy_unfold (H : Repeats G G' M ix R comb rng) (V : String → String → Pot) {rmax : ℝ}
    (hr : ∀ i < G.N, ∀ j < G.N, rmax ≤ rng i j) :
    cellEnergy G' (cutPot G' V rmax) = M * cellEnergy G (cutPot G V rmax) := by
  classical
  unfold cellEnergy
  rw [H.N, H.copies.sum, mul_left_comm]
  congr 1
  have key : ∀ u ∈ Finset.range M, (∑ i ∈ Finset.range G.N, ∑ j ∈ Finset.range (M * G.N),
      (G'.ntuples.map fun n => if ix u i = j ∧ n = 0 then 0 else
        cutPot G' V rmax (ix u i) j (norm3 (G'.rij n (ix u i) j))).sum)
      = ∑ i ∈ Finset.range G.N, ∑ j ∈ Finset.range G.N, (G.ntuples.map fun n =>
        if i = j ∧ n = 0 then 0 else cutPot G V rmax i j (norm3 (G.rij n i j))).sum := by
    intro u hu
    rw [Finset.mem_range] at hu
    refine Finset.sum_congr rfl fun i hi => ?_
    rw [Finset.mem_range] at hi
    rw [H.copies.sum, Finset.sum_comm]
    refine Finset.sum_congr rfl fun j hj => ?_
    rw [Finset.mem_range] at hj
    have e1 : ∀ n, (if i = j ∧ n = 0 then 0 else cutPot G V rmax i j (norm3 (G.rij n i j)))
        = if ¬ (n = 0 ∧ i = j) ∧ norm3 (G.rij n i j) ≤ rmax then V (G.sym i) (G.sym j) 0 (norm3 (G.rij n i j))
          else 0 := by
      intro n
      unfold cutPot
      by_cases h1 : i = j ∧ n = 0
      · rw [if_pos h1, if_neg fun h => h.1 ⟨h1.2, h1.1⟩]
      · rw [if_neg h1]
        by_cases h2 : norm3 (G.rij n i j) ≤ rmax
        · rw [if_pos h2, if_pos ⟨fun h => h1 ⟨h.2, h.1⟩, h2⟩]
        · rw [if_neg h2, if_neg fun h => h2 h.2]
    simp only [e1]
    refine Eq.trans ?_ ((H.reindex hu hi hj (fun n => ¬ (n = 0 ∧ i = j) ∧ norm3 (G.rij n i j) ≤ rmax)
      (fun n hn => hn.2.trans (hr i hi j hj)) (fun n => V (G.sym i) (G.sym j) 0 (norm3 (G.rij n i j)))).trans
      (by congr!))
    refine Finset.sum_congr rfl fun v hv => ?_
    rw [Finset.mem_range] at hv
    congr 1
    refine List.map_congr_left fun n hn => ?_
    have e2 := repeats_norm H hu hv hn hi hj
    have e3 := repeats_self H hu hv hn hi hj
    unfold cutPot
    rw [e2, H.sym u hu i hi, H.sym v hv j hj]
    by_cases h1 : comb u i v j n = 0 ∧ i = j
    · rw [if_pos ⟨(e3.2 h1).2, (e3.2 h1).1⟩, if_neg fun h => h.1 h1]
    · rw [if_neg fun h => h1 (e3.1 ⟨h.2, h.1⟩)]
      by_cases h2 : norm3 (G.rij (comb u i v j n) i j) ≤ rmax
      · rw [if_pos h2, if_pos ⟨h1, h2⟩]
      · rw [if_neg h2, if_neg fun h => h2 h.2]
  rw [Finset.sum_congr rfl key, Finset.sum_const, Finset.card_range, nsmul_eq_mul]

/-- No atoms of the repeated structure are too close. -/
theorem notTooClose_unfold {I J : MatIn} (H : Repeats I.geom J.geom M ix R comb rng)
    (hr : ∀ i < I.N, ∀ j < I.N, 0.1 ≤ rng i j) {k : Vec} {σ : Op → Op} (hm : MirrorPairs I k σ)
    (h : NotTooClose I) : ∀ i j, i < J.N → j < J.N → ∀ n ∈ J.ntuples, ¬ (i = j ∧ n = 0) →
      0.1 < norm3 (J.rij n i j) := by
  have full : ∀ i < I.N, ∀ j < I.N, ∀ n ∈ I.ntuples, ¬ (i = j ∧ n = 0) → 0.1 < norm3 (I.rij n i j) := by
    intro i hi j hj n hn hne
    rcases le_total i j with hij | hij
    · exact h i j hij hj n hn hne
    · have := h j i hij hi (σ n) (hm.mem n hn) (by
        rintro ⟨h1, h2⟩
        refine hne ⟨h1.symm, ?_⟩
        rw [← hm.invol n hn, h2, hm.zero])
      rw [hm.posAll n hn i hi j hj, neg_mulVec, norm3_neg', norm3_rot] at this
      · exact this
      · rw [transpose_transpose]
        exact mul_eq_one_comm.1 (hm.orth n hn)
  intro i' j' hi' hj' n hn hne
  have hN : J.N = M * I.N := H.N
  rw [hN] at hi' hj'
  obtain ⟨u, hu, i, hi, rfl⟩ := H.copies.split hi'
  obtain ⟨v, hv, j, hj, rfl⟩ := H.copies.split hj'
  have e : norm3 (J.rij n (ix u i) (ix v j)) = norm3 (I.rij (comb u i v j n) i j) :=
    repeats_norm H hu hv hn hi hj
  have e0 := repeats_self H hu hv hn hi hj
  rw [e]
  by_contra hle
  push Not at hle
  have := H.into _ hu _ hv n hn _ hi _ hj (hle.trans (hr _ hi _ hj))
  exact absurd (full _ hi _ hj _ this fun hh => hne (e0.2 ⟨hh.2, hh.1⟩).symm) (not_lt.2 hle)

end Repulsion

end Hotbit
