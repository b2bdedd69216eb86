import Verif.Spec.Unfold

/-!
# The matrices of a repeated structure
-/

set_option linter.unusedSimpArgs false

namespace Hotbit

open Matrix

theorem Copies.split {M N : ℕ} {ix : ℕ → ℕ → ℕ} (C : Copies M N ix) {x : ℕ} (hx : x < M * N) :
    ∃ u < M, ∃ i < N, ix u i = x := by
  have h := Finset.surj_on_of_inj_on_of_card_le (s := Finset.range M ×ˢ Finset.range N)
    (t := Finset.range (M * N)) (fun p _ => ix p.1 p.2)
    (fun p hp => by
      simp only [Finset.mem_product, Finset.mem_range] at hp ⊢
      exact C.lt _ hp.1 _ hp.2)
    (fun p q hp hq h => by
      simp only [Finset.mem_product, Finset.mem_range] at hp hq
      have := C.inj _ hp.1 _ hp.2 _ hq.1 _ hq.2 h
      exact Prod.ext this.1 this.2)
    (by simp) x (Finset.mem_range.2 hx)
  obtain ⟨p, hp, h⟩ := h
  simp only [Finset.mem_product, Finset.mem_range] at hp
  exact ⟨p.1, hp.1, p.2, hp.2, h.symm⟩

theorem Copies.iff {M N : ℕ} {ix : ℕ → ℕ → ℕ} (C : Copies M N ix) {u i v j : ℕ} (hu : u < M) (hi : i < N)
    (hv : v < M) (hj : j < N) : ix u i = ix v j ↔ u = v ∧ i = j :=
  ⟨C.inj u hu i hi v hv j hj, by rintro ⟨rfl, rfl⟩; rfl⟩

theorem Copies.sum {M N : ℕ} {ix : ℕ → ℕ → ℕ} (C : Copies M N ix) {β : Type} [AddCommMonoid β] (f : ℕ → β) :
    ∑ x ∈ Finset.range (M * N), f x = ∑ u ∈ Finset.range M, ∑ i ∈ Finset.range N, f (ix u i) := by
  rw [← Finset.sum_product']
  refine (Finset.sum_bij (fun p _ => ix p.1 p.2) ?_ ?_ ?_ fun _ _ => rfl).symm
  · intro p hp
    simp only [Finset.mem_product, Finset.mem_range] at hp ⊢
    exact C.lt _ hp.1 _ hp.2
  · intro p hp q hq h
    simp only [Finset.mem_product, Finset.mem_range] at hp hq
    have := C.inj _ hp.1 _ hp.2 _ hq.1 _ hq.2 h
    exact Prod.ext this.1 this.2
  · intro x hx
    obtain ⟨u, hu, i, hi, h⟩ := C.split (Finset.mem_range.1 hx)
    exact ⟨(u, i), by simp [hu, hi], h⟩

/-- Exchange of the two orbitals for the inverse image, different atoms: `M_ji(σ n) = M_ij(n)ᵀ`. -/
theorem imageElem_mirror {I : MatIn} {f : SkTable → ℝ → Fin 14 → ℝ} {i j : ℕ} {n n' : Op}
    (ho : (I.rot n).transpose * I.rot n = 1) (hr : I.rot n' = (I.rot n).transpose)
    (hp : I.rij n' j i = - (I.rot n).transpose.mulVec (I.rij n i j))
    (hpar : ∀ d, ∀ la ≤ 2, ∀ lb ≤ 2, ∀ m : Fin 3, m.val ≤ min la lb →
      f (I.tab (I.sym j) (I.sym i)) d (skIntegralIndex lb la m)
        = (-1) ^ (la + lb) * f (I.tab (I.sym i) (I.sym j)) d (skIntegralIndex la lb m)) (p q : Fin 9) :
    norm3 (I.rij n' j i) = norm3 (I.rij n i j) ∧ imageElem I f j i n' p q = imageElem I f i j n q p := by
  have ho' : (I.rot n).transpose.transpose * (I.rot n).transpose = 1 := by
    rw [Matrix.transpose_transpose]; exact mul_eq_one_comm.mp ho
  have hn : norm3 (I.rij n' j i) = norm3 (I.rij n i j) := by
    rw [hp, norm3_neg, norm3_rot ho']
  refine ⟨hn, ?_⟩
  unfold imageElem
  dsimp only
  rw [hn, hr]
  set A := I.rot n with hA
  set u := (norm3 (I.rij n i j))⁻¹ • I.rij n i j with hu
  have hu' : (norm3 (I.rij n i j))⁻¹ • I.rij n' j i = A.transpose *ᵥ (-u) := by
    rw [hp, hu, Matrix.mulVec_neg, Matrix.mulVec_smul, smul_neg]
  rw [hu']
  set V : ℕ → ℕ → Fin 3 → ℝ := fun la lb k =>
    f (I.tab (I.sym i) (I.sym j)) (norm3 (I.rij n i j)) (skIntegralIndex la lb k) with hV
  set W : ℕ → ℕ → Fin 3 → ℝ := fun la lb k =>
    f (I.tab (I.sym j) (I.sym i)) (norm3 (I.rij n i j)) (skIntegralIndex la lb k) with hW
  have hex : ∀ y, skSpec W (-u) y q = skSpec V u q y := fun y =>
    skSpec_exchange V W (fun la hla lb hlb k hk => hpar _ la hla lb hlb k hk) u q y
  calc ∑ x, skSpec W (A.transpose *ᵥ -u) p x * orbRep A.transpose x q
      = ∑ x, ∑ y, ∑ z, orbRep A.transpose p y * skSpec W (-u) y z
          * (orbRep A.transpose x z * orbRep A.transpose x q) := by
        refine Finset.sum_congr rfl fun x _ => ?_
        rw [skSpec_rot W _ ho', Finset.sum_mul]
        refine Finset.sum_congr rfl fun y _ => ?_
        rw [Finset.sum_mul]
        exact Finset.sum_congr rfl fun z _ => by ring
    _ = ∑ y, ∑ z, orbRep A.transpose p y * skSpec W (-u) y z
          * ∑ x, orbRep A.transpose x z * orbRep A.transpose x q := by
        rw [Finset.sum_comm]
        refine Finset.sum_congr rfl fun y _ => ?_
        rw [Finset.sum_comm]
        refine Finset.sum_congr rfl fun z _ => ?_
        rw [Finset.mul_sum]
    _ = ∑ y, orbRep A.transpose p y * skSpec W (-u) y q := by
        refine Finset.sum_congr rfl fun y _ => ?_
        simp only [orbRep_orth' _ ho']
        simp
    _ = ∑ y, skSpec V u q y * orbRep A y p := by
        refine Finset.sum_congr rfl fun y _ => ?_
        rw [orbRep_transpose, hex, mul_comm]

theorem MutualTables.exch {tab : String → String → SkTable} (T : MutualTables tab) (K : Comp) (a b : String)
    (d : ℝ) : ∀ la ≤ 2, ∀ lb ≤ 2, ∀ m : Fin 3, m.val ≤ min la lb →
      K.f (tab b a) d (skIntegralIndex lb la m) = (-1) ^ (la + lb) * K.f (tab a b) d (skIntegralIndex la lb m) := by
  cases K
  · exact T.h a b d
  · exact T.s a b d

theorem blochSum_mirror {I : MatIn} {k : Vec} {σ : Op → Op} (hσ : MirrorPairs I k σ)
    (T : MutualTables I.tab) (K : Comp) {i j : ℕ} (hi : i < I.N) (hj : j < I.N) (p q : Fin 9) :
    blochSum I K.f k j i q p = starRingEnd ℂ (blochSum I K.f k i j p q) := by
  classical
  unfold blochSum
  rw [conj_list_sum, list_sum_reindex _ σ hσ.nodup hσ.mem hσ.invol]
  congr 1
  apply List.map_congr_left
  intro n hn
  obtain ⟨h1, h2⟩ := imageElem_mirror (f := K.f) (hσ.orth n hn) (hσ.rot n hn)
    ((hσ.posAll n hn i hi j hj).trans (Matrix.neg_mulVec _ _))
    (fun d => T.exch K _ _ d) q p
  have hz : σ n = 0 ↔ n = 0 := by
    constructor
    · intro h
      rw [← hσ.invol n hn, h, hσ.zero]
    · rintro rfl; exact hσ.zero
  rw [h1, h2, hσ.phase n hn, T.r1, T.r2]
  simp only [hz, eq_comm (a := j) (b := i)]
  split
  · rw [map_mul, Complex.conj_ofReal]
  · simp

/-- The element formula for all pairs of atoms. -/
theorem elements_all {I : MatIn} {k : Vec} {st : MatSt} (h : getMatrices I k = .ok st)
    (hid : IdFirst I) (hf : OrbitalsFollow I) {σ : Op → Op} (hσ : MirrorPairs I k σ)
    (T : MutualTables I.tab) (K : Comp) {i j : ℕ} (hi : i < I.N) (hj : j < I.N) {p q : Fin 9}
    (hp : p.val < I.no i) (hq : q.val < I.no j) :
    K.get st i j p q
      = (if i = j ∧ p = q then ((K.diag I i p : ℝ) : ℂ) else 0) + blochSum I K.f k i j p q := by
  obtain ⟨l, hl, -, hok⟩ := getMatrices_ok h
  have up : ∀ i j : ℕ, i ≤ j → j < I.N → ∀ p q : Fin 9, p.val < I.no i → q.val < I.no j →
      upperBlock K I k l.zipIdx i j p q
        = (if i = j ∧ p = q then ((K.diag I i p : ℝ) : ℂ) else 0) + blochSum I K.f k i j p q := by
    intro i j hij hj p q hp hq
    rw [upperBlock, if_pos ⟨hp, hq⟩, blockSum_spec K hl hid hf hj (hok i j hij hj) hp hq]
  rw [getMatrices_closed h hl K hi hj]
  unfold finalBlock
  by_cases hij : i ≤ j
  · rw [if_pos hij, up i j hij hj p q hp hq]
  · rw [if_neg hij, up j i (by omega) hi q p hq hp, if_neg (by omega), if_neg (by omega), zero_add,
      zero_add, ← blochSum_mirror hσ T K hj hi]

/-- The two-centre elements of an image in the repeated structure. -/
theorem imageElem_unfold {I J : MatIn} {f : SkTable → ℝ → Fin 14 → ℝ} {M : ℕ} {ix : ℕ → ℕ → ℕ} {R : ℕ → ℕ → Mat}
    {comb : ℕ → ℕ → ℕ → ℕ → Op → Op} {rng : ℕ → ℕ → ℝ} (G : Repeats I.geom J.geom M ix R comb rng)
    (O : SameOrbitals I J M ix) {u v : ℕ} (hu : u < M) (hv : v < M) {n : Op} (hn : n ∈ J.ntuples) {i j : ℕ}
    (hi : i < I.N) (hj : j < I.N) (p q : Fin 9) :
    ∑ b, imageElem J f (ix u i) (ix v j) n p b * orbRep (R v j) b q
      = ∑ a, orbRep (R u i) p a * imageElem I f i j (comb u i v j n) a q := by
  have hr : J.rij n (ix u i) (ix v j) = R u i *ᵥ I.rij (comb u i v j n) i j := G.rij u hu v hv n hn i hi j hj
  have hR := G.orth u hu i hi
  have hRv := G.orth v hv j hj
  have hQ := G.rotOrth u hu v hv n hn i hi j hj
  have hrot : J.rot n = R u i * I.rot (comb u i v j n) * (R v j)ᵀ := G.rot u hu v hv n hn i hi j hj
  have si : J.sym (ix u i) = I.sym i := G.sym u hu i hi
  have sj : J.sym (ix v j) = I.sym j := G.sym v hv j hj
  set r := I.rij (comb u i v j n) i j with hrdef
  set V : ℕ → ℕ → Fin 3 → ℝ := fun la lb k => f (I.tab (I.sym i) (I.sym j)) (norm3 r) (skIntegralIndex la lb k)
    with hV
  have eJ : (Matrix.of fun a b => imageElem J f (ix u i) (ix v j) n a b)
      = (Matrix.of fun a b => skSpec V (R u i *ᵥ ((norm3 r)⁻¹ • r)) a b) * orbRep (J.rot n) := by
    ext a b
    rw [Matrix.mul_apply, Matrix.of_apply]
    unfold imageElem
    dsimp only
    rw [hr, norm3_rot hR, ← Matrix.mulVec_smul, si, sj, O.tab]
    rfl
  have eI : (Matrix.of fun a b => imageElem I f i j (comb u i v j n) a b)
      = (Matrix.of fun a b => skSpec V ((norm3 r)⁻¹ • r) a b) * orbRep (I.rot (comb u i v j n)) := by
    ext a b
    rw [Matrix.mul_apply, Matrix.of_apply]
    rfl
  have eR : (Matrix.of fun a b => skSpec V (R u i *ᵥ ((norm3 r)⁻¹ • r)) a b)
      = orbRep (R u i) * (Matrix.of fun a b => skSpec V ((norm3 r)⁻¹ • r) a b) * (orbRep (R u i))ᵀ := by
    ext a b
    rw [Matrix.of_apply, skSpec_rot V _ hR, Matrix.mul_apply]
    simp only [Matrix.mul_apply, Matrix.transpose_apply, Matrix.of_apply, Finset.sum_mul]
    rw [Finset.sum_comm]
    exact Finset.sum_congr rfl fun y _ => Finset.sum_congr rfl fun x _ => by ring
  have hRQ : (R u i * I.rot (comb u i v j n))ᵀ * (R u i * I.rot (comb u i v j n)) = 1 := by
    rw [Matrix.transpose_mul, Matrix.mul_assoc, ← Matrix.mul_assoc (R u i)ᵀ, hR, Matrix.one_mul]
    exact hQ
  have key : (Matrix.of fun a b => imageElem J f (ix u i) (ix v j) n a b) * orbRep (R v j)
      = orbRep (R u i) * (Matrix.of fun a b => imageElem I f i j (comb u i v j n) a b) := by
    rw [eJ, eI, eR, hrot, orbRep_mul _ _ hRQ, orbRep_mul _ _ hR, orbRep_tr]
    have h1 := orbRep_orthT (R u i) hR
    have h2 := orbRep_orthT (R v j) hRv
    calc _ = orbRep (R u i) * (Matrix.of fun a b => skSpec V ((norm3 r)⁻¹ • r) a b)
          * ((orbRep (R u i))ᵀ * orbRep (R u i)) * orbRep (I.rot (comb u i v j n))
          * ((orbRep (R v j))ᵀ * orbRep (R v j)) := by simp only [Matrix.mul_assoc]
      _ = _ := by rw [h1, h2, Matrix.mul_one, Matrix.mul_one, Matrix.mul_assoc]
  have := congrFun (congrFun key p) q
  rw [Matrix.mul_apply, Matrix.mul_apply] at this
  exact this

theorem list_sum_toFinset {α : Type} [DecidableEq α] {β : Type} [AddCommMonoid β] {l : List α} (h : l.Nodup)
    (F : α → β) : (l.map F).sum = ∑ x ∈ l.toFinset, F x := (List.sum_toFinset F h).symm

open Classical in
/-- Summing over the images of all copies is summing over the images of the original. -/
theorem Repeats.reindex {G G' : Geom} {M : ℕ} {ix : ℕ → ℕ → ℕ} {R : ℕ → ℕ → Mat} {comb : ℕ → ℕ → ℕ → ℕ → Op → Op} {rng : ℕ → ℕ → ℝ}
    (H : Repeats G G' M ix R comb rng) {β : Type} [AddCommMonoid β] {u : ℕ} (hu : u < M) {i j : ℕ}
    (hi : i < G.N) (hj : j < G.N) (Q : Op → Prop)
    (hQ : ∀ n, Q n → norm3 (G.rij n i j) ≤ rng i j) (F : Op → β) :
    (∑ v ∈ Finset.range M, (G'.ntuples.map fun n => if Q (comb u i v j n) then F (comb u i v j n) else 0).sum)
      = (G.ntuples.map fun n => if Q n then F n else 0).sum := by
  simp only [list_sum_toFinset H.nodup', list_sum_toFinset H.nodup]
  rw [← Finset.sum_product', ← Finset.sum_filter, ← Finset.sum_filter]
  refine Finset.sum_nbij (fun x : ℕ × Op => comb u i x.1 j x.2) ?_ ?_ ?_ (fun _ _ => rfl)
  · rintro ⟨v, n⟩ hx
    simp only [Finset.mem_filter, Finset.mem_product, Finset.mem_range, List.mem_toFinset] at hx ⊢
    exact ⟨H.into u hu v hx.1.1 n hx.1.2 i hi j hj (hQ _ hx.2), hx.2⟩
  · rintro ⟨v, n⟩ hx ⟨w, m⟩ hy hxy
    simp only [Finset.coe_filter, Finset.mem_product, Finset.mem_range, List.mem_toFinset,
      Set.mem_setOf_eq] at hx hy
    obtain ⟨h1, h2⟩ := H.inj u hu v hx.1.1 w hy.1.1 n hx.1.2 m hy.1.2 i hi j hj hxy
    rw [h1, h2]
  · intro n hn
    simp only [Finset.coe_filter, List.mem_toFinset, Set.mem_setOf_eq] at hn
    obtain ⟨v, hv, m, hm, h⟩ := H.onto u hu i hi j hj n hn.1 (hQ _ hn.2)
    refine ⟨(v, m), ?_, h⟩
    simp only [Finset.coe_filter, Finset.mem_product, Finset.mem_range, List.mem_toFinset,
      Set.mem_setOf_eq]
    refine ⟨⟨hv, hm⟩, ?_⟩
    rw [h]
    exact hn.2

theorem act_unfold {I J : MatIn} {M : ℕ} {ix : ℕ → ℕ → ℕ} {R : ℕ → ℕ → Mat}
    {comb : ℕ → ℕ → ℕ → ℕ → Op → Op} {rng : ℕ → ℕ → ℝ} (G : Repeats I.geom J.geom M ix R comb rng)
    (O : SameOrbitals I J M ix) {u v : ℕ} (hu : u < M) (hv : v < M) {n : Op} (hn : n ∈ J.ntuples) {i j : ℕ}
    (hi : i < I.N) (hj : j < I.N) :
    Act J (ix u i) (ix v j) n ↔ Act I i j (comb u i v j n) := by
  have hr : J.rij n (ix u i) (ix v j) = R u i *ᵥ I.rij (comb u i v j n) i j := G.rij u hu v hv n hn i hi j hj
  have si : J.sym (ix u i) = I.sym i := G.sym u hu i hi
  have sj : J.sym (ix v j) = I.sym j := G.sym v hv j hj
  have hz : (ix u i = ix v j ∧ n = 0) ↔ (i = j ∧ comb u i v j n = 0) := by
    constructor
    · rintro ⟨h1, h2⟩
      obtain ⟨rfl, rfl⟩ := G.copies.inj u hu i hi v hv j hj h1
      exact ⟨rfl, (G.zero u hu u hu n hn i hi).2 ⟨rfl, h2⟩⟩
    · rintro ⟨rfl, h2⟩
      obtain ⟨rfl, h3⟩ := (G.zero u hu v hv n hn i hi).1 h2
      exact ⟨rfl, h3⟩
  unfold Act
  rw [hz, hr, norm3_rot (G.orth u hu i hi), si, sj, O.tab]

/-- Blocks of the repeated structure applied to a Bloch wave give the blocks of the original. -/
theorem blochSum_unfold {I J : MatIn} {M : ℕ} {ix : ℕ → ℕ → ℕ} {R : ℕ → ℕ → Mat}
    {comb : ℕ → ℕ → ℕ → ℕ → Op → Op} {rng : ℕ → ℕ → ℝ} (G : Repeats I.geom J.geom M ix R comb rng)
    (O : SameOrbitals I J M ix) (hrng : ∀ i < I.N, ∀ j < I.N, (I.tab (I.sym i) (I.sym j)).r2 ≤ rng i j)
    {k κ : Vec} {φ : ℕ → ℕ → ℂ}
    (hφ : ∀ u < M, ∀ v < M, ∀ n ∈ J.ntuples, ∀ i < I.N, ∀ j < I.N, φ v j * blochPhase k n = φ u i * blochPhase κ (comb u i v j n))
    (f : SkTable → ℝ → Fin 14 → ℝ) {u : ℕ} (hu : u < M) {i j : ℕ} (hi : i < I.N) (hj : j < I.N)
    (p q : Fin 9) :
    ∑ v ∈ Finset.range M, φ v j * ∑ b, blochSum J f k (ix u i) (ix v j) p b
        * ((orbRep (R v j) b q : ℝ) : ℂ)
      = φ u i * ∑ a, ((orbRep (R u i) p a : ℝ) : ℂ) * blochSum I f κ i j a q := by
  classical
  have hI : ∀ a, blochSum I f κ i j a q = (I.ntuples.map fun n =>
      if Act I i j n then blochPhase κ n * (imageElem I f i j n a q : ℂ) else 0).sum := fun a => by
    unfold blochSum Act; congr!
  have hJ : ∀ v b, blochSum J f k (ix u i) (ix v j) p b = (J.ntuples.map fun n =>
      if Act J (ix u i) (ix v j) n then
        blochPhase k n * (imageElem J f (ix u i) (ix v j) n p b : ℂ) else 0).sum := fun v b => by
    unfold blochSum Act; congr!
  have hr : φ u i * ∑ a, ((orbRep (R u i) p a : ℝ) : ℂ) * blochSum I f κ i j a q
      = (I.ntuples.map fun n => if Act I i j n then
          φ u i * blochPhase κ n * ∑ a, ((orbRep (R u i) p a * imageElem I f i j n a q : ℝ) : ℂ) else 0).sum := by
    have : ∀ n, (if Act I i j n then
          φ u i * blochPhase κ n * ∑ a, ((orbRep (R u i) p a * imageElem I f i j n a q : ℝ) : ℂ) else 0)
        = ∑ a, φ u i * (((orbRep (R u i) p a : ℝ) : ℂ) * if Act I i j n then
          blochPhase κ n * (imageElem I f i j n a q : ℂ) else 0) := by
      intro n
      split
      · rw [Finset.mul_sum]
        exact Finset.sum_congr rfl fun a _ => by push_cast; ring
      · simp
    have e : (I.ntuples.map fun n => if Act I i j n then
          φ u i * blochPhase κ n * ∑ a, ((orbRep (R u i) p a * imageElem I f i j n a q : ℝ) : ℂ) else 0).sum
        = ∑ x ∈ I.ntuples.toFinset, (if Act I i j x then
          φ u i * blochPhase κ x * ∑ a, ((orbRep (R u i) p a * imageElem I f i j x a q : ℝ) : ℂ) else 0) :=
      list_sum_toFinset G.nodup _
    have e2 : ∀ a, (I.ntuples.map fun n =>
        if Act I i j n then blochPhase κ n * (imageElem I f i j n a q : ℂ) else 0).sum
        = ∑ n ∈ I.ntuples.toFinset,
          if Act I i j n then blochPhase κ n * (imageElem I f i j n a q : ℂ) else 0 :=
      fun a => list_sum_toFinset G.nodup _
    rw [e, Finset.sum_congr rfl fun n _ => this n]
    simp only [hI, e2, Finset.mul_sum]
    rw [Finset.sum_comm]
  rw [hr]
  refine Eq.trans ?_ (G.reindex hu hi hj (Act I i j) (fun n hn => hn.2.2.trans (hrng i hi j hj))
    (fun n => φ u i * blochPhase κ n * ∑ a, ((orbRep (R u i) p a * imageElem I f i j n a q : ℝ) : ℂ)))
  refine Finset.sum_congr rfl fun v hv => ?_
  rw [Finset.mem_range] at hv
  have e3 : ∀ b, blochSum J f k (ix u i) (ix v j) p b = ∑ n ∈ J.ntuples.toFinset,
      if Act J (ix u i) (ix v j) n then
        blochPhase k n * (imageElem J f (ix u i) (ix v j) n p b : ℂ) else 0 := fun b => by
    rw [hJ]; exact list_sum_toFinset G.nodup' _
  have e4 : (J.geom.ntuples.map fun n => if Act I i j (comb u i v j n) then
        φ u i * blochPhase κ (comb u i v j n) * ∑ a, ((orbRep (R u i) p a * imageElem I f i j (comb u i v j n) a q : ℝ) : ℂ)
        else 0).sum = ∑ n ∈ J.ntuples.toFinset, if Act I i j (comb u i v j n) then
        φ u i * blochPhase κ (comb u i v j n) * ∑ a, ((orbRep (R u i) p a * imageElem I f i j (comb u i v j n) a q : ℝ) : ℂ)
        else 0 := list_sum_toFinset G.nodup' _
  rw [e4]
  simp only [e3, Finset.sum_mul, Finset.mul_sum]
  rw [Finset.sum_comm]
  refine Finset.sum_congr rfl fun n hn => ?_
  have hn : n ∈ J.ntuples := List.mem_toFinset.mp hn
  by_cases ha : Act I i j (comb u i v j n)
  · rw [if_pos ha]
    have ha' := (act_unfold G O hu hv hn hi hj).2 ha
    have h := imageElem_unfold (f := f) G O hu hv hn hi hj p q
    have h' := congrArg (fun x : ℝ => (x : ℂ)) h
    push_cast at h'
    calc _ = ∑ b, φ v j * (blochPhase k n * (imageElem J f (ix u i) (ix v j) n p b : ℂ)
          * ((orbRep (R v j) b q : ℝ) : ℂ)) := Finset.sum_congr rfl fun b _ => by rw [if_pos ha']
      _ = φ v j * blochPhase k n * ∑ b, (imageElem J f (ix u i) (ix v j) n p b : ℂ)
          * ((orbRep (R v j) b q : ℝ) : ℂ) := by
          rw [Finset.mul_sum]; exact Finset.sum_congr rfl fun b _ => by ring
      _ = _ := by
          rw [h', hφ u hu v hv n hn i hi j hj, Finset.mul_sum]
          refine Finset.sum_congr rfl fun b _ => by push_cast; ring
  · rw [if_neg ha]
    have ha' := fun h => ha ((act_unfold G O hu hv hn hi hj).1 h)
    refine Finset.sum_eq_zero fun b _ => ?_
    rw [if_neg ha', zero_mul, mul_zero]

end Hotbit
