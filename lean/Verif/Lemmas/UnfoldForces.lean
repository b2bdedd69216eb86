import Verif.Lemmas.UnfoldRun
import Verif.Lemmas.TurningForces
import Verif.Spec.CopyForces

/-!
# The forces in a repeated structure
-/

set_option linter.unusedSimpArgs false

namespace Hotbit

open Matrix

/-- The derivative arrays are derivatives of the two-centre formula with tables that are linear in the
distance. -/
theorem delemAt_deriv (J : SkJunk) {noi noj : ℕ} (hi : ValidNo noi) (hj : ValidNo noj)
    (H dH : ℝ → Fin 14 → ℝ) {x : Vec} (hx : x ≠ 0) (w : Vec) {p q : Fin 9}
    (hp : p.val < noi) (hq : q.val < noj) :
    HasDerivAt (fun t : ℝ => skSpec (intOf fun m => H (norm3 x) m + dH (norm3 x) m * (norm3 (x + t • w) - norm3 x))
      ((norm3 (x + t • w))⁻¹ • (x + t • w)) p q) (∑ c, w c * delemAt J noi noj H dH x p q c) 0 := by
  set H' : ℝ → Fin 14 → ℝ := fun d m => H (norm3 x) m + dH (norm3 x) m * (d - norm3 x) with hH'
  set dH' : ℝ → Fin 14 → ℝ := fun _ m => dH (norm3 x) m with hdH'
  have e0 : H' (norm3 x) = H (norm3 x) := by funext m; simp [hH']
  have h1 : ∀ a b d, delemAt J noi noj H dH x a b d = delemAt J noi noj H' dH' x a b d := by
    intro a b d
    unfold delemAt
    rw [e0]
  have hder : ∀ m, HasDerivAt (fun d => H' d m) (dH' (norm3 x) m) (norm3 x) := by
    intro m
    have := (((hasDerivAt_id (norm3 x)).sub_const (norm3 x)).const_mul (dH (norm3 x) m)).const_add
      (H (norm3 x) m)
    simpa [hH', hdH'] using this
  have hev : ∀ᶠ t : ℝ in nhds 0, (x + t • w : Vec) ≠ 0 := by
    have hnn := (norm3_pos hx).ne'
    have hc := (norm3_hasDerivAt x w hx).continuousAt
    have : ∀ᶠ t : ℝ in nhds 0, norm3 (x + t • w) ≠ 0 := hc.eventually_ne (by simpa using hnn)
    filter_upwards [this] with t ht h0
    rw [h0] at ht
    exact ht (norm3_eq_zero.2 rfl)
  simp only [h1]
  refine (elemAt_hasDerivAt J hi hj H' dH' x w hx hder p q hp hq).congr_of_eventuallyEq ?_
  filter_upwards [hev] with t ht
  unfold elemAt
  rw [skElem_spec J _ (unit_dir ht) hi hj _ hp hq]

theorem single_sum (F : Fin 3 → ℝ) (c : Fin 3) : (∑ e, (Pi.single c 1 : Vec) e * F e) = F c := by
  simp [Pi.single_apply]

/-- No uninitialised memory reaches the derivatives. -/
theorem delemMat_junk (J J' : SkJunk) {noi noj : ℕ} (hi : ValidNo noi) (hj : ValidNo noj)
    (H dH : ℝ → Fin 14 → ℝ) {x : Vec} (hx : x ≠ 0) (c : Fin 3) :
    delemMat J noi noj H dH x c = delemMat J' noi noj H dH x c := by
  funext p q
  unfold delemMat
  by_cases h : p.val < noi ∧ q.val < noj
  · rw [if_pos h, if_pos h]
    have := (delemAt_deriv J hi hj H dH hx (Pi.single c 1) h.1 h.2).unique
      (delemAt_deriv J' hi hj H dH hx (Pi.single c 1) h.1 h.2)
    rwa [single_sum, single_sum] at this
  · rw [if_neg h, if_neg h]

/-- Exchange of the atoms. -/
theorem delemMat_swap (J J' : SkJunk) {noi noj : ℕ} (hi : ValidNo noi) (hj : ValidNo noj)
    (H dH W dW : ℝ → Fin 14 → ℝ) {x : Vec} (hx : x ≠ 0)
    (hH : ∀ la ≤ 2, ∀ lb ≤ 2, ∀ m : Fin 3, m.val ≤ min la lb →
      W (norm3 x) (skIntegralIndex lb la m) = (-1) ^ (la + lb) * H (norm3 x) (skIntegralIndex la lb m))
    (hd : ∀ la ≤ 2, ∀ lb ≤ 2, ∀ m : Fin 3, m.val ≤ min la lb →
      dW (norm3 x) (skIntegralIndex lb la m) = (-1) ^ (la + lb) * dH (norm3 x) (skIntegralIndex la lb m))
    (c : Fin 3) (p q : Fin 9) :
    delemMat J' noj noi W dW (-x) c q p = - delemMat J noi noj H dH x c p q := by
  unfold delemMat
  by_cases h : p.val < noi ∧ q.val < noj
  · rw [if_pos h, if_pos h.symm]
    have h1 := delemAt_deriv J hi hj H dH hx (Pi.single c 1) h.1 h.2
    have h2 := delemAt_deriv J' hj hi W dW (neg_ne_zero.2 hx) (-Pi.single c 1) h.2 h.1
    rw [single_sum] at h1
    have e : (∑ e, (-Pi.single c 1 : Vec) e * delemAt J' noj noi W dW (-x) q p e)
        = - delemAt J' noj noi W dW (-x) q p c := by
      rw [← single_sum (fun e => delemAt J' noj noi W dW (-x) q p e) c, ← Finset.sum_neg_distrib]
      exact Finset.sum_congr rfl fun e _ => by rw [Pi.neg_apply, neg_mul]
    rw [e] at h2
    have e2 : (fun t : ℝ => skSpec (intOf fun m => W (norm3 (-x)) m + dW (norm3 (-x)) m *
          (norm3 (-x + t • -Pi.single c 1) - norm3 (-x)))
        ((norm3 (-x + t • -Pi.single c 1))⁻¹ • (-x + t • -Pi.single c 1)) q p)
        = fun t : ℝ => skSpec (intOf fun m => H (norm3 x) m + dH (norm3 x) m *
          (norm3 (x + t • Pi.single c 1) - norm3 x))
        ((norm3 (x + t • Pi.single c 1))⁻¹ • (x + t • Pi.single c 1)) p q := by
      funext t
      have e3 : (-x + t • -Pi.single c 1 : Vec) = -(x + t • Pi.single c 1) := by
        rw [smul_neg, neg_add]
      rw [e3, norm3_neg', norm3_neg', smul_neg]
      refine skSpec_exchange _ _ (fun la hla lb hlb k hk => ?_) _ p q
      unfold intOf
      dsimp only
      rw [hH la hla lb hlb k hk, hd la hla lb hlb k hk]
      ring
    rw [e2] at h2
    have := h1.unique h2
    linarith
  · rw [if_neg h, if_neg fun h' => h h'.symm, neg_zero]

theorem MutualDerivatives.exch {tab : String → String → SkTable} (T : MutualDerivatives tab) (K : Comp)
    (a b : String) (d : ℝ) : ∀ la ≤ 2, ∀ lb ≤ 2, ∀ m : Fin 3, m.val ≤ min la lb →
      K.df (tab b a) d (skIntegralIndex lb la m) = (-1) ^ (la + lb) * K.df (tab a b) d (skIntegralIndex la lb m) := by
  cases K
  · exact T.dh a b d
  · exact T.ds a b d

/-- The derivative of the two-centre elements of an image. -/
noncomputable def dImg (I : MatIn) (K : Comp) (i j : ℕ) (n : Op) (c : Fin 3) (p q : Fin 9) : ℝ :=
  ∑ x, delemMat I.J (I.no i) (I.no j) (K.f (I.tab (I.sym i) (I.sym j))) (K.df (I.tab (I.sym i) (I.sym j)))
    (I.rij n i j) c p x * orbRep (I.rot n) x q

theorem dImg_block {I : MatIn} (hf : OrbitalsFollow I) {n : Op} (hn : n ∈ I.ntuples) {i j : ℕ}
    (hj : j < I.N) (hv : ValidNo (I.no j)) (K : Comp) (c : Fin 3) {p q : Fin 9} (hp : p.val < I.no i)
    (hq : q.val < I.no j) :
    (skBlock I K.f K.df i j ((n, dOf I n), 0)).2 c p q = dImg I K i j n c p q := by
  rw [skBlock_snd]
  unfold dblkAt dImg dotDT
  rw [Finset.sum_filter]
  refine Finset.sum_congr rfl fun x _ => ?_
  unfold delemMat
  by_cases hx : x.val < I.no j
  · rw [if_pos hx, if_pos ⟨hp, hx⟩]
    congr 1
    obtain ⟨D, h1, h2⟩ := hf n hn
    unfold dOf
    rw [h1]
    exact h2 x q (follow_range hj hv hx hq)
  · rw [if_neg hx, if_neg fun h => hx h.2, zero_mul]

theorem dImg_out {I : MatIn} {K : Comp} {i j : ℕ} (hv : ValidNo (I.no j)) {n : Op} {c : Fin 3} {p q : Fin 9}
    (h : ¬ (p.val < I.no i ∧ q.val < I.no j)) : dImg I K i j n c p q = 0 := by
  unfold dImg
  refine Finset.sum_eq_zero fun x _ => ?_
  unfold delemMat
  by_cases hx : p.val < I.no i ∧ x.val < I.no j
  · rw [orbRep_shell hv hx.2 fun hq => h ⟨hx.1, hq⟩, mul_zero]
  · rw [if_neg hx, zero_mul]

/-- Exchange of the atoms for the inverse image. -/
theorem dImg_mirror {I : MatIn} (T : MutualTables I.tab) (T' : MutualDerivatives I.tab) (K : Comp) {i j : ℕ}
    {n n' : Op} (hvi : ValidNo (I.no i)) (hvj : ValidNo (I.no j)) (ho : (I.rot n)ᵀ * I.rot n = 1)
    (hr : I.rot n' = (I.rot n)ᵀ) (hp : I.rij n' i j = - ((I.rot n)ᵀ *ᵥ I.rij n j i)) (hx : I.rij n j i ≠ 0)
    (c : Fin 3) (p q : Fin 9) :
    dImg I K i j n' c p q = - ∑ d, dImg I K j i n d q p * I.rot n d c := by
  set Q := I.rot n with hQ
  set r := I.rij n j i with hrdef
  have ho' : Qᵀᵀ * Qᵀ = 1 := by rw [transpose_transpose]; exact mul_eq_one_comm.mp ho
  have hr' : I.rij n' i j = Qᵀ *ᵥ (-r) := by rw [hp, mulVec_neg]
  have h1 := delemMat_turn I.J hvi hvj (K.f (I.tab (I.sym i) (I.sym j))) (K.df (I.tab (I.sym i) (I.sym j)))
    ho' (neg_ne_zero.2 hx) c
  have h2 : ∀ d a b, delemMat I.J (I.no i) (I.no j) (K.f (I.tab (I.sym i) (I.sym j)))
      (K.df (I.tab (I.sym i) (I.sym j))) (-r) d a b
      = - delemMat I.J (I.no j) (I.no i) (K.f (I.tab (I.sym j) (I.sym i)))
        (K.df (I.tab (I.sym j) (I.sym i))) r d b a := fun d a b =>
    delemMat_swap I.J I.J hvj hvi _ _ _ _ hx (T.exch K _ _ _) (T'.exch K _ _ _) d b a
  set D : Fin 3 → Matrix (Fin 9) (Fin 9) ℝ := fun d => Matrix.of fun a b => delemMat I.J (I.no j) (I.no i)
    (K.f (I.tab (I.sym j) (I.sym i))) (K.df (I.tab (I.sym j) (I.sym i))) r d a b with hD
  have h3 : (Matrix.of fun a b => dImg I K i j n' c a b)
      = orbRep Qᵀ * Matrix.of (fun a b => ∑ d, Qᵀ c d * -(D d b a)) := by
    have e1 : (Matrix.of fun a b => dImg I K i j n' c a b)
        = Matrix.of (delemMat I.J (I.no i) (I.no j) (K.f (I.tab (I.sym i) (I.sym j)))
          (K.df (I.tab (I.sym i) (I.sym j))) (Qᵀ *ᵥ -r) c) * orbRep Qᵀ := by
      ext a b
      rw [Matrix.mul_apply, Matrix.of_apply]
      unfold dImg
      rw [hr', hr]
      rfl
    unfold CovR at h1
    rw [e1, h1, Matrix.mul_assoc, orbRep_orthT _ ho', Matrix.mul_one]
    congr 2
    funext a b
    exact Finset.sum_congr rfl fun d _ => by rw [h2]; rfl
  have h4 := congrFun (congrFun h3 p) q
  rw [Matrix.mul_apply, Matrix.of_apply] at h4
  rw [h4]
  unfold dImg
  simp only [Matrix.of_apply, Finset.mul_sum, Finset.sum_mul, ← Finset.sum_neg_distrib]
  rw [Finset.sum_comm]
  refine Finset.sum_congr rfl fun d _ => Finset.sum_congr rfl fun a _ => ?_
  rw [orbRep_tr, Matrix.transpose_apply, Matrix.transpose_apply]
  simp only [hD, Matrix.of_apply]
  ring

/-- No two atoms are too close. -/
theorem far_all {I : MatIn} {k : Vec} {σ : Op → Op} (hm : MirrorPairs I k σ) (h : NotTooClose I) :
    ∀ i < I.N, ∀ j < I.N, ∀ n ∈ I.ntuples, ¬ (i = j ∧ n = 0) → I.rij n i j ≠ 0 := by
  intro i hi j hj n hn hne
  rcases le_total i j with hij | hij
  · exact norm3_ne (h i j hij hj n hn hne)
  · have := norm3_ne (h j i hij hi (σ n) (hm.mem n hn) (by
      rintro ⟨h1, h2⟩
      refine hne ⟨h1.symm, ?_⟩
      rw [← hm.invol n hn, h2, hm.zero]))
    intro h0
    rw [hm.posAll n hn i hi j hj, h0, mulVec_zero] at this
    exact this rfl

open Classical in
/-- The Bloch sum of the derivatives. -/
noncomputable def dSum (I : MatIn) (K : Comp) (k : Vec) (i j : ℕ) (c : Fin 3) (p q : Fin 9) : ℂ :=
  (I.ntuples.map fun n => if Act I i j n then blochPhase k n * (dImg I K i j n c p q : ℂ) else 0).sum

/-- The derivatives of the matrix elements for all pairs of atoms. -/
theorem elementsD_all {I : MatIn} {k : Vec} {st : MatSt} (h : getMatrices I k = .ok st)
    {σ : Op → Op} (g : GoodMat I k σ) (T' : MutualDerivatives I.tab) (hno : ∀ i < I.N, ValidNo (I.no i))
    (K : Comp) {i j : ℕ} (hi : i < I.N) (hj : j < I.N) (c : Fin 3) {p q : Fin 9}
    (hp : p.val < I.no i) (hq : q.val < I.no j) :
    K.getD st c i j p q = - dSum I K k i j c p q := by
  classical
  obtain ⟨l, hl, -, hok⟩ := getMatrices_ok h
  have hcl := far_all g.mirror (notTooClose_of_ok h g.id hno g.follow)
  have hm := g.mirror
  have eneg : - dSum I K k i j c p q = (I.ntuples.map fun n => if Act I i j n then
      blochPhase k n * ((-dImg I K i j n c p q : ℝ) : ℂ) else 0).sum := by
    unfold dSum
    rw [← map_sum_neg]
    congr 1
    refine List.map_congr_left fun n _ => ?_
    by_cases ha : Act I i j n
    · rw [if_pos ha, if_pos ha]; push_cast; ring
    · rw [if_neg ha, if_neg ha, neg_zero]
  rw [getMatrices_closedD h hl K hi hj, eneg]
  unfold finalD
  rw [if_pos ⟨hp, hq⟩]
  by_cases hij : i ≤ j
  · rw [if_pos hij]
    unfold dBlockSum
    have hs := sum_images hl g.id i j
      fun im => blochPhase k im.1 * ((-(skBlock I K.f K.df i j (im, 0)).2 c p q : ℝ) : ℂ)
    refine Eq.trans hs ?_
    congr 1
    refine List.map_congr_left fun n hn => ?_
    rw [dImg_block g.follow hn hj (hno j hj) K c hp hq]
  · rw [if_neg hij]
    unfold dBlockSum2
    have hs := sum_images hl g.id j i
      fun im => blochPhase k im.1 * ((dotRot (skBlock I K.f K.df j i (im, 0)).2 (I.rot im.1) c q p : ℝ) : ℂ)
    refine (congrArg (starRingEnd ℂ) hs).trans ?_
    rw [conj_list_sum, list_sum_reindex (F := fun n => if Act I i j n then
      blochPhase k n * ((-dImg I K i j n c p q : ℝ) : ℂ) else 0) _ σ hm.nodup hm.mem hm.invol]
    congr 1
    refine List.map_congr_left fun n hn => ?_
    have hpos : I.rij (σ n) i j = - ((I.rot n)ᵀ *ᵥ I.rij n j i) :=
      (hm.posAll n hn j hj i hi).trans (neg_mulVec _ _)
    have hz : σ n = 0 ↔ n = 0 := by
      constructor
      · intro h
        rw [← hm.invol n hn, h, hm.zero]
      · rintro rfl; exact hm.zero
    have ho' : (I.rot n)ᵀᵀ * (I.rot n)ᵀ = 1 := by
      rw [transpose_transpose]; exact mul_eq_one_comm.mp (hm.orth n hn)
    have hact : Act I i j (σ n) ↔ Act I j i n := by
      unfold Act
      rw [hpos, norm3_neg', norm3_rot ho', hz, g.tables.r1, g.tables.r2, eq_comm (a := i)]
    by_cases ha : Act I j i n
    · rw [if_pos ha, if_pos (hact.2 ha), map_mul, Complex.conj_ofReal, hm.phase n hn,
        dImg_mirror g.tables T' K (hno i hi) (hno j hj) (hm.orth n hn) (hm.rot n hn) hpos
          (hcl j hj i hi n hn ha.1), neg_neg]
      congr 2
      unfold dotRot
      refine Finset.sum_congr rfl fun d _ => ?_
      rw [dImg_block g.follow hn hi (hno i hi) K d hq hp]
    · rw [if_neg ha, if_neg fun h => ha (hact.1 h), map_zero]

/-- The derivatives for an image in the repeated structure. -/
theorem dImg_unfold {I J : MatIn} {M : ℕ} {ix : ℕ → ℕ → ℕ} {R : ℕ → ℕ → Mat} {comb : ℕ → ℕ → ℕ → ℕ → Op → Op} {rng : ℕ → ℕ → ℝ}
    (G : Repeats I.geom J.geom M ix R comb rng) (O : SameOrbitals I J M ix) (K : Comp) {u v : ℕ} (hu : u < M)
    (hv : v < M) {n : Op} (hn : n ∈ J.ntuples) {i j : ℕ} (hi : i < I.N) (hj : j < I.N)
    (hx : I.rij (comb u i v j n) i j ≠ 0) (c : Fin 3) (p q : Fin 9) :
    ∑ b, dImg J K (ix u i) (ix v j) n c p b * orbRep (R v j) b q
      = ∑ a, orbRep (R u i) p a * ∑ d, R u i c d * dImg I K i j (comb u i v j n) d a q := by
  have hr : J.rij n (ix u i) (ix v j) = R u i *ᵥ I.rij (comb u i v j n) i j := G.rij u hu v hv n hn i hi j hj
  have hR := G.orth u hu i hi
  have hRv := G.orth v hv j hj
  have hQ := G.rotOrth u hu v hv n hn i hi j hj
  have hrot : J.rot n = R u i * I.rot (comb u i v j n) * (R v j)ᵀ := G.rot u hu v hv n hn i hi j hj
  have si : J.sym (ix u i) = I.sym i := G.sym u hu i hi
  have sj : J.sym (ix v j) = I.sym j := G.sym v hv j hj
  have hvi := O.valid i hi
  have hvj := O.valid j hj
  set r := I.rij (comb u i v j n) i j with hrdef
  set X : Fin 3 → Matrix (Fin 9) (Fin 9) ℝ := fun d => Matrix.of (delemMat I.J (I.no i) (I.no j)
    (K.f (I.tab (I.sym i) (I.sym j))) (K.df (I.tab (I.sym i) (I.sym j))) r d) with hX
  have eJ : (Matrix.of fun a b => dImg J K (ix u i) (ix v j) n c a b)
      = Matrix.of (delemMat I.J (I.no i) (I.no j) (K.f (I.tab (I.sym i) (I.sym j)))
        (K.df (I.tab (I.sym i) (I.sym j))) (R u i *ᵥ r) c) * orbRep (J.rot n) := by
    ext a b
    rw [Matrix.mul_apply, Matrix.of_apply]
    unfold dImg
    rw [hr, si, sj, O.tab, O.no u hu i hi, O.no v hv j hj,
      delemMat_junk J.J I.J hvi hvj _ _ (mulVec_ne hR hx)]
    rfl
  have eI : (Matrix.of fun a b => ∑ d, R u i c d * dImg I K i j (comb u i v j n) d a b)
      = (∑ d, R u i c d • X d) * orbRep (I.rot (comb u i v j n)) := by
    ext a b
    simp only [Matrix.mul_apply, Matrix.of_apply, Matrix.sum_apply, Matrix.smul_apply, smul_eq_mul,
      Finset.sum_mul]
    rw [Finset.sum_comm]
    refine Finset.sum_congr rfl fun d _ => ?_
    unfold dImg
    rw [Finset.mul_sum]
    refine Finset.sum_congr rfl fun x _ => ?_
    rw [mul_assoc]
    rfl
  have eR : Matrix.of (delemMat I.J (I.no i) (I.no j) (K.f (I.tab (I.sym i) (I.sym j)))
        (K.df (I.tab (I.sym i) (I.sym j))) (R u i *ᵥ r) c)
      = orbRep (R u i) * (∑ d, R u i c d • X d) * (orbRep (R u i))ᵀ := by
    have h := delemMat_turn I.J hvi hvj (K.f (I.tab (I.sym i) (I.sym j))) (K.df (I.tab (I.sym i) (I.sym j)))
      hR hx c
    unfold CovR at h
    rw [h]
    congr 2
  have hRQ : (R u i * I.rot (comb u i v j n))ᵀ * (R u i * I.rot (comb u i v j n)) = 1 := by
    rw [Matrix.transpose_mul, Matrix.mul_assoc, ← Matrix.mul_assoc (R u i)ᵀ, hR, Matrix.one_mul]
    exact hQ
  have key : (Matrix.of fun a b => dImg J K (ix u i) (ix v j) n c a b) * orbRep (R v j)
      = orbRep (R u i) * (Matrix.of fun a b => ∑ d, R u i c d * dImg I K i j (comb u i v j n) d a b) := by
    rw [eJ, eI, eR, hrot, orbRep_mul _ _ hRQ, orbRep_mul _ _ hR, orbRep_tr]
    have h1 := orbRep_orthT (R u i) hR
    have h2 := orbRep_orthT (R v j) hRv
    calc _ = orbRep (R u i) * (∑ d, R u i c d • X d)
          * ((orbRep (R u i))ᵀ * orbRep (R u i)) * orbRep (I.rot (comb u i v j n))
          * ((orbRep (R v j))ᵀ * orbRep (R v j)) := by simp only [Matrix.mul_assoc]
      _ = _ := by rw [h1, h2, Matrix.mul_one, Matrix.mul_one, Matrix.mul_assoc]
  have := congrFun (congrFun key p) q
  rw [Matrix.mul_apply, Matrix.mul_apply] at this
  exact this

/-- The derivative blocks of the repeated structure applied to a Bloch wave. -/
theorem dSum_unfold {I J : MatIn} {M : ℕ} {ix : ℕ → ℕ → ℕ} {R : ℕ → ℕ → Mat}
    {comb : ℕ → ℕ → ℕ → ℕ → Op → Op} {rng : ℕ → ℕ → ℝ} (G : Repeats I.geom J.geom M ix R comb rng)
    (O : SameOrbitals I J M ix) (hrng : ∀ i < I.N, ∀ j < I.N, (I.tab (I.sym i) (I.sym j)).r2 ≤ rng i j)
    (hfar : ∀ i < I.N, ∀ j < I.N, ∀ n ∈ I.ntuples, ¬ (i = j ∧ n = 0) → I.rij n i j ≠ 0)
    {k κ : Vec} {φ : ℕ → ℕ → ℂ}
    (hφ : ∀ u < M, ∀ v < M, ∀ n ∈ J.ntuples, ∀ i < I.N, ∀ j < I.N, φ v j * blochPhase k n = φ u i * blochPhase κ (comb u i v j n))
    (K : Comp) {u : ℕ} (hu : u < M) {i j : ℕ} (hi : i < I.N) (hj : j < I.N)
    (c : Fin 3) (p q : Fin 9) :
    ∑ v ∈ Finset.range M, φ v j * ∑ b, dSum J K k (ix u i) (ix v j) c p b
        * ((orbRep (R v j) b q : ℝ) : ℂ)
      = φ u i * ∑ a, ((orbRep (R u i) p a : ℝ) : ℂ) * ∑ d, (R u i c d : ℂ) * dSum I K κ i j d a q := by
  classical
  set Y : Op → ℂ := fun n => φ u i * blochPhase κ n *
    ((∑ a, orbRep (R u i) p a * ∑ d, R u i c d * dImg I K i j n d a q : ℝ) : ℂ) with hY
  have hr : φ u i * ∑ a, ((orbRep (R u i) p a : ℝ) : ℂ) * ∑ d, (R u i c d : ℂ) * dSum I K κ i j d a q
      = (I.ntuples.map fun n => if Act I i j n then Y n else 0).sum := by
    have e : (I.ntuples.map fun n => if Act I i j n then Y n else 0).sum
        = ∑ n ∈ I.ntuples.toFinset, if Act I i j n then Y n else 0 := list_sum_toFinset G.nodup _
    have e2 : ∀ d a, dSum I K κ i j d a q = ∑ n ∈ I.ntuples.toFinset,
        if Act I i j n then blochPhase κ n * (dImg I K i j n d a q : ℂ) else 0 :=
      fun d a => list_sum_toFinset G.nodup _
    have e3 : ∀ n, (if Act I i j n then Y n else 0) = ∑ a, ∑ d, φ u i * (((orbRep (R u i) p a : ℝ) : ℂ) *
        ((R u i c d : ℂ) * if Act I i j n then blochPhase κ n * (dImg I K i j n d a q : ℂ) else 0)) := by
      intro n
      by_cases ha : Act I i j n
      · simp only [if_pos ha, hY]
        push_cast
        rw [Finset.mul_sum]
        refine Finset.sum_congr rfl fun a _ => ?_
        rw [Finset.mul_sum, Finset.mul_sum]
        exact Finset.sum_congr rfl fun d _ => by ring
      · simp [if_neg ha]
    rw [e, Finset.sum_congr rfl fun n _ => e3 n]
    simp only [e2, Finset.mul_sum]
    conv_rhs => rw [Finset.sum_comm]
    refine Finset.sum_congr rfl fun a _ => ?_
    rw [Finset.sum_comm]
  rw [hr]
  refine Eq.trans ?_ (G.reindex hu hi hj (Act I i j) (fun n hn => hn.2.2.trans (hrng i hi j hj)) Y)
  refine Finset.sum_congr rfl fun v hv => ?_
  rw [Finset.mem_range] at hv
  have e3 : ∀ b, dSum J K k (ix u i) (ix v j) c p b = ∑ n ∈ J.ntuples.toFinset,
      if Act J (ix u i) (ix v j) n then
        blochPhase k n * (dImg J K (ix u i) (ix v j) n c p b : ℂ) else 0 := fun b =>
    list_sum_toFinset G.nodup' _
  have e4 : (J.geom.ntuples.map fun n => if Act I i j (comb u i v j n) then Y (comb u i v j n) else 0).sum
      = ∑ n ∈ J.ntuples.toFinset, if Act I i j (comb u i v j n) then Y (comb u i v j n) else 0 :=
    list_sum_toFinset G.nodup' _
  rw [e4]
  simp only [e3, Finset.sum_mul, Finset.mul_sum]
  rw [Finset.sum_comm]
  refine Finset.sum_congr rfl fun n hn => ?_
  have hn : n ∈ J.ntuples := List.mem_toFinset.mp hn
  by_cases ha : Act I i j (comb u i v j n)
  · rw [if_pos ha]
    have ha' := (act_unfold G O hu hv hn hi hj).2 ha
    have hmem : comb u i v j n ∈ I.ntuples := G.into u hu v hv n hn i hi j hj (ha.2.2.trans (hrng i hi j hj))
    have h := dImg_unfold G O K hu hv hn hi hj (hfar i hi j hj _ hmem ha.1) c p q
    have h' := congrArg Complex.ofReal h
    rw [Complex.ofReal_sum] at h'
    calc _ = ∑ b, φ v j * (blochPhase k n * (dImg J K (ix u i) (ix v j) n c p b : ℂ)
          * ((orbRep (R v j) b q : ℝ) : ℂ)) := Finset.sum_congr rfl fun b _ => by rw [if_pos ha']
      _ = φ v j * blochPhase k n * ∑ b, ((dImg J K (ix u i) (ix v j) n c p b
          * orbRep (R v j) b q : ℝ) : ℂ) := by
          rw [Finset.mul_sum]; exact Finset.sum_congr rfl fun b _ => by push_cast; ring
      _ = _ := by
          rw [h', hφ u hu v hv n hn i hi j hj]
  · rw [if_neg ha]
    have ha' := fun h => ha ((act_unfold G O hu hv hn hi hj).1 h)
    refine Finset.sum_eq_zero fun b _ => ?_
    rw [if_neg ha', zero_mul, mul_zero]

/-- The derivatives of the repeated structure applied to a Bloch wave. -/
theorem getD_unfold {I J : MatIn} {M : ℕ} {ix : ℕ → ℕ → ℕ} {R : ℕ → ℕ → Mat} {comb : ℕ → ℕ → ℕ → ℕ → Op → Op} {rng : ℕ → ℕ → ℝ}
    (G : Repeats I.geom J.geom M ix R comb rng) (O : SameOrbitals I J M ix)
    (hrng : ∀ i < I.N, ∀ j < I.N, (I.tab (I.sym i) (I.sym j)).r2 ≤ rng i j) {k κ : Vec} {φ : ℕ → ℕ → ℂ}
    (hφ : ∀ u < M, ∀ v < M, ∀ n ∈ J.ntuples, ∀ i < I.N, ∀ j < I.N, φ v j * blochPhase k n = φ u i * blochPhase κ (comb u i v j n))
    {σ τ : Op → Op} (gI : GoodMat I κ σ) (gJ : GoodMat J k τ) (T : MutualDerivatives I.tab) {st st' : MatSt}
    (h : getMatrices I κ = .ok st) (h' : getMatrices J k = .ok st') (K : Comp) {u : ℕ} (hu : u < M)
    {i j : ℕ} (hi : i < I.N) (hj : j < I.N) (c : Fin 3) {p q : Fin 9} (hp : p.val < I.no i) (hq : q.val < I.no j) :
    ∑ v ∈ Finset.range M, φ v j * ∑ b, (if b.val < I.no j then K.getD st' c (ix u i) (ix v j) p b
        * ((orbRep (R v j) b q : ℝ) : ℂ) else 0)
      = φ u i * ∑ a, (if a.val < I.no i then ((orbRep (R u i) p a : ℝ) : ℂ) *
        ∑ d, (R u i c d : ℂ) * K.getD st d i j a q else 0) := by
  have hN : J.N = M * I.N := G.N
  have hnoJ : ∀ x < J.N, ValidNo (J.no x) := by
    intro x hx
    rw [hN] at hx
    obtain ⟨u, hu, i, hi, rfl⟩ := G.copies.split hx
    rw [O.no u hu i hi]
    exact O.valid i hi
  have key := dSum_unfold G O hrng (far_all gI.mirror (notTooClose_of_ok h gI.id O.valid gI.follow)) hφ K hu hi hj
    c p q
  have e1 : ∀ v ∈ Finset.range M, (∑ b, (if b.val < I.no j then K.getD st' c (ix u i) (ix v j) p b
        * ((orbRep (R v j) b q : ℝ) : ℂ) else 0))
      = - ∑ b, dSum J K k (ix u i) (ix v j) c p b * ((orbRep (R v j) b q : ℝ) : ℂ) := by
    intro v hv
    rw [Finset.mem_range] at hv
    rw [← Finset.sum_neg_distrib]
    refine Finset.sum_congr rfl fun b _ => ?_
    by_cases hb : b.val < I.no j
    · rw [if_pos hb, elementsD_all h' gJ (by rw [O.tab]; exact T) hnoJ K
          (by rw [hN]; exact G.copies.lt u hu i hi) (by rw [hN]; exact G.copies.lt v hv j hj) c
          (by rw [O.no u hu i hi]; exact hp) (by rw [O.no v hv j hj]; exact hb), neg_mul]
    · rw [if_neg hb, orbRep_shell' (O.valid j hj) hb hq, Complex.ofReal_zero, mul_zero, neg_zero]
  have e2 : (∑ a, (if a.val < I.no i then ((orbRep (R u i) p a : ℝ) : ℂ) *
        ∑ d, (R u i c d : ℂ) * K.getD st d i j a q else 0))
      = - ∑ a, ((orbRep (R u i) p a : ℝ) : ℂ) * ∑ d, (R u i c d : ℂ) * dSum I K κ i j d a q := by
    rw [← Finset.sum_neg_distrib]
    refine Finset.sum_congr rfl fun a _ => ?_
    by_cases ha : a.val < I.no i
    · rw [if_pos ha, ← mul_neg, ← Finset.sum_neg_distrib]
      congr 1
      refine Finset.sum_congr rfl fun d _ => ?_
      rw [elementsD_all h gI T O.valid K hi hj d ha hq, mul_neg]
    · rw [if_neg ha, orbRep_shell (O.valid i hi) hp ha, Complex.ofReal_zero, zero_mul, neg_zero]
  rw [Finset.sum_congr rfl fun v hv => by rw [e1 v hv, mul_neg], Finset.sum_neg_distrib, key, e2, mul_neg]

section Flat

variable {n n' M N : ℕ} {atom : Fin n → ℕ} {num : Fin n → Fin 9} {no : ℕ → ℕ}
  {atom' : Fin n' → ℕ} {num' : Fin n' → Fin 9}

/-- The derivative matrices of the repeated structure act on Bloch waves as those of the original, turned
with the copy. -/
theorem flatD_unfold {I J : MatIn} {ix : ℕ → ℕ → ℕ} {R : ℕ → ℕ → Mat} {comb : ℕ → ℕ → ℕ → ℕ → Op → Op} {rng : ℕ → ℕ → ℝ}
    (G : Repeats I.geom J.geom M ix R comb rng) (O : SameOrbitals I J M ix)
    (hrng : ∀ i < I.N, ∀ j < I.N, (I.tab (I.sym i) (I.sym j)).r2 ≤ rng i j) {k κ : Vec} {φ : ℕ → ℕ → ℂ}
    (hφ : ∀ u < M, ∀ v < M, ∀ n ∈ J.ntuples, ∀ i < I.N, ∀ j < I.N, φ v j * blochPhase k n = φ u i * blochPhase κ (comb u i v j n))
    {σ τ : Op → Op} (gI : GoodMat I κ σ) (gJ : GoodMat J k τ) (T : MutualDerivatives I.tab) {st st' : MatSt}
    (h : getMatrices I κ = .ok st) (h' : getMatrices J k = .ok st') (K : Comp)
    (L : OrbLay atom num I.no I.N) (g : Fin M × Fin n ≃ Fin n')
    (hg : ∀ u x, atom' (g (u, x)) = ix u (atom x) ∧ num' (g (u, x)) = num x) (hh : ℕ → ℕ → ℂ)
    (X : Fin 3 → CMat n)
    (hX : ∀ d x y, X d x y = hh (atom x) (atom y) * K.getD st d (atom x) (atom y) (num x) (num y)) (c : Fin 3)
    (X' : CMat n') (hX' : ∀ u x v y, X' (g (u, x)) (g (v, y)) = hh (atom x) (atom y) *
      K.getD st' c (atom' (g (u, x))) (atom' (g (v, y))) (num' (g (u, x))) (num' (g (v, y))))
    (u : Fin M) (x y : Fin n) :
    (X' * blochMap g (fun u => atomRep atom num (R u) (φ u))) (g (u, x)) y
      = ∑ d, (R u (atom x) c d : ℂ) * (blochMap g (fun u => atomRep atom num (R u) (φ u)) * X d) (g (u, x)) y := by
  have hi := L.lt x
  have hj := L.lt y
  have key := getD_unfold G O hrng hφ gI gJ T h h' K u.2 hi hj c (L.num_lt x) (L.num_lt y)
  have e1 : ∀ v : Fin M, (∑ z, X' (g (u, x)) (g (v, z))
      * blochMap g (fun u => atomRep atom num (R u) (φ u)) (g (v, z)) y)
      = hh (atom x) (atom y) * (φ v (atom y) * ∑ b, (if b.val < I.no (atom y) then
        K.getD st' c (ix u (atom x)) (ix v (atom y)) (num x) b
        * ((orbRep (R v (atom y)) b (num y) : ℝ) : ℂ) else 0)) := by
    intro v
    rw [← L.sum_atom hj (fun b => (if b.val < I.no (atom y) then
        K.getD st' c (ix u (atom x)) (ix v (atom y)) (num x) b
        * ((orbRep (R v (atom y)) b (num y) : ℝ) : ℂ) else 0)) (fun a ha => by rw [if_neg ha]), Finset.mul_sum,
      Finset.mul_sum]
    refine Finset.sum_congr rfl fun z _ => ?_
    rw [hX', blochMap_apply, (hg u x).1, (hg u x).2, (hg v z).1, (hg v z).2]
    unfold atomRep bigRep
    rw [Matrix.of_apply, Matrix.of_apply]
    by_cases hz : atom z = atom y
    · rw [if_pos hz, if_pos hz, if_pos (by rw [← hz]; exact L.num_lt z), hz]
      ring
    · rw [if_neg hz, if_neg hz]
      ring
  have e2 : (∑ d, (R u (atom x) c d : ℂ) * (blochMap g (fun u => atomRep atom num (R u) (φ u)) * X d) (g (u, x)) y)
      = hh (atom x) (atom y) * (φ u (atom x) * ∑ a, (if a.val < I.no (atom x) then
        ((orbRep (R u (atom x)) (num x) a : ℝ) : ℂ) * ∑ d, (R u (atom x) c d : ℂ) * K.getD st d (atom x) (atom y) a (num y)
        else 0)) := by
    rw [← L.sum_atom hi (fun a => (if a.val < I.no (atom x) then
        ((orbRep (R u (atom x)) (num x) a : ℝ) : ℂ) * ∑ d, (R u (atom x) c d : ℂ) * K.getD st d (atom x) (atom y) a (num y)
        else 0)) (fun a ha => by rw [if_neg ha]), Finset.mul_sum, Finset.mul_sum]
    simp only [Matrix.mul_apply, Finset.mul_sum]
    rw [Finset.sum_comm]
    refine Finset.sum_congr rfl fun z _ => ?_
    by_cases hz : atom z = atom x
    · rw [if_pos hz, if_pos (by rw [← hz]; exact L.num_lt z), Finset.mul_sum, Finset.mul_sum]
      refine Finset.sum_congr rfl fun d _ => ?_
      rw [hX, blochMap_apply]
      unfold atomRep bigRep
      rw [Matrix.of_apply, Matrix.of_apply, if_pos hz.symm, hz]
      ring
    · rw [if_neg hz, mul_zero, mul_zero]
      refine Finset.sum_eq_zero fun d _ => ?_
      rw [blochMap_apply]
      unfold atomRep bigRep
      rw [Matrix.of_apply, Matrix.of_apply, if_neg fun e => hz e.symm]
      ring
  rw [e2, ← key, Matrix.mul_apply, sum_copies g, Finset.sum_congr rfl fun v _ => e1 v, Finset.sum_range,
    Finset.mul_sum]

end Flat

end Hotbit
