import Verif.Lemmas.MatricesVel

/-!
# C72: the derivative arrays are the derivatives of the matrices
-/

set_option linter.unusedSimpArgs false

namespace Hotbit

open Matrix

theorem blkAt_spec (I : MatIn) {f : SkTable → ℝ → Fin 14 → ℝ} {i : ℕ} (hv : ValidNo (I.no i)) (R : Mat)
    {x : Vec} (hx : x ≠ 0) {p q : Fin 9} (hp : p.val < I.no i) (hq : q.val < I.no i) :
    blkAt I f i i (orbRep R) x p q
      = ∑ y, skSpec (intOf (f (I.tab (I.sym i) (I.sym i)) (norm3 x))) ((norm3 x)⁻¹ • x) p y
          * orbRep R y q := by
  unfold blkAt
  exact dotDT_spec hv hv (unit_dir hx) _ R _ (fun _ _ _ _ => rfl) hp hq

theorem blkAt_inverse (I : MatIn) {f : SkTable → ℝ → Fin 14 → ℝ} {i : ℕ} (hv : ValidNo (I.no i))
    {R : Mat} (hR : R.transpose * R = 1) (hpar : ParityTable f (I.tab (I.sym i) (I.sym i)))
    {x : Vec} (hx : x ≠ 0) {p q : Fin 9} (hp : p.val < I.no i) (hq : q.val < I.no i) :
    blkAt I f i i (orbRep R) x p q
      = blkAt I f i i (orbRep R.transpose) (-(R.transpose *ᵥ x)) q p := by
  have hx' : -(R.transpose *ᵥ x) ≠ 0 := by
    intro h
    rw [neg_eq_zero] at h
    apply hx
    have : R *ᵥ (R.transpose *ᵥ x) = x := by
      rw [Matrix.mulVec_mulVec, mul_eq_one_comm.mp hR, Matrix.one_mulVec]
    rw [← this, h, Matrix.mulVec_zero]
  rw [blkAt_spec I hv R hx hp hq, blkAt_spec I hv _ hx' hq hp]
  let e1 : Op := ![1, 0, 0]
  let e2 : Op := ![2, 0, 0]
  have n10 : e1 ≠ 0 := by decide
  have n20 : e2 ≠ 0 := by decide
  have n21 : e2 ≠ e1 := by decide
  let I' : MatIn := { I with
    pos := fun m _ => if m = 0 then 0 else if m = e1 then x else -(R.transpose *ᵥ x)
    rot := fun m => if m = e1 then R else R.transpose }
  have r1 : I'.rij e1 i i = x := by simp [I', MatIn.rij, n10]
  have r2 : I'.rij e2 i i = -(R.transpose *ᵥ x) := by simp [I', MatIn.rij, n20, n21]
  have q1 : I'.rot e1 = R := by simp [I']
  have q2 : I'.rot e2 = R.transpose := by simp [I', n21]
  have := (imageElem_inverse (I := I') (f := f) (i := i) (n := e1) (n' := e2) (by rw [q1]; exact hR)
    (by rw [q1, q2]) (by rw [r1, r2, q1]) hpar q p).2
  unfold imageElem at this
  rw [r1, r2, q1, q2] at this
  exact this.symm

theorem dblkAt_inverse (I : MatIn) {f df : SkTable → ℝ → Fin 14 → ℝ} {i : ℕ} (hv : ValidNo (I.no i))
    {R : Mat} (hR : R.transpose * R = 1) (hpar : ParityTable f (I.tab (I.sym i) (I.sym i)))
    {x : Vec} (hx : x ≠ 0)
    (hH : ∀ m, HasDerivAt (fun d => f (I.tab (I.sym i) (I.sym i)) d m)
      (df (I.tab (I.sym i) (I.sym i)) (norm3 x) m) (norm3 x))
    {p q : Fin 9} (hp : p.val < I.no i) (hq : q.val < I.no i) (c : Fin 3) :
    ∑ d, dblkAt I f df i i (orbRep R) x d p q * R d c
      = - dblkAt I f df i i (orbRep R.transpose) (-(R.transpose *ᵥ x)) c q p := by
  have ho' : R.transpose.transpose * R.transpose = 1 := by
    rw [Matrix.transpose_transpose]; exact mul_eq_one_comm.mp hR
  have hn : norm3 (-(R.transpose *ᵥ x)) = norm3 x := by rw [norm3_neg, norm3_rot ho']
  have hx' : -(R.transpose *ᵥ x) ≠ 0 := by
    intro h
    rw [h] at hn
    exact hx (norm3_eq_zero.mp (hn.symm.trans (norm3_eq_zero.mpr rfl)))
  set w : Vec := R *ᵥ (Pi.single c 1) with hw
  have h1 := blkAt_hasDerivAt I hv hv f df (orbRep R) x w hx hH hp q
  have h2 := blkAt_hasDerivAt I hv hv f df (orbRep R.transpose) (-(R.transpose *ᵥ x))
    (-(Pi.single c 1)) hx' (by rw [hn]; exact hH) hq p
  have hev : (fun t : ℝ => blkAt I f i i (orbRep R) (x + t • w) p q) =ᶠ[nhds 0]
      fun t : ℝ => blkAt I f i i (orbRep R.transpose) (-(R.transpose *ᵥ x) + t • -(Pi.single c 1)) q p := by
    have hc := (norm3_hasDerivAt x w hx).continuousAt
    have : ∀ᶠ t : ℝ in nhds 0, norm3 (x + t • w) ≠ 0 :=
      hc.eventually_ne (by simpa using (norm3_pos hx).ne')
    filter_upwards [this] with t ht
    have hne : x + t • w ≠ 0 := by
      intro h0
      rw [h0] at ht
      exact ht (norm3_eq_zero.2 rfl)
    rw [blkAt_inverse I hv hR hpar hne hp hq]
    congr 1
    rw [hw, Matrix.mulVec_add, Matrix.mulVec_smul, Matrix.mulVec_mulVec, hR, Matrix.one_mulVec,
      neg_add, smul_neg]
  have h3 := (h2.congr_of_eventuallyEq hev).unique h1
  have e1 : ∑ d, w d * dblkAt I f df i i (orbRep R) x d p q
      = ∑ d, dblkAt I f df i i (orbRep R) x d p q * R d c := by
    refine Finset.sum_congr rfl fun d _ => ?_
    rw [hw, single_mulVec, mul_comm]
  rw [← e1, ← h3]
  simp [Pi.single_apply]

open Classical in
/-- Condition for an image of an atom to contribute to its own block. -/
def SelfActive (I : MatIn) (i : ℕ) (n : Op) : Prop :=
  n ≠ 0 ∧ (I.tab (I.sym i) (I.sym i)).r1 ≤ norm3 (I.rij n i i) ∧
    norm3 (I.rij n i i) ≤ (I.tab (I.sym i) (I.sym i)).r2

theorem dotDT_congr {noj : ℕ} (B : Fin 9 → Fin 9 → ℝ) {D E : Matrix (Fin 9) (Fin 9) ℝ}
    (h : ∀ a b : Fin 9, a.val < noj → b.val < noj → D a b = E a b) (p : Fin 9) {q : Fin 9}
    (hq : q.val < noj) : dotDT noj B D p q = dotDT noj B E p q := by
  unfold dotDT
  refine Finset.sum_congr rfl fun x hx => ?_
  rw [h x q (Finset.mem_filter.mp hx).2 hq]

open Classical in
/-- The self block sums over operations. -/
theorem selfSum {K : Comp} {I : MatIn} {k : Vec} {l : List (Op × Matrix (Fin 9) (Fin 9) ℝ)}
    (hl : I.transforms = .ok l) (hid : IdFirst I) (hf : OrbitalsFollow I) {i : ℕ} (hi : i < I.N)
    (hv : ValidNo (I.no i)) (c : Fin 3) (p : Fin 9) {q : Fin 9} (hq : q.val < I.no i) :
    dBlockSum K I k l.zipIdx i i c p q = (I.ntuples.map fun n => if SelfActive I i n then
      blochPhase k n * ((-dblkAt I K.f K.df i i (orbRep (I.rot n)) (I.rij n i i) c p q : ℝ) : ℂ)
        else 0).sum ∧
    dBlockSum2 K I k l.zipIdx i i c p q = (I.ntuples.map fun n => if SelfActive I i n then
      blochPhase k n * ((∑ d, dblkAt I K.f K.df i i (orbRep (I.rot n)) (I.rij n i i) d p q
        * I.rot n d c : ℝ) : ℂ) else 0).sum := by
  obtain ⟨hlen, hget⟩ := transforms_get hl
  have hiff : ∀ m (h1 : m < I.ntuples.length) (h2 : m < l.length),
      Active I i i (l[m], m) ↔ SelfActive I i I.ntuples[m] := by
    intro m h1 h2
    obtain ⟨g1, g2⟩ := hget m h1 h2
    unfold Active Counts InRange SelfActive
    simp only [g1, idFirst_get hid m h1, true_and, ne_eq]
  have hblk : ∀ m (h1 : m < I.ntuples.length) (h2 : m < l.length) (d : Fin 3),
      (skBlock I K.f K.df i i (l[m], m)).2 d p q
        = dblkAt I K.f K.df i i (orbRep (I.rot I.ntuples[m])) (I.rij I.ntuples[m] i i) d p q := by
    intro m h1 h2 d
    obtain ⟨g1, g2⟩ := hget m h1 h2
    rw [skBlock_snd]
    dsimp only
    rw [g1]
    obtain ⟨D, hD1, hD2⟩ := hf _ (List.getElem_mem h1)
    rw [g2] at hD1
    cases hD1
    unfold dblkAt
    exact dotDT_congr _ (fun a b ha hb => hD2 a b (follow_range hi hv ha hb)) p hq
  constructor
  · unfold dBlockSum
    refine sum_zipIdx hlen _ _ fun m h1 h2 => ?_
    simp only [hiff m h1 h2, hblk m h1 h2, (hget m h1 h2).1]
  · unfold dBlockSum2
    refine sum_zipIdx hlen _ _ fun m h1 h2 => ?_
    simp only [hiff m h1 h2, (hget m h1 h2).1]
    unfold dotRot
    simp only [hblk m h1 h2]

theorem selfSum_conj {K : Comp} {I : MatIn} {k : Vec} {l : List (Op × Matrix (Fin 9) (Fin 9) ℝ)}
    (hl : I.transforms = .ok l) (hid : IdFirst I) (hf : OrbitalsFollow I) {σ : Op → Op}
    (hσ : InversePairs I k σ) (hc : NotTooClose I) {i : ℕ} (hi : i < I.N)
    (hv : ValidNo (I.no i)) (hpar : ParityTable K.f (I.tab (I.sym i) (I.sym i)))
    (hs : SmoothPair I i i) (c : Fin 3) {p q : Fin 9} (hp : p.val < I.no i) (hq : q.val < I.no i) :
    dBlockSum2 K I k l.zipIdx i i c p q = starRingEnd ℂ (dBlockSum K I k l.zipIdx i i c q p) := by
  classical
  rw [(selfSum hl hid hf hi hv c p hq).2, (selfSum hl hid hf hi hv c q hp).1, conj_list_sum,
    list_sum_reindex I.ntuples σ hσ.nodup hσ.mem hσ.invol (fun n => starRingEnd ℂ _)]
  congr 1
  refine List.map_congr_left fun n hn => ?_
  have ho' : (I.rot n).transpose.transpose * (I.rot n).transpose = 1 := by
    rw [Matrix.transpose_transpose]; exact mul_eq_one_comm.mp (hσ.orth n hn)
  have hnorm : norm3 (I.rij (σ n) i i) = norm3 (I.rij n i i) := by
    rw [hσ.pos n hn i hi, norm3_neg, norm3_rot ho']
  have hz : σ n = 0 ↔ n = 0 := by
    constructor
    · intro h
      rw [← hσ.invol n hn, h, hσ.zero]
    · rintro rfl; exact hσ.zero
  have hiff : SelfActive I i (σ n) ↔ SelfActive I i n := by
    unfold SelfActive
    rw [hnorm, ne_eq, hz]
  simp only [hiff]
  by_cases ha : SelfActive I i n
  · rw [if_pos ha, if_pos ha, map_mul, hσ.phase n hn, Complex.conj_conj, Complex.conj_ofReal,
      hσ.pos n hn i hi, hσ.rot n hn]
    congr 2
    have hd := hc i i (le_refl _) hi n hn (fun h => ha.1 h.2)
    obtain ⟨-, -, s3⟩ := hs n hn (fun h => ha.1 h.2)
    exact dblkAt_inverse I hv (hσ.orth n hn) hpar (norm3_ne hd)
      (fun m => by cases K <;> [exact (s3 ha.2.1 ha.2.2 m).1; exact (s3 ha.2.1 ha.2.2 m).2]) hp hq c
  · rw [if_neg ha, if_neg ha, map_zero]

/-- **C72 (pairs of atoms).** When atom `i` and its images move along Cartesian direction `c`, the
elements of the block of `i` with another atom `j` change at the rate stored in `dH0`, `dS`;
elements between two other atoms do not change. -/
theorem c72_pair {I : MatIn} {k : Vec} {st : MatSt} (h : getMatrices I k = .ok st) (hid : IdFirst I)
    (hno : ∀ i < I.N, ValidNo (I.no i)) (hf : OrbitalsFollow I) (h0 : I.rot 0 = 1)
    {i j : ℕ} (hij : i ≠ j) (hi : i < I.N) (hj : j < I.N)
    (hs : SmoothPair I (min i j) (max i j)) {p q : Fin 9} (hp : p.val < I.no i) (hq : q.val < I.no j)
    (c : Fin 3) :
    HasDerivAt (fun t : ℝ => hamEl (I.displace i (t • Pi.single c 1)) k i j p q) (st.dH0 c i j p q) 0 ∧
    HasDerivAt (fun t : ℝ => ovlEl (I.displace i (t • Pi.single c 1)) k i j p q) (st.dS c i j p q) 0 ∧
    ∀ a, a ≠ i → a ≠ j →
      HasDerivAt (fun t : ℝ => hamEl (I.displace a (t • Pi.single c 1)) k i j p q) 0 0 ∧
      HasDerivAt (fun t : ℝ => ovlEl (I.displace a (t • Pi.single c 1)) k i j p q) 0 0 := by
  obtain ⟨l, hl, -, -⟩ := getMatrices_ok h
  have key : ∀ K : Comp,
      HasDerivAt (fun t : ℝ => elOf K (I.displace i (t • Pi.single c 1)) k i j p q) (K.getD st c i j p q) 0 ∧
      ∀ a, a ≠ i → a ≠ j →
        HasDerivAt (fun t : ℝ => elOf K (I.displace a (t • Pi.single c 1)) k i j p q) 0 0 := by
    intro K
    rw [getMatrices_closedD h hl K hi hj]
    unfold finalD
    rw [if_pos ⟨hp, hq⟩]
    rcases lt_or_gt_of_ne hij with hlt | hgt
    · rw [min_eq_left hlt.le, max_eq_right hlt.le] at hs
      rw [if_pos hlt.le]
      refine ⟨?_, fun a ha hb => ?_⟩
      · rw [← blockVel_first _ h0 hij]
        exact (upper_hasDerivAt K h hid hno hf hl i (Pi.single c 1) hlt.le hj hs hp hq).1
      · have := (upper_hasDerivAt K h hid hno hf hl a (Pi.single c 1) hlt.le hj hs hp hq).1
        rwa [blockVel_other _ (Ne.symm ha) (Ne.symm hb)] at this
    · rw [min_eq_right hgt.le, max_eq_left hgt.le] at hs
      rw [if_neg (by omega)]
      refine ⟨?_, fun a ha hb => ?_⟩
      · rw [← blockVel_second _ (Ne.symm hij)]
        obtain ⟨h1, h2⟩ := upper_hasDerivAt K h hid hno hf hl i (Pi.single c 1) hgt.le hi hs hq hp
        refine (HasDerivAt.star h1).congr_of_eventuallyEq ?_
        filter_upwards [h2] with t ht
        exact ht (Ne.symm hij)
      · obtain ⟨h1, h2⟩ := upper_hasDerivAt K h hid hno hf hl a (Pi.single c 1) hgt.le hi hs hq hp
        rw [blockVel_other _ (Ne.symm hb) (Ne.symm ha)] at h1
        have h3 := HasDerivAt.star h1
        rw [star_zero] at h3
        refine h3.congr_of_eventuallyEq ?_
        filter_upwards [h2] with t ht
        exact ht (Ne.symm hij)
  exact ⟨(key .H).1, (key .S).1, fun a ha hb => ⟨(key .H).2 a ha hb, (key .S).2 a ha hb⟩⟩

/-- **C72 (images of one atom).** When atom `i` and its images move along `c`, its own block changes
at the rate `dH0[i,i] + dH0[i,i]^†`, provided the images come in inverse pairs and the tables have
the exchange parity (as for C29). -/
theorem c72_self {I : MatIn} {k : Vec} {st : MatSt} (h : getMatrices I k = .ok st) (hid : IdFirst I)
    (hno : ∀ i < I.N, ValidNo (I.no i)) (hf : OrbitalsFollow I) (h0 : I.rot 0 = 1) {σ : Op → Op}
    (hσ : InversePairs I k σ) {i : ℕ} (hi : i < I.N)
    (hpar : ParityTable SkTable.h (I.tab (I.sym i) (I.sym i)) ∧
      ParityTable SkTable.s (I.tab (I.sym i) (I.sym i)))
    (hs : SmoothPair I i i) {p q : Fin 9} (hp : p.val < I.no i) (hq : q.val < I.no i) (c : Fin 3) :
    HasDerivAt (fun t : ℝ => hamEl (I.displace i (t • Pi.single c 1)) k i i p q)
      (st.dH0 c i i p q + starRingEnd ℂ (st.dH0 c i i q p)) 0 ∧
    HasDerivAt (fun t : ℝ => ovlEl (I.displace i (t • Pi.single c 1)) k i i p q)
      (st.dS c i i p q + starRingEnd ℂ (st.dS c i i q p)) 0 := by
  obtain ⟨l, hl, -, -⟩ := getMatrices_ok h
  have key : ∀ K : Comp, ParityTable K.f (I.tab (I.sym i) (I.sym i)) →
      HasDerivAt (fun t : ℝ => elOf K (I.displace i (t • Pi.single c 1)) k i i p q)
        (K.getD st c i i p q + starRingEnd ℂ (K.getD st c i i q p)) 0 := by
    intro K hK
    rw [getMatrices_closedD h hl K hi hi, getMatrices_closedD h hl K hi hi]
    unfold finalD
    rw [if_pos ⟨hp, hq⟩, if_pos (le_refl i), if_pos ⟨hq, hp⟩, if_pos (le_refl i),
      ← selfSum_conj hl hid hf hσ (notTooClose_of_ok h hid hno hf) hi (hno i hi) hK hs c hp hq,
      ← blockVel_self _ h0]
    exact (upper_hasDerivAt K h hid hno hf hl i (Pi.single c 1) (le_refl i) hi hs hp hq).1
  exact ⟨key .H hpar.1, key .S hpar.2⟩

/-- Moving atom `a` of a system of atoms by `bohr • v` Angstroms moves its images as in
`MatIn.displace`, for every container whose operations commute. -/
theorem c72_images_follow (A : Atoms) (hA : Commuting A.ctype) (bohr : ℝ) (hb : bohr ≠ 0)
    (no : ℕ → ℕ) (eps : ℕ → Fin 9 → ℝ) (seps : ℝ) (tab : String → String → SkTable) (J : SkJunk)
    (cut : ℕ → ℕ → ℝ) (scan : List Op) (a : ℕ) (ha : a < A.atoms.length) (v : Vec) (n : Op) (j : ℕ) :
    let A' : Atoms := { A with atoms := A.atoms.modify a fun x => (x.1, x.2 + bohr • v) }
    (MatIn.ofAtoms A' bohr no eps seps tab J cut scan).pos n j
      = ((MatIn.ofAtoms A bohr no eps seps tab J cut scan).displace a v).pos n j := by
  intro A'
  show imagePos A' bohr n j = if j = a then imagePos A bohr n j + (A.rawRotation n) *ᵥ v
    else imagePos A bohr n j
  have hT : ∀ r, A'.rawTransform r n = A.rawTransform r n := fun r => by
    have hA' : Commuting A'.ctype := hA
    unfold Atoms.rawTransform Atoms.rawRotation
    cases h : A.ctype <;> rw [h] at hA <;> simp only [Commuting] at hA <;>
      simp only [show A'.ctype = _ from h] <;> rfl
  unfold imagePos
  rw [hT]
  have hpos : A'.positions[j]? = if j = a then A.positions[j]?.map (· + bohr • v) else A.positions[j]? := by
    simp only [A', Atoms.positions, List.getElem?_map, List.getElem?_modify]
    by_cases h : j = a
    · subst h
      simp [Option.map_map, Function.comp_def]
    · simp [h, Ne.symm h]
  rw [hpos]
  by_cases h : j = a
  · subst h
    simp only [if_true]
    have : j < A.positions.length := by simpa [Atoms.positions] using ha
    rw [List.getElem?_eq_getElem this]
    simp only [Option.map_some, Option.getD_some]
    have h1 := rawTransform_sub A hA n (A.positions[j] + bohr • v) A.positions[j]
    rw [add_sub_cancel_left, Matrix.mulVec_smul] at h1
    rw [sub_eq_iff_eq_add.mp h1, smul_add, smul_smul, inv_mul_cancel₀ hb, one_smul, add_comm]
  · simp only [h, if_false]

/-- Two hydrogen-like atoms with quadratic tables meet the hypotheses of `c72_pair` and
`c72_self`. -/
example (J : SkJunk) (k : Vec) :
    let I : MatIn := { N := 2, no := fun _ => 1, eps := 0, sym := fun _ => "H", seps := 0, ntuples := [0],
                       rot := fun _ => 1, angles := fun _ => .error .typeError,
                       pos := fun _ j => ![(j : ℝ), 0, 0],
                       tab := fun _ _ => ⟨0, 3, fun d _ => d ^ 2, fun d _ => d ^ 2, fun d _ => 2 * d,
                         fun d _ => 2 * d⟩, J := J }
    IdFirst I ∧ (∀ i < I.N, ValidNo (I.no i)) ∧ OrbitalsFollow I ∧ I.rot 0 = 1 ∧ SmoothPair I 0 1 ∧
      InversePairs I k id ∧ SmoothPair I 0 0 ∧ ∃ st, getMatrices I k = .ok st := by
  intro I
  have hid : IdFirst I := ⟨[], rfl, by simp⟩
  have hno : ∀ i < I.N, ValidNo (I.no i) := fun _ _ => Or.inl rfl
  have hr : I.rij 0 0 1 = ![1, 0, 0] := by
    ext c; fin_cases c <;> simp [MatIn.rij, I]
  have hf : OrbitalsFollow I := by
    intro n _
    refine ⟨1, ?_, fun a b _ => by rw [show I.rot n = 1 from rfl, orbRep_one]⟩
    unfold rotationTransformation
    rw [if_pos]
    intro i
    simp [I]
    norm_num
  refine ⟨hid, hno, hf, rfl, ?_, ?_, ?_, ?_⟩
  · intro n hn _
    have : n = 0 := by simpa [I] using hn
    subst this
    rw [hr, norm3_x]
    refine ⟨by simp [I], by simp [I], fun _ _ m => ?_⟩
    have := hasDerivAt_pow 2 (|(1 : ℝ)|)
    simp only [Nat.cast_ofNat, Nat.add_one_sub_one, pow_one] at this
    exact ⟨this, this⟩
  · have h0 : ∀ n ∈ I.ntuples, n = 0 := fun n hn => by simpa [I] using hn
    refine { nodup := by simp [I], mem := fun n h => h, invol := fun _ _ => rfl, zero := rfl,
             orth := fun _ _ => by simp [I], rot := fun _ _ => by simp [I], pos := ?_, phase := ?_ }
    · intro n _ i _
      simp [I, MatIn.rij]
    · intro n hn
      rw [h0 n hn, id, blochPhase_zero, map_one]
  · intro n hn hne
    have : n = 0 := by simpa [I] using hn
    exact absurd ⟨rfl, this⟩ hne
  · apply (c29_too_close k hid hno hf).1
    intro i j hij hj n hn hne
    have hn0 : n = 0 := by simpa [I] using hn
    have hj2 : j < 2 := hj
    subst hn0
    have h1 : i = 0 := by
      by_contra h
      apply hne
      exact ⟨by omega, rfl⟩
    have h2 : j = 1 := by
      by_contra h
      apply hne
      exact ⟨by omega, rfl⟩
    subst h1 h2
    rw [hr, norm3_x]
    norm_num

end Hotbit
