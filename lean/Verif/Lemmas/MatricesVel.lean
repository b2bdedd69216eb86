import Verif.Lemmas.MatricesGradient
import Mathlib.Analysis.Calculus.Deriv.Star
import Mathlib.Analysis.Complex.RealDeriv
import Mathlib.Topology.Algebra.Order.LiminfLimsup

/-!
# Derivatives of the blocks when an atom moves
-/

set_option linter.unusedSimpArgs false

namespace Hotbit

open Matrix

/-- Velocity of the bond vector `rij n i j` when atom `a` moves along `v`. -/
def bondVel (I : MatIn) (a : ℕ) (v : Vec) (n : Op) (i j : ℕ) : Vec :=
  (if j = a then (I.rot n).mulVec v else 0) - (if i = a then (I.rot 0).mulVec v else 0)

theorem rij_displace (I : MatIn) (a : ℕ) (v : Vec) (n : Op) (i j : ℕ) (t : ℝ) :
    (I.displace a (t • v)).rij n i j = I.rij n i j + t • bondVel I a v n i j := by
  unfold MatIn.rij MatIn.displace bondVel
  dsimp only
  by_cases h1 : j = a <;> by_cases h2 : i = a <;>
    simp only [h1, h2, if_true, if_false, Matrix.mulVec_smul, smul_sub, smul_zero] <;> abel

/-- Block of one image as a function of the bond vector. -/
noncomputable def blkAt (I : MatIn) (f : SkTable → ℝ → Fin 14 → ℝ) (i j : ℕ)
    (D : Matrix (Fin 9) (Fin 9) ℝ) (x : Vec) (p q : Fin 9) : ℝ :=
  dotDT (I.no j) (elemAt I.J (I.no i) (I.no j) (f (I.tab (I.sym i) (I.sym j))) x) D p q

noncomputable def dblkAt (I : MatIn) (f df : SkTable → ℝ → Fin 14 → ℝ) (i j : ℕ)
    (D : Matrix (Fin 9) (Fin 9) ℝ) (x : Vec) (c : Fin 3) (p q : Fin 9) : ℝ :=
  dotDT (I.no j) (fun p q => delemAt I.J (I.no i) (I.no j) (f (I.tab (I.sym i) (I.sym j)))
    (df (I.tab (I.sym i) (I.sym j))) x p q c) D p q

theorem skBlock_fst (I : MatIn) (f df : SkTable → ℝ → Fin 14 → ℝ) (i j : ℕ) (im : Im) (p q : Fin 9) :
    (skBlock I f df i j im).1 p q = blkAt I f i j im.1.2 (I.rij im.1.1 i j) p q := rfl

theorem skBlock_snd (I : MatIn) (f df : SkTable → ℝ → Fin 14 → ℝ) (i j : ℕ) (im : Im) (c : Fin 3)
    (p q : Fin 9) :
    (skBlock I f df i j im).2 c p q = dblkAt I f df i j im.1.2 (I.rij im.1.1 i j) c p q := rfl

theorem blkAt_displace (I : MatIn) (a : ℕ) (v : Vec) (f : SkTable → ℝ → Fin 14 → ℝ) (i j : ℕ)
    (D : Matrix (Fin 9) (Fin 9) ℝ) : blkAt (I.displace a v) f i j D = blkAt I f i j D := rfl

theorem blkAt_hasDerivAt (I : MatIn) {i j : ℕ} (hi : ValidNo (I.no i)) (hj : ValidNo (I.no j))
    (f df : SkTable → ℝ → Fin 14 → ℝ) (D : Matrix (Fin 9) (Fin 9) ℝ) (x w : Vec) (hx : x ≠ 0)
    (hH : ∀ m, HasDerivAt (fun d => f (I.tab (I.sym i) (I.sym j)) d m)
      (df (I.tab (I.sym i) (I.sym j)) (norm3 x) m) (norm3 x))
    {p : Fin 9} (hp : p.val < I.no i) (q : Fin 9) :
    HasDerivAt (fun t : ℝ => blkAt I f i j D (x + t • w) p q)
      (∑ c, w c * dblkAt I f df i j D x c p q) 0 := by
  unfold blkAt dblkAt dotDT
  have e : ∑ c, w c * ∑ y ∈ Finset.univ.filter (fun y : Fin 9 => y.val < I.no j),
        delemAt I.J (I.no i) (I.no j) (f (I.tab (I.sym i) (I.sym j)))
          (df (I.tab (I.sym i) (I.sym j))) x p y c * D y q
      = ∑ y ∈ Finset.univ.filter (fun y : Fin 9 => y.val < I.no j),
        (∑ c, w c * delemAt I.J (I.no i) (I.no j) (f (I.tab (I.sym i) (I.sym j)))
          (df (I.tab (I.sym i) (I.sym j))) x p y c) * D y q := by
    simp only [Finset.mul_sum, Finset.sum_mul]
    rw [Finset.sum_comm]
    refine Finset.sum_congr rfl fun y _ => Finset.sum_congr rfl fun c _ => by ring
  rw [e]
  refine HasDerivAt.fun_sum fun y hy => ?_
  rw [Finset.mem_filter] at hy
  exact (elemAt_hasDerivAt I.J hi hj _ _ x w hx hH p y hp hy.2).mul_const _

/-- The conditions on one image for differentiating its contribution. -/
def SmoothIm (K : Comp) (I : MatIn) (i j : ℕ) (im : Im) : Prop :=
  Counts i j im → I.rij im.1.1 i j ≠ 0 ∧
    norm3 (I.rij im.1.1 i j) ≠ (I.tab (I.sym i) (I.sym j)).r1 ∧
    norm3 (I.rij im.1.1 i j) ≠ (I.tab (I.sym i) (I.sym j)).r2 ∧
    (InRange I i j im → ∀ m, HasDerivAt (fun d => K.f (I.tab (I.sym i) (I.sym j)) d m)
      (K.df (I.tab (I.sym i) (I.sym j)) (norm3 (I.rij im.1.1 i j)) m) (norm3 (I.rij im.1.1 i j)))

theorem eventually_range {g : ℝ → ℝ} (hg : ContinuousAt g 0) {a b : ℝ} (ha : g 0 ≠ a) (hb : g 0 ≠ b) :
    ∀ᶠ t in nhds 0, (a ≤ g t ∧ g t ≤ b) ↔ (a ≤ g 0 ∧ g 0 ≤ b) := by
  have h1 : ∀ᶠ t in nhds 0, a ≤ g t ↔ a ≤ g 0 := by
    rcases lt_or_gt_of_ne ha with h | h
    · filter_upwards [hg.eventually_lt_const h] with t ht
      exact ⟨fun h' => absurd h' (not_le.mpr ht), fun h' => absurd h' (not_le.mpr h)⟩
    · filter_upwards [hg.eventually_const_lt h] with t ht
      exact ⟨fun _ => h.le, fun _ => ht.le⟩
  have h2 : ∀ᶠ t in nhds 0, g t ≤ b ↔ g 0 ≤ b := by
    rcases lt_or_gt_of_ne hb with h | h
    · filter_upwards [hg.eventually_lt_const h] with t ht
      exact ⟨fun _ => h.le, fun _ => ht.le⟩
    · filter_upwards [hg.eventually_const_lt h] with t ht
      exact ⟨fun h' => absurd h' (not_le.mpr ht), fun h' => absurd h' (not_le.mpr h)⟩
  filter_upwards [h1, h2] with t h1 h2
  rw [h1, h2]

open Classical in
theorem imTerm_hasDerivAt (K : Comp) (I : MatIn) (k : Vec) (a : ℕ) (v : Vec) {i j : ℕ}
    (hi : ValidNo (I.no i)) (hj : ValidNo (I.no j)) (im : Im) (hs : SmoothIm K I i j im)
    {p : Fin 9} (hp : p.val < I.no i) (q : Fin 9) :
    HasDerivAt (fun t : ℝ => if Active (I.displace a (t • v)) i j im then
        blochPhase k im.1.1 * ((skBlock (I.displace a (t • v)) K.f K.df i j im).1 p q : ℂ) else 0)
      (if Active I i j im then blochPhase k im.1.1 *
        ((∑ c, bondVel I a v im.1.1 i j c * (skBlock I K.f K.df i j im).2 c p q : ℝ) : ℂ) else 0) 0 := by
  by_cases hc : Counts i j im
  · obtain ⟨h0, h1, h2, h3⟩ := hs hc
    set w := bondVel I a v im.1.1 i j with hw
    set x := I.rij im.1.1 i j with hx
    have hcont := (norm3_hasDerivAt x w h0).continuousAt
    have hz : norm3 (x + (0 : ℝ) • w) = norm3 x := by simp
    have hev := eventually_range hcont (a := (I.tab (I.sym i) (I.sym j)).r1)
      (b := (I.tab (I.sym i) (I.sym j)).r2) (by rw [hz]; exact h1) (by rw [hz]; exact h2)
    rw [hz] at hev
    have hact : ∀ᶠ t : ℝ in nhds 0, (Active (I.displace a (t • v)) i j im ↔ Active I i j im) := by
      filter_upwards [hev] with t ht
      unfold Active InRange
      rw [rij_displace]
      exact and_congr_right fun _ => ht
    by_cases ha : Active I i j im
    · rw [if_pos ha]
      have hd := blkAt_hasDerivAt I hi hj K.f K.df im.1.2 x w h0 (h3 ha.2) hp q
      have hd' := (hd.ofReal_comp).const_mul (blochPhase k im.1.1)
      refine HasDerivAt.congr_of_eventuallyEq hd' ?_
      filter_upwards [hact] with t ht
      rw [if_pos (ht.mpr ha), skBlock_fst, blkAt_displace, rij_displace]
    · rw [if_neg ha]
      refine HasDerivAt.congr_of_eventuallyEq (hasDerivAt_const (0 : ℝ) (0 : ℂ)) ?_
      filter_upwards [hact] with t ht
      rw [if_neg fun h => ha (ht.mp h)]
  · have hn : ∀ I', ¬ Active I' i j im := fun I' h => hc h.1
    simp only [hn, if_false]
    exact hasDerivAt_const _ _

theorem hasDerivAt_clistSum {ι : Type} (l : List ι) (f : ι → ℝ → ℂ) (f' : ι → ℂ) (t : ℝ)
    (h : ∀ x ∈ l, HasDerivAt (f x) (f' x) t) :
    HasDerivAt (fun s => (l.map fun x => f x s).sum) ((l.map f').sum) t := by
  induction l with
  | nil => simpa using hasDerivAt_const t (0 : ℂ)
  | cons a l ih =>
    simp only [List.map_cons, List.sum_cons]
    exact (h a (by simp)).add (ih fun x hx => h x (by simp [hx]))

open Classical in
/-- Derivative of the sum over images when atom `a` moves along `v`. -/
noncomputable def blockVel (K : Comp) (I : MatIn) (k : Vec) (ims : List Im) (a : ℕ) (v : Vec) (i j : ℕ)
    (p q : Fin 9) : ℂ :=
  (ims.map fun im => if Active I i j im then blochPhase k im.1.1 *
    ((∑ c, bondVel I a v im.1.1 i j c * (skBlock I K.f K.df i j im).2 c p q : ℝ) : ℂ) else 0).sum

theorem blockSum_hasDerivAt (K : Comp) (I : MatIn) (k : Vec) (ims : List Im) (a : ℕ) (v : Vec) {i j : ℕ}
    (hi : ValidNo (I.no i)) (hj : ValidNo (I.no j)) (hs : ∀ im ∈ ims, SmoothIm K I i j im)
    {p : Fin 9} (hp : p.val < I.no i) (q : Fin 9) :
    HasDerivAt (fun t : ℝ => blockSum K (I.displace a (t • v)) k ims i j p q)
      (blockVel K I k ims a v i j p q) 0 := by
  unfold blockSum blockVel
  exact hasDerivAt_clistSum ims _ _ 0 fun im him => imTerm_hasDerivAt K I k a v hi hj im (hs im him) hp q

/-- Element of a matrix. -/
noncomputable def elOf (K : Comp) (I : MatIn) (k : Vec) (i j : ℕ) (p q : Fin 9) : ℂ :=
  match K with
  | .H => hamEl I k i j p q
  | .S => ovlEl I k i j p q

theorem elOf_ok (K : Comp) {I : MatIn} {k : Vec} {st : MatSt} (h : getMatrices I k = .ok st)
    (i j : ℕ) (p q : Fin 9) : elOf K I k i j p q = K.get st i j p q := by
  cases K <;> simp only [elOf, hamEl, ovlEl, h] <;> rfl

theorem notTooClose_of_ok {I : MatIn} {k : Vec} {st : MatSt} (h : getMatrices I k = .ok st)
    (hid : IdFirst I) (hno : ∀ i < I.N, ValidNo (I.no i)) (hf : OrbitalsFollow I) : NotTooClose I := by
  by_contra hc
  rw [(c29_too_close k hid hno hf).2 hc] at h
  cases h

theorem notTooClose_displace {I : MatIn} (h : NotTooClose I) (a : ℕ) (v : Vec) :
    ∀ᶠ t : ℝ in nhds 0, NotTooClose (I.displace a (t • v)) := by
  classical
  have key : ∀ i ∈ Finset.range I.N, ∀ᶠ t : ℝ in nhds 0, ∀ j ∈ Finset.range I.N, ∀ n ∈ I.ntuples.toFinset,
      i ≤ j → ¬ (i = j ∧ n = 0) → 0.1 < norm3 ((I.displace a (t • v)).rij n i j) := by
    intro i _
    rw [Filter.eventually_all_finset]
    intro j hj
    rw [Filter.eventually_all_finset]
    intro n hn
    by_cases hij : i ≤ j
    · by_cases hne : i = j ∧ n = 0
      · exact Filter.Eventually.of_forall fun t _ h' => absurd hne h'
      · have h1 := h i j hij (Finset.mem_range.mp hj) n (List.mem_toFinset.mp hn) hne
        have h0 := norm3_ne h1
        have hc := (norm3_hasDerivAt (I.rij n i j) (bondVel I a v n i j) h0).continuousAt
        have := hc.eventually_const_lt (u := 0.1) (by simpa using h1)
        filter_upwards [this] with t ht _ _
        rw [rij_displace]
        exact ht
    · exact Filter.Eventually.of_forall fun t h' => absurd h' hij
  rw [← Filter.eventually_all_finset] at key
  filter_upwards [key] with t ht i j hij hj n hn hne
  have hj' : j < I.N := hj
  exact ht i (Finset.mem_range.mpr (by omega)) j (Finset.mem_range.mpr hj') n
    (List.mem_toFinset.mpr hn) hij hne

theorem smoothIm_of {I : MatIn} (hid : IdFirst I) {l : List (Op × Matrix (Fin 9) (Fin 9) ℝ)}
    (hl : I.transforms = .ok l) (hc : NotTooClose I) {i j : ℕ} (hij : i ≤ j) (hj : j < I.N)
    (hs : SmoothPair I i j) (K : Comp) : ∀ im ∈ l.zipIdx, SmoothIm K I i j im := by
  obtain ⟨hlen, hget⟩ := transforms_get hl
  rintro ⟨x, m⟩ him hcnt
  rw [List.mem_zipIdx_iff_getElem?] at him
  obtain ⟨h2, h3⟩ := List.getElem?_eq_some_iff.mp him
  have hm : m < I.ntuples.length := by omega
  obtain ⟨g1, -⟩ := hget m hm h2
  dsimp only at h3 ⊢
  unfold InRange
  dsimp only
  rw [← h3, g1]
  have hne : ¬ (i = j ∧ I.ntuples[m] = 0) := fun hc' => hcnt ⟨hc'.1, (idFirst_get hid m hm).mpr hc'.2⟩
  have hd := hc i j hij hj _ (List.getElem_mem hm) hne
  obtain ⟨s1, s2, s3⟩ := hs _ (List.getElem_mem hm) hne
  refine ⟨norm3_ne hd, s1, s2, fun hr m => ?_⟩
  have := s3 hr.1 hr.2 m
  cases K
  · exact this.1
  · exact this.2

/-- Derivative of a block in the upper triangle. -/
theorem upper_hasDerivAt (K : Comp) {I : MatIn} {k : Vec} {st : MatSt} (h : getMatrices I k = .ok st)
    (hid : IdFirst I) (hno : ∀ i < I.N, ValidNo (I.no i)) (hf : OrbitalsFollow I)
    {l : List (Op × Matrix (Fin 9) (Fin 9) ℝ)} (hl : I.transforms = .ok l)
    (a : ℕ) (v : Vec) {i j : ℕ} (hij : i ≤ j) (hj : j < I.N) (hs : SmoothPair I i j)
    {p q : Fin 9} (hp : p.val < I.no i) (hq : q.val < I.no j) :
    HasDerivAt (fun t : ℝ => elOf K (I.displace a (t • v)) k i j p q)
      (blockVel K I k l.zipIdx a v i j p q) 0 ∧
    ∀ᶠ t : ℝ in nhds 0, i ≠ j → elOf K (I.displace a (t • v)) k j i q p
      = starRingEnd ℂ (elOf K (I.displace a (t • v)) k i j p q) := by
  have hc := notTooClose_of_ok h hid hno hf
  have hev : ∀ᶠ t : ℝ in nhds 0, ∀ i' j', i' < I.N → j' < I.N → ∀ p' q',
      elOf K (I.displace a (t • v)) k i' j' p' q'
        = finalBlock K (I.displace a (t • v)) k l.zipIdx i' j' p' q' := by
    filter_upwards [notTooClose_displace hc a v] with t ht i' j' hi' hj' p' q'
    obtain ⟨st', hst'⟩ := (c29_too_close (I := I.displace a (t • v)) k hid hno hf).1 ht
    rw [elOf_ok K hst']
    exact getMatrices_closed hst' hl K hi' hj' p' q'
  have hi : i < I.N := by omega
  constructor
  · have h1 := (blockSum_hasDerivAt K I k l.zipIdx a v (hno i hi) (hno j hj)
      (smoothIm_of hid hl hc hij hj hs K) hp q).const_add
        (if i = j ∧ p = q then ((K.diag I i p : ℝ) : ℂ) else 0)
    refine HasDerivAt.congr_of_eventuallyEq h1 ?_
    filter_upwards [hev] with t ht
    rw [ht i j hi hj, finalBlock, if_pos hij, upperBlock]
    have e1 : p.val < (I.displace a (t • v)).no i ∧ q.val < (I.displace a (t • v)).no j := ⟨hp, hq⟩
    rw [if_pos e1]
    cases K <;> rfl
  · filter_upwards [hev] with t ht hne
    rw [ht i j hi hj, ht j i hj hi]
    unfold finalBlock
    rw [if_pos hij, if_neg (by omega)]

theorem single_mulVec (R : Mat) (c d : Fin 3) : (R *ᵥ (Pi.single c 1 : Vec)) d = R d c := by
  simp

/-- Atom `i < j` moves along `c`. -/
theorem blockVel_first {K : Comp} {I : MatIn} {k : Vec} (ims : List Im) (h0 : I.rot 0 = 1) {i j : ℕ}
    (hij : i ≠ j) (c : Fin 3) (p q : Fin 9) :
    blockVel K I k ims i (Pi.single c 1) i j p q = dBlockSum K I k ims i j c p q := by
  unfold blockVel dBlockSum
  congr 1
  refine List.map_congr_left fun im _ => ?_
  have e : ∑ d, bondVel I i (Pi.single c 1) im.1.1 i j d * (skBlock I K.f K.df i j im).2 d p q
      = -(skBlock I K.f K.df i j im).2 c p q := by
    unfold bondVel
    rw [if_neg (Ne.symm hij), if_pos rfl, h0, Matrix.one_mulVec, zero_sub]
    simp [Pi.single_apply]
  rw [e]

/-- Atom `j > i` moves along `c`. -/
theorem blockVel_second {K : Comp} {I : MatIn} {k : Vec} (ims : List Im) {i j : ℕ}
    (hij : i ≠ j) (c : Fin 3) (p q : Fin 9) :
    blockVel K I k ims j (Pi.single c 1) i j p q = dBlockSum2 K I k ims i j c p q := by
  unfold blockVel dBlockSum2
  congr 1
  refine List.map_congr_left fun im _ => ?_
  have e : ∑ d, bondVel I j (Pi.single c 1) im.1.1 i j d * (skBlock I K.f K.df i j im).2 d p q
      = dotRot (skBlock I K.f K.df i j im).2 (I.rot im.1.1) c p q := by
    unfold bondVel dotRot
    rw [if_pos rfl, if_neg hij, sub_zero]
    refine Finset.sum_congr rfl fun d _ => ?_
    rw [single_mulVec, mul_comm]
  rw [e]

/-- Atom `i = j` moves along `c`. -/
theorem blockVel_self {K : Comp} {I : MatIn} {k : Vec} (ims : List Im) (h0 : I.rot 0 = 1) (i : ℕ)
    (c : Fin 3) (p q : Fin 9) :
    blockVel K I k ims i (Pi.single c 1) i i p q
      = dBlockSum K I k ims i i c p q + dBlockSum2 K I k ims i i c p q := by
  unfold blockVel dBlockSum dBlockSum2
  rw [← List.sum_map_add]
  congr 1
  refine List.map_congr_left fun im _ => ?_
  have e : ∑ d, bondVel I i (Pi.single c 1) im.1.1 i i d * (skBlock I K.f K.df i i im).2 d p q
      = -(skBlock I K.f K.df i i im).2 c p q
        + dotRot (skBlock I K.f K.df i i im).2 (I.rot im.1.1) c p q := by
    unfold bondVel dotRot
    simp only [if_true]
    rw [h0, Matrix.one_mulVec]
    simp only [Pi.sub_apply, single_mulVec, sub_mul, Finset.sum_sub_distrib]
    simp only [Pi.single_apply, ite_mul, one_mul, zero_mul, Finset.sum_ite_eq', Finset.sum_ite_eq,
      Finset.mem_univ, if_true]
    rw [sub_eq_neg_add]
    congr 1
    exact Finset.sum_congr rfl fun d _ => mul_comm _ _
  rw [e]
  split
  · push_cast; ring
  · simp

/-- Another atom moves. -/
theorem blockVel_other {K : Comp} {I : MatIn} {k : Vec} (ims : List Im) {a i j : ℕ} (hi : i ≠ a)
    (hj : j ≠ a) (v : Vec) (p q : Fin 9) :
    blockVel K I k ims a v i j p q = 0 := by
  unfold blockVel
  apply List.sum_eq_zero
  intro x hx
  obtain ⟨im, -, rfl⟩ := List.mem_map.mp hx
  simp [bondVel, hi, hj]

end Hotbit
