import Verif.Lemmas.Turning
import Verif.Lemmas.NetForce

/-!
# Slow turning: derivatives of the matrices
-/

namespace Hotbit

open Matrix

variable {W : Mat}

/-- The change of a block when its orbitals turn. -/
noncomputable def gen (W : Mat) (X : Fin 9 → Fin 9 → ℂ) (p q : Fin 9) : ℂ :=
  (∑ a, (orbGen W p a : ℂ) * X a q) + ∑ b, (orbGen W q b : ℂ) * X p b

/-- The images of turning atoms turn along. -/
structure TurnsAlong (I : MatIn) (W : Mat) : Prop where
  skew : Wᵀ = -W
  rot : ∀ n ∈ I.ntuples, W * I.rot n = I.rot n * W
  pos : ∀ n ∈ I.ntuples, ∀ j < I.N, I.rot n *ᵥ (W *ᵥ I.pos 0 j) = W *ᵥ I.pos n j

theorem dOf_rep {I : MatIn} (hf : OrbitalsFollow I) {n : Op} (hn : n ∈ I.ntuples) {j : ℕ}
    (hj : j < I.N) (hv : ValidNo (I.no j)) {a b : Fin 9} (ha : a.val < I.no j) (hb : b.val < I.no j) :
    dOf I n a b = orbRep (I.rot n) a b := by
  obtain ⟨D, h1, h2⟩ := hf n hn
  unfold dOf
  rw [h1]
  exact h2 a b (follow_range hj hv ha hb)

theorem dotDT_rep {no : ℕ} (hv : ValidNo no) {Q : Mat} {B : Fin 9 → Fin 9 → ℝ} {D : Matrix (Fin 9) (Fin 9) ℝ}
    (hD : ∀ a b : Fin 9, a.val < no → b.val < no → D a b = orbRep Q a b) {q : Fin 9} (hq : q.val < no) (p : Fin 9) :
    dotDT no B D p q = ∑ y, B p y * orbRep Q y q := by
  rw [dotDT, Finset.sum_filter]
  refine Finset.sum_congr rfl fun y _ => ?_
  by_cases hy : y.val < no
  · rw [if_pos hy, hD y q hy hq]
  · rw [if_neg hy, orbRep_shell' hv hy hq, mul_zero]

/-- One image. -/
theorem block_gen {I : MatIn} (hI : TurnsAlong I W) (hf : OrbitalsFollow I) {n : Op} (hn : n ∈ I.ntuples)
    (ho : (I.rot n)ᵀ * I.rot n = 1) {i j : ℕ} (hj : j < I.N) (hvi : ValidNo (I.no i))
    (hvj : ValidNo (I.no j)) (hx : I.rij n i j ≠ 0) (f df : SkTable → ℝ → Fin 14 → ℝ) (m : ℕ)
    {p q : Fin 9} (hp : p.val < I.no i) (hq : q.val < I.no j) :
    ∑ c, (W *ᵥ I.rij n i j) c * (skBlock I f df i j ((n, dOf I n), m)).2 c p q
      = (∑ a, orbGen W p a * (skBlock I f df i j ((n, dOf I n), m)).1 a q)
        + ∑ b, orbGen W q b * (skBlock I f df i j ((n, dOf I n), m)).1 p b := by
  have hD : ∀ a b : Fin 9, a.val < I.no j → b.val < I.no j → dOf I n a b = orbRep (I.rot n) a b :=
    fun a b ha hb => dOf_rep hf hn hj hvj ha hb
  have hskew := hI.skew
  have hcomm := orbGen_comm hskew ho (hI.rot n hn)
  have hLs := orbGen_skew hskew
  have h1 : ∀ a, (skBlock I f df i j ((n, dOf I n), m)).1 a q = ∑ y, elemAt I.J (I.no i) (I.no j)
      (f (I.tab (I.sym i) (I.sym j))) (I.rij n i j) a y * orbRep (I.rot n) y q := by
    intro a
    rw [skBlock_fst, blkAt]
    exact dotDT_rep hvj hD hq a
  have h2 : ∀ b, orbGen W q b * (skBlock I f df i j ((n, dOf I n), m)).1 p b
      = orbGen W q b * ∑ y, elemAt I.J (I.no i) (I.no j)
      (f (I.tab (I.sym i) (I.sym j))) (I.rij n i j) p y * orbRep (I.rot n) y b := by
    intro b
    by_cases hb : b.val < I.no j
    · rw [skBlock_fst, blkAt, dotDT_rep hvj hD hb]
    · rw [orbGen_shell W hvj hq hb, zero_mul, zero_mul]
  have h3 : ∀ c, (skBlock I f df i j ((n, dOf I n), m)).2 c p q = ∑ y, (if y.val < I.no j then
      delemAt I.J (I.no i) (I.no j)
      (f (I.tab (I.sym i) (I.sym j))) (df (I.tab (I.sym i) (I.sym j))) (I.rij n i j) p y c
      * orbRep (I.rot n) y q else 0) := by
    intro c
    rw [skBlock_snd, dblkAt, dotDT_rep hvj hD hq]
    refine Finset.sum_congr rfl fun y _ => ?_
    by_cases hy : y.val < I.no j
    · rw [if_pos hy]
    · rw [if_neg hy, orbRep_shell' hvj hy hq, mul_zero]
  set E := elemAt I.J (I.no i) (I.no j) (f (I.tab (I.sym i) (I.sym j))) (I.rij n i j) with hE
  have hlhs : ∑ c, (W *ᵥ I.rij n i j) c * (skBlock I f df i j ((n, dOf I n), m)).2 c p q
      = ∑ y, ((∑ a, orbGen W p a * E a y) + ∑ b, orbGen W y b * E p b) * orbRep (I.rot n) y q := by
    simp only [h3, Finset.mul_sum]
    rw [Finset.sum_comm]
    refine Finset.sum_congr rfl fun y _ => ?_
    by_cases hy : y.val < I.no j
    · simp only [if_pos hy]
      rw [← delemAt_gen I.J hvi hvj hskew _ (df (I.tab (I.sym i) (I.sym j))) hx hp hy, Finset.sum_mul]
      exact Finset.sum_congr rfl fun c _ => by ring
    · rw [orbRep_shell' hvj hy hq]
      simp [hy]
  rw [hlhs]
  simp only [h1, h2, add_mul, Finset.sum_add_distrib]
  congr 1
  · simp only [Finset.sum_mul, Finset.mul_sum]
    rw [Finset.sum_comm]
    exact Finset.sum_congr rfl fun a _ => Finset.sum_congr rfl fun y _ => by ring
  · have e1 : ∀ b, ∑ y, orbGen W y b * orbRep (I.rot n) y q = ∑ y, orbGen W q y * orbRep (I.rot n) b y := by
      intro b
      have hL : ∀ y b, orbGen W y b = -orbGen W b y := by
        intro y b
        have := congrFun (congrFun hLs b) y
        rwa [Matrix.transpose_apply, Matrix.neg_apply] at this
      have := congrFun (congrFun hcomm b) q
      rw [Matrix.mul_apply, Matrix.mul_apply] at this
      calc ∑ y, orbGen W y b * orbRep (I.rot n) y q = -∑ y, orbGen W b y * orbRep (I.rot n) y q := by
            rw [← Finset.sum_neg_distrib]
            exact Finset.sum_congr rfl fun y _ => by rw [hL y b]; ring
        _ = -∑ y, orbRep (I.rot n) b y * orbGen W y q := by rw [this]
        _ = _ := by
            rw [← Finset.sum_neg_distrib]
            exact Finset.sum_congr rfl fun y _ => by rw [hL q y]; ring
    calc ∑ y, (∑ b, orbGen W y b * E p b) * orbRep (I.rot n) y q
        = ∑ b, E p b * ∑ y, orbGen W y b * orbRep (I.rot n) y q := by
          simp only [Finset.sum_mul, Finset.mul_sum]
          rw [Finset.sum_comm]
          exact Finset.sum_congr rfl fun a _ => Finset.sum_congr rfl fun y _ => by ring
      _ = ∑ b, E p b * ∑ y, orbGen W q y * orbRep (I.rot n) b y := by simp only [e1]
      _ = _ := by
          simp only [Finset.mul_sum]
          rw [Finset.sum_comm]
          exact Finset.sum_congr rfl fun a _ => Finset.sum_congr rfl fun y _ => by ring

/-- The sum over the images. -/
theorem blockSum_gen {I : MatIn} (hI : TurnsAlong I W) (K : Comp) {k : Vec}
    {l : List (Op × Matrix (Fin 9) (Fin 9) ℝ)} (hl : I.transforms = .ok l) (hid : IdFirst I)
    (hf : OrbitalsFollow I) (ho : ∀ n ∈ I.ntuples, (I.rot n)ᵀ * I.rot n = 1) (hc : NotTooClose I)
    {i j : ℕ} (hij : i ≤ j) (hj : j < I.N) (hvi : ValidNo (I.no i)) (hvj : ValidNo (I.no j))
    {p q : Fin 9} (hp : p.val < I.no i) (hq : q.val < I.no j) :
    (∑ c, ((W *ᵥ I.pos 0 i) c : ℂ) * dBlockSum K I k l.zipIdx i j c p q)
      + ∑ c, ((W *ᵥ I.pos 0 j) c : ℂ) * dBlockSum2 K I k l.zipIdx i j c p q
      = gen W (blockSum K I k l.zipIdx i j) p q := by
  classical
  have s0 : ∀ p q, blockSum K I k l.zipIdx i j p q = _ := fun p q => sum_images hl hid i j
    fun im => blochPhase k im.1 * ((skBlock I K.f K.df i j (im, 0)).1 p q : ℂ)
  have s1 : ∀ c p q, dBlockSum K I k l.zipIdx i j c p q = _ := fun c p q => sum_images hl hid i j
    fun im => blochPhase k im.1 * ((-(skBlock I K.f K.df i j (im, 0)).2 c p q : ℝ) : ℂ)
  have s2 : ∀ c p q, dBlockSum2 K I k l.zipIdx i j c p q = _ := fun c p q => sum_images hl hid i j
    fun im => blochPhase k im.1 * ((dotRot (skBlock I K.f K.df i j (im, 0)).2 (I.rot im.1) c p q : ℝ) : ℂ)
  unfold gen
  simp only [s0, s1, s2, ← List.sum_map_mul_left]
  have fl : ∀ {ι : Type} [Fintype ι] (F : ι → Op → ℂ), ∑ c, (I.ntuples.map (F c)).sum
      = (I.ntuples.map fun n => ∑ c, F c n).sum := by
    intro ι _ F
    generalize I.ntuples = ns
    induction ns with
    | nil => simp
    | cons n ns ih => simp only [List.map_cons, List.sum_cons, Finset.sum_add_distrib, ih]
  rw [fl, fl, fl, fl, ← List.sum_map_add, ← List.sum_map_add]
  congr 1
  refine List.map_congr_left fun n hn => ?_
  by_cases ha : Act I i j n
  · simp only [if_pos ha]
    have hb := block_gen hI hf hn (ho n hn) hj hvi hvj (norm3_ne (hc i j hij hj n hn ha.1)) K.f K.df 0 hp hq
    have hr : W *ᵥ I.rij n i j = I.rot n *ᵥ (W *ᵥ I.pos 0 j) - W *ᵥ I.pos 0 i := by
      rw [hI.pos n hn j hj, ← Matrix.mulVec_sub]
      rfl
    have e1 : ∑ d, (W *ᵥ I.rij n i j) d * (skBlock I K.f K.df i j ((n, dOf I n), 0)).2 d p q
        = (∑ c, (W *ᵥ I.pos 0 i) c * -(skBlock I K.f K.df i j ((n, dOf I n), 0)).2 c p q)
          + ∑ c, (W *ᵥ I.pos 0 j) c * dotRot (skBlock I K.f K.df i j ((n, dOf I n), 0)).2 (I.rot n) c p q := by
      rw [hr]
      unfold dotRot
      simp only [Pi.sub_apply, sub_mul, Finset.sum_sub_distrib, Matrix.mulVec, dotProduct, Fin.sum_univ_three]
      ring
    have e2 := congrArg (fun z : ℝ => blochPhase k n * (z : ℂ)) (e1.symm.trans hb)
    simp only [Complex.ofReal_add, Complex.ofReal_sum, Complex.ofReal_mul, mul_add, Finset.mul_sum] at e2
    simp only [mul_left_comm _ (blochPhase k n)]
    exact e2
  · simp [if_neg ha]

theorem gen_mirror (X : Fin 9 → Fin 9 → ℂ) (p q : Fin 9) :
    gen W (fun a b => starRingEnd ℂ (X b a)) p q = starRingEnd ℂ (gen W X q p) := by
  unfold gen
  simp only [map_add, map_sum, map_mul, Complex.conj_ofReal]
  rw [add_comm]

theorem gen_congr {noi noj : ℕ} (hi : ValidNo noi) (hj : ValidNo noj) {X Y : Fin 9 → Fin 9 → ℂ}
    (h : ∀ p q : Fin 9, p.val < noi → q.val < noj → X p q = Y p q) {p q : Fin 9} (hp : p.val < noi)
    (hq : q.val < noj) : gen W X p q = gen W Y p q := by
  unfold gen
  congr 1
  · refine Finset.sum_congr rfl fun a _ => ?_
    by_cases ha : a.val < noi
    · rw [h a q ha hq]
    · rw [orbGen_shell W hi hp ha]; simp
  · refine Finset.sum_congr rfl fun b _ => ?_
    by_cases hb : b.val < noj
    · rw [h p b hp hb]
    · rw [orbGen_shell W hj hq hb]; simp

theorem gen_add (X Y : Fin 9 → Fin 9 → ℂ) (p q : Fin 9) :
    gen W (fun a b => X a b + Y a b) p q = gen W X p q + gen W Y p q := by
  unfold gen
  simp only [mul_add, Finset.sum_add_distrib]
  ring

theorem gen_diag (hW : Wᵀ = -W) {d : Fin 9 → ℝ} {no : ℕ} (h : ShellDiag d no) {p q : Fin 9}
    (hp : p.val < no) (hq : q.val < no) :
    gen W (fun a b => if a = b then (d a : ℂ) else 0) p q = 0 := by
  unfold gen
  simp only [mul_ite, mul_zero, Finset.sum_ite_eq, Finset.sum_ite_eq', Finset.mem_univ, if_true]
  have hL : orbGen W q p = -orbGen W p q := by
    have := congrFun (congrFun (orbGen_skew hW) p) q
    rwa [Matrix.transpose_apply, Matrix.neg_apply] at this
  by_cases hl : orbL p = orbL q
  · rw [h p q hp hq hl, hL]
    push_cast
    ring
  · rw [hL, orbGen_off W hl]
    simp

/-- **All elements.** When all atoms turn, the matrices change as the orbitals turn. -/
theorem matrix_gen {I : MatIn} (hI : TurnsAlong I W) (K : Comp) {k : Vec} {st : MatSt}
    (h : getMatrices I k = .ok st) (hid : IdFirst I) (hno : ∀ i < I.N, ValidNo (I.no i))
    (hf : OrbitalsFollow I) {σ : Op → Op} (hσ : InversePairs I k σ)
    (hpar : ∀ i < I.N, ParityTable K.f (I.tab (I.sym i) (I.sym i)))
    (hs : ∀ i < I.N, SmoothPair I i i) (hsh : ∀ i < I.N, ShellDiag (K.diag I i) (I.no i))
    {i j : ℕ} (hi : i < I.N) (hj : j < I.N) {p q : Fin 9} (hp : p.val < I.no i) (hq : q.val < I.no j) :
    (∑ c, ((W *ᵥ I.pos 0 i) c : ℂ) * K.getD st c i j p q)
      + ∑ c, ((W *ᵥ I.pos 0 j) c : ℂ) * starRingEnd ℂ (K.getD st c j i q p)
      = gen W (K.get st i j) p q := by
  obtain ⟨l, hl, -, -⟩ := getMatrices_ok h
  have hc := notTooClose_of_ok h hid hno hf
  have hup : ∀ {i j : ℕ}, i ≤ j → j < I.N → ∀ {p q : Fin 9}, p.val < I.no i → q.val < I.no j →
      (∑ c, ((W *ᵥ I.pos 0 i) c : ℂ) * K.getD st c i j p q)
        + ∑ c, ((W *ᵥ I.pos 0 j) c : ℂ) * starRingEnd ℂ (K.getD st c j i q p)
        = gen W (K.get st i j) p q := by
    intro i j hij hj p q hp hq
    have hi : i < I.N := by omega
    have e1 : ∀ c, K.getD st c i j p q = dBlockSum K I k l.zipIdx i j c p q := by
      intro c
      rw [getMatrices_closedD h hl K hi hj]
      unfold finalD
      rw [if_pos (c := p.val < I.no i ∧ q.val < I.no j) ⟨hp, hq⟩, if_pos hij]
    have e2 : ∀ c, starRingEnd ℂ (K.getD st c j i q p) = dBlockSum2 K I k l.zipIdx i j c p q := by
      intro c
      rw [getMatrices_closedD h hl K hj hi]
      unfold finalD
      rw [if_pos (c := q.val < I.no j ∧ p.val < I.no i) ⟨hq, hp⟩]
      rcases hij.lt_or_eq with hlt | rfl
      · rw [if_neg (c := j ≤ i) (by omega), Complex.conj_conj]
      · rw [if_pos (le_refl i), selfSum_conj hl hid hf hσ hc hi (hno i hi) (hpar i hi) (hs i hi) c hp hq]
    simp only [e1, e2]
    rw [blockSum_gen hI K hl hid hf hσ.orth hc hij hj (hno i hi) (hno j hj) hp hq]
    have e3 : ∀ a b : Fin 9, a.val < I.no i → b.val < I.no j → K.get st i j a b
        = (if i = j ∧ a = b then ((K.diag I i a : ℝ) : ℂ) else 0) + blockSum K I k l.zipIdx i j a b := by
      intro a b ha hb
      rw [getMatrices_closed h hl K hi hj]
      unfold finalBlock upperBlock
      rw [if_pos hij, if_pos ⟨ha, hb⟩]
    rw [gen_congr (hno i hi) (hno j hj) e3 hp hq, gen_add]
    by_cases hii : i = j
    · subst hii
      have := gen_diag hI.skew (hsh i hi) hp hq
      simp only [true_and]
      rw [this, zero_add]
    · simp [hii, gen]
  rcases le_or_gt i j with hij | hij
  · exact hup hij hj hp hq
  · have h1 := congrArg (starRingEnd ℂ) (hup hij.le hi hq hp)
    rw [← gen_mirror] at h1
    simp only [map_add, map_sum, map_mul, Complex.conj_ofReal, Complex.conj_conj] at h1
    rw [add_comm, h1]
    refine gen_congr (hno i hi) (hno j hj) (fun a b ha hb => ?_) hp hq
    rw [getMatrices_closed h hl K hj hi, getMatrices_closed h hl K hi hj]
    unfold finalBlock
    rw [if_pos hij.le, if_neg (by omega)]

end Hotbit
