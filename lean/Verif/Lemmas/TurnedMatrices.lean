import Verif.Lemmas.MatricesVel

/-!
# The matrices of a turned structure
-/

set_option linter.unusedSimpArgs false

namespace Hotbit

open Matrix

theorem dRep_mul (R Q : Mat) (hR : R.transpose * R = 1) (a c : Fin 5) :
    dRep (R * Q) a c = ∑ b, dRep R a b * dRep Q b c := by
  unfold dRep
  have h : (R * Q).transpose * quadOrb a * (R * Q)
      = ∑ b, dRep R a b • (Q.transpose * quadOrb b * Q) := by
    calc (R * Q).transpose * quadOrb a * (R * Q)
        = Q.transpose * (R.transpose * quadOrb a * R) * Q := by
          simp only [Matrix.transpose_mul, Matrix.mul_assoc]
      _ = _ := by
          rw [quad_conj R hR]
          simp only [Matrix.mul_sum, Matrix.sum_mul, Matrix.mul_smul, Matrix.smul_mul]
  rw [h, Matrix.sum_mul, Matrix.trace_sum, Finset.mul_sum]
  refine Finset.sum_congr rfl fun b _ => ?_
  rw [Matrix.smul_mul, Matrix.trace_smul, smul_eq_mul]
  unfold dRep
  ring

/-- The orbitals form a representation of the orthogonal matrices. -/
theorem orbRep_mul (R Q : Mat) (hR : R.transpose * R = 1) : orbRep (R * Q) = orbRep R * orbRep Q := by
  ext a b
  rw [Matrix.mul_apply, sum_fin9]
  rcases orb_cases a with rfl | ⟨i, rfl⟩ | ⟨i, rfl⟩ <;>
    rcases orb_cases b with rfl | ⟨j, rfl⟩ | ⟨j, rfl⟩
  all_goals simp only [orbRep_00, orbRep_0p, orbRep_0d, orbRep_p0, orbRep_d0, orbRep_pd, orbRep_dp,
    orbRep_pp, orbRep_dd, mul_zero, zero_mul, Finset.sum_const_zero, add_zero, zero_add, mul_one]
  · rw [Matrix.mul_apply]
  · exact dRep_mul R Q hR i j

theorem orbRep_tr (R : Mat) : orbRep R.transpose = (orbRep R).transpose := by
  ext a b
  exact orbRep_transpose R a b

theorem orbRep_orthT (R : Mat) (hR : R.transpose * R = 1) : (orbRep R).transpose * orbRep R = 1 :=
  mul_eq_one_comm.mp (orbRep_orth R hR)

theorem orbRep_conj (R Q : Mat) (hR : R.transpose * R = 1) (hQ : Q.transpose * Q = 1) :
    orbRep (R * Q * R.transpose) = orbRep R * orbRep Q * (orbRep R).transpose := by
  have : (R * Q).transpose * (R * Q) = 1 := by
    rw [Matrix.transpose_mul, Matrix.mul_assoc, ← Matrix.mul_assoc R.transpose, hR, Matrix.one_mul, hQ]
  rw [orbRep_mul _ _ this, orbRep_mul _ _ hR, orbRep_tr]

/-- A number of orbitals belongs to full shells. -/
theorem orbRep_shell {R : Mat} {no : ℕ} (hv : ValidNo no) {p a : Fin 9} (hp : p.val < no)
    (ha : ¬ a.val < no) : orbRep R p a = 0 := by
  apply orbRep_off
  intro he
  rcases hv with rfl | rfl | rfl <;> unfold orbL at he <;> split_ifs at he <;> omega

theorem orbRep_shell' {R : Mat} {no : ℕ} (hv : ValidNo no) {p a : Fin 9} (hp : ¬ p.val < no)
    (ha : a.val < no) : orbRep R p a = 0 := by
  apply orbRep_off
  intro he
  rcases hv with rfl | rfl | rfl <;> unfold orbL at he <;> split_ifs at he <;> omega

/-- `X'` is `X` with the orbitals turned by `R`. -/
def Cov (R : Mat) (X' X : Fin 9 → Fin 9 → ℂ) : Prop :=
  ∀ p q, X' p q = ∑ a, ∑ b, ((orbRep R p a * orbRep R q b : ℝ) : ℂ) * X a b

/-- The same for real blocks. -/
def CovR (R : Mat) (X' X : Fin 9 → Fin 9 → ℝ) : Prop :=
  Matrix.of X' = orbRep R * Matrix.of X * (orbRep R).transpose

theorem covR_iff {R : Mat} {X' X : Fin 9 → Fin 9 → ℝ} :
    CovR R X' X ↔ ∀ p q, X' p q = ∑ a, ∑ b, orbRep R p a * orbRep R q b * X a b := by
  have h : ∀ p q, (orbRep R * Matrix.of X * (orbRep R).transpose) p q
      = ∑ a, ∑ b, orbRep R p a * orbRep R q b * X a b := by
    intro p q
    simp only [Matrix.mul_apply, Matrix.transpose_apply, Matrix.of_apply, Finset.sum_mul]
    rw [Finset.sum_comm]
    exact Finset.sum_congr rfl fun a _ => Finset.sum_congr rfl fun b _ => by ring
  constructor
  · intro hc p q
    rw [← h, ← hc]
    rfl
  · intro hc
    ext p q
    rw [h]
    exact hc p q

theorem CovR.smul_phase {R : Mat} {X' X : Fin 9 → Fin 9 → ℝ} (h : CovR R X' X) (z : ℂ) :
    Cov R (fun p q => z * (X' p q : ℂ)) (fun p q => z * (X p q : ℂ)) := by
  intro p q
  dsimp only
  rw [covR_iff.mp h p q]
  push_cast
  rw [Finset.mul_sum]
  refine Finset.sum_congr rfl fun a _ => ?_
  rw [Finset.mul_sum]
  exact Finset.sum_congr rfl fun b _ => by ring

theorem Cov.zero (R : Mat) : Cov R (fun _ _ => 0) (fun _ _ => 0) := by
  intro p q
  simp

theorem Cov.add {R : Mat} {X' X Y' Y : Fin 9 → Fin 9 → ℂ} (h1 : Cov R X' X) (h2 : Cov R Y' Y) :
    Cov R (fun p q => X' p q + Y' p q) (fun p q => X p q + Y p q) := by
  intro p q
  simp only [h1 p q, h2 p q, mul_add, Finset.sum_add_distrib]

theorem Cov.list_sum {R : Mat} {ι : Type} (l : List ι) (F' F : ι → Fin 9 → Fin 9 → ℂ)
    (h : ∀ i ∈ l, Cov R (F' i) (F i)) :
    Cov R (fun p q => (l.map fun i => F' i p q).sum) (fun p q => (l.map fun i => F i p q).sum) := by
  induction l with
  | nil => simpa using Cov.zero R
  | cons a l ih =>
    simp only [List.map_cons, List.sum_cons]
    exact (h a (by simp)).add (ih fun i hi => h i (by simp [hi]))

theorem Cov.finset_sum {R : Mat} {ι : Type} (s : Finset ι) (F' F : ι → Fin 9 → Fin 9 → ℂ)
    (h : ∀ i ∈ s, Cov R (F' i) (F i)) :
    Cov R (fun p q => ∑ i ∈ s, F' i p q) (fun p q => ∑ i ∈ s, F i p q) := by
  classical
  induction s using Finset.induction_on with
  | empty => simpa using Cov.zero R
  | insert a s ha ih =>
    simp only [Finset.sum_insert ha]
    exact (h a (by simp)).add (ih fun i hi => h i (by simp [hi]))

theorem Cov.smul {R : Mat} {X' X : Fin 9 → Fin 9 → ℂ} (h : Cov R X' X) (z : ℂ) :
    Cov R (fun p q => z * X' p q) (fun p q => z * X p q) := by
  intro p q
  simp only [h p q, Finset.mul_sum]
  exact Finset.sum_congr rfl fun a _ => Finset.sum_congr rfl fun b _ => by ring

theorem Cov.mirror {R : Mat} {X' X : Fin 9 → Fin 9 → ℂ} (h : Cov R X' X) :
    Cov R (fun p q => starRingEnd ℂ (X' q p)) (fun p q => starRingEnd ℂ (X q p)) := by
  intro p q
  simp only [h q p, map_sum, map_mul, Complex.conj_ofReal]
  rw [Finset.sum_comm]
  refine Finset.sum_congr rfl fun a _ => Finset.sum_congr rfl fun b _ => ?_
  push_cast
  ring

/-- Only full shells matter. -/
theorem Cov.cut {R : Mat} {X' X : Fin 9 → Fin 9 → ℂ} {noi noj : ℕ} (hi : ValidNo noi)
    (hj : ValidNo noj)
    (h : ∀ p q : Fin 9, p.val < noi → q.val < noj →
      X' p q = ∑ a, ∑ b, ((orbRep R p a * orbRep R q b : ℝ) : ℂ) * X a b) :
    Cov R (fun p q => if p.val < noi ∧ q.val < noj then X' p q else 0)
      (fun p q => if p.val < noi ∧ q.val < noj then X p q else 0) := by
  intro p q
  dsimp only
  by_cases hpq : p.val < noi ∧ q.val < noj
  · rw [if_pos hpq, h p q hpq.1 hpq.2]
    refine Finset.sum_congr rfl fun a _ => Finset.sum_congr rfl fun b _ => ?_
    by_cases ha : a.val < noi
    · by_cases hb : b.val < noj
      · rw [if_pos ⟨ha, hb⟩]
      · rw [orbRep_shell hj hpq.2 hb]; simp
    · rw [orbRep_shell hi hpq.1 ha]; simp
  · rw [if_neg hpq]
    symm
    refine Finset.sum_eq_zero fun a _ => Finset.sum_eq_zero fun b _ => ?_
    by_cases hab : a.val < noi ∧ b.val < noj
    · by_cases hp : p.val < noi
      · rw [orbRep_shell' hj (fun hq => hpq ⟨hp, hq⟩) hab.2]; simp
      · rw [orbRep_shell' hi hp hab.1]; simp
    · rw [if_neg hab, mul_zero]

/-! ### One image -/

/-- The block of the C routine restricted to the orbitals that exist. -/
noncomputable def elemMat (J : SkJunk) (noi noj : ℕ) (H : ℝ → Fin 14 → ℝ) (x : Vec) : Fin 9 → Fin 9 → ℝ :=
  fun p q => if p.val < noi ∧ q.val < noj then elemAt J noi noj H x p q else 0

noncomputable def delemMat (J : SkJunk) (noi noj : ℕ) (H dH : ℝ → Fin 14 → ℝ) (x : Vec) (c : Fin 3) :
    Fin 9 → Fin 9 → ℝ :=
  fun p q => if p.val < noi ∧ q.val < noj then delemAt J noi noj H dH x p q c else 0

theorem covR_cut {R : Mat} {X' X : Fin 9 → Fin 9 → ℝ} {noi noj : ℕ} (hi : ValidNo noi)
    (hj : ValidNo noj)
    (h : ∀ p q : Fin 9, p.val < noi → q.val < noj →
      X' p q = ∑ a, ∑ b, orbRep R p a * orbRep R q b * X a b) :
    CovR R (fun p q => if p.val < noi ∧ q.val < noj then X' p q else 0)
      (fun p q => if p.val < noi ∧ q.val < noj then X p q else 0) := by
  rw [covR_iff]
  intro p q
  by_cases hpq : p.val < noi ∧ q.val < noj
  · rw [if_pos hpq, h p q hpq.1 hpq.2]
    refine Finset.sum_congr rfl fun a _ => Finset.sum_congr rfl fun b _ => ?_
    by_cases ha : a.val < noi
    · by_cases hb : b.val < noj
      · rw [if_pos ⟨ha, hb⟩]
      · rw [orbRep_shell hj hpq.2 hb]; simp
    · rw [orbRep_shell hi hpq.1 ha]; simp
  · rw [if_neg hpq]
    symm
    refine Finset.sum_eq_zero fun a _ => Finset.sum_eq_zero fun b _ => ?_
    by_cases hab : a.val < noi ∧ b.val < noj
    · by_cases hp : p.val < noi
      · rw [orbRep_shell' hj (fun hq => hpq ⟨hp, hq⟩) hab.2]; simp
      · rw [orbRep_shell' hi hp hab.1]; simp
    · rw [if_neg hab, mul_zero]

theorem mulVec_ne {R : Mat} (hR : R.transpose * R = 1) {x : Vec} (hx : x ≠ 0) : R *ᵥ x ≠ 0 := by
  intro h
  apply hx
  have := congrArg (fun y => R.transpose *ᵥ y) h
  simpa [Matrix.mulVec_mulVec, hR] using this

theorem elemAt_turn (J : SkJunk) {noi noj : ℕ} (hi : ValidNo noi) (hj : ValidNo noj)
    (H : ℝ → Fin 14 → ℝ) {R : Mat} (hR : R.transpose * R = 1) {x : Vec} (hx : x ≠ 0) {p q : Fin 9}
    (hp : p.val < noi) (hq : q.val < noj) :
    elemAt J noi noj H (R *ᵥ x) p q
      = ∑ a, ∑ b, orbRep R p a * orbRep R q b * elemAt J noi noj H x a b := by
  have hn : norm3 (R *ᵥ x) = norm3 x := norm3_rot hR x
  unfold elemAt
  rw [skElem_spec J _ (unit_dir (mulVec_ne hR hx)) hi hj _ hp hq, hn, ← Matrix.mulVec_smul,
    skSpec_rot _ R hR]
  refine Finset.sum_congr rfl fun a _ => Finset.sum_congr rfl fun b _ => ?_
  by_cases ha : a.val < noi
  · by_cases hb : b.val < noj
    · rw [skElem_spec J _ (unit_dir hx) hi hj _ ha hb]
    · rw [orbRep_shell hj hq hb]; simp
  · rw [orbRep_shell hi hp ha]; simp

theorem delemAt_turn (J : SkJunk) {noi noj : ℕ} (hi : ValidNo noi) (hj : ValidNo noj)
    (H dH : ℝ → Fin 14 → ℝ) {R : Mat} (hR : R.transpose * R = 1) {x : Vec} (hx : x ≠ 0) {p q : Fin 9}
    (hp : p.val < noi) (hq : q.val < noj) (c : Fin 3) :
    delemAt J noi noj H dH (R *ᵥ x) p q c
      = ∑ a, ∑ b, orbRep R p a * orbRep R q b * ∑ d, R c d * delemAt J noi noj H dH x a b d := by
  have hn : norm3 (R *ᵥ x) = norm3 x := norm3_rot hR x
  have hR' : R * R.transpose = 1 := mul_eq_one_comm.mp hR
  -- tables that are linear in the distance
  set H' : ℝ → Fin 14 → ℝ := fun d m => H (norm3 x) m + dH (norm3 x) m * (d - norm3 x) with hH'
  set dH' : ℝ → Fin 14 → ℝ := fun _ m => dH (norm3 x) m with hdH'
  have e0 : H' (norm3 x) = H (norm3 x) := by funext m; simp [hH']
  have h1 : ∀ a b d, delemAt J noi noj H dH x a b d = delemAt J noi noj H' dH' x a b d := by
    intro a b d
    unfold delemAt
    rw [e0]
  have h2 : ∀ a b d, delemAt J noi noj H dH (R *ᵥ x) a b d = delemAt J noi noj H' dH' (R *ᵥ x) a b d := by
    intro a b d
    unfold delemAt
    rw [hn, e0]
  have hder : ∀ m, HasDerivAt (fun d => H' d m) (dH' (norm3 x) m) (norm3 x) := by
    intro m
    have := (((hasDerivAt_id (norm3 x)).sub_const (norm3 x)).const_mul (dH (norm3 x) m)).const_add
      (H (norm3 x) m)
    simpa [hH', hdH'] using this
  set w : Vec := R.transpose *ᵥ Pi.single c 1 with hw
  have hRw : R *ᵥ w = Pi.single c 1 := by
    rw [hw, Matrix.mulVec_mulVec, hR', Matrix.one_mulVec]
  have hwd : ∀ d, w d = R c d := by
    intro d
    rw [hw, single_mulVec, Matrix.transpose_apply]
  have hL := elemAt_hasDerivAt J hi hj H' dH' (R *ᵥ x) (R *ᵥ w) (mulVec_ne hR hx)
    (by rw [hn]; exact hder) p q hp hq
  have hRt : HasDerivAt (fun t : ℝ => ∑ a : Fin 9, ∑ b : Fin 9, (if a.val < noi ∧ b.val < noj then
      orbRep R p a * orbRep R q b * elemAt J noi noj H' (x + t • w) a b else 0))
      (∑ a : Fin 9, ∑ b : Fin 9, if a.val < noi ∧ b.val < noj then orbRep R p a * orbRep R q b
        * ∑ d, w d * delemAt J noi noj H' dH' x a b d else 0) 0 := by
    refine HasDerivAt.fun_sum fun a _ => HasDerivAt.fun_sum fun b _ => ?_
    by_cases hab : a.val < noi ∧ b.val < noj
    · simp only [if_pos hab]
      exact (elemAt_hasDerivAt J hi hj H' dH' x w hx hder a b hab.1 hab.2).const_mul _
    · simp only [if_neg hab]
      exact hasDerivAt_const _ _
  have hev : ∀ᶠ t : ℝ in nhds 0, (x + t • w : Vec) ≠ 0 := by
    have hnn := (norm3_pos hx).ne'
    have hc := (norm3_hasDerivAt x w hx).continuousAt
    have : ∀ᶠ t : ℝ in nhds 0, norm3 (x + t • w) ≠ 0 := hc.eventually_ne (by simpa using hnn)
    filter_upwards [this] with t ht h0
    rw [h0] at ht
    exact ht (norm3_eq_zero.2 rfl)
  have hcut : ∀ (F : Fin 9 → Fin 9 → ℝ), (∑ a : Fin 9, ∑ b : Fin 9, orbRep R p a * orbRep R q b * F a b)
      = ∑ a : Fin 9, ∑ b : Fin 9, if a.val < noi ∧ b.val < noj then
          orbRep R p a * orbRep R q b * F a b else 0 := by
    intro F
    refine Finset.sum_congr rfl fun a _ => Finset.sum_congr rfl fun b _ => ?_
    by_cases ha : a.val < noi
    · by_cases hb : b.val < noj
      · rw [if_pos ⟨ha, hb⟩]
      · rw [orbRep_shell hj hq hb]; simp
    · rw [orbRep_shell hi hp ha]; simp
  have heq : (fun t : ℝ => elemAt J noi noj H' (R *ᵥ x + t • R *ᵥ w) p q) =ᶠ[nhds 0]
      fun t : ℝ => ∑ a : Fin 9, ∑ b : Fin 9, if a.val < noi ∧ b.val < noj then
        orbRep R p a * orbRep R q b * elemAt J noi noj H' (x + t • w) a b else 0 := by
    filter_upwards [hev] with t ht
    rw [← Matrix.mulVec_smul, ← Matrix.mulVec_add, elemAt_turn J hi hj H' hR ht hp hq, hcut]
  have huniq := hL.unique (hRt.congr_of_eventuallyEq heq)
  rw [hRw] at huniq
  have hsum : (∑ e, (Pi.single c 1 : Vec) e * delemAt J noi noj H' dH' (R *ᵥ x) p q e)
      = delemAt J noi noj H' dH' (R *ᵥ x) p q c := by
    simp [Pi.single_apply]
  rw [hsum] at huniq
  rw [h2, huniq, ← hcut]
  refine Finset.sum_congr rfl fun a _ => Finset.sum_congr rfl fun b _ => ?_
  congr 1
  refine Finset.sum_congr rfl fun d _ => ?_
  rw [hwd, h1]

theorem elemMat_turn (J : SkJunk) {noi noj : ℕ} (hi : ValidNo noi) (hj : ValidNo noj)
    (H : ℝ → Fin 14 → ℝ) {R : Mat} (hR : R.transpose * R = 1) {x : Vec} (hx : x ≠ 0) :
    CovR R (elemMat J noi noj H (R *ᵥ x)) (elemMat J noi noj H x) :=
  covR_cut hi hj fun _ _ hp hq => elemAt_turn J hi hj H hR hx hp hq

theorem delemMat_turn (J : SkJunk) {noi noj : ℕ} (hi : ValidNo noi) (hj : ValidNo noj)
    (H dH : ℝ → Fin 14 → ℝ) {R : Mat} (hR : R.transpose * R = 1) {x : Vec} (hx : x ≠ 0) (c : Fin 3) :
    CovR R (delemMat J noi noj H dH (R *ᵥ x) c)
      (fun p q => ∑ d, R c d * delemMat J noi noj H dH x d p q) := by
  have h := covR_cut (R := R) (X' := fun p q => delemAt J noi noj H dH (R *ᵥ x) p q c)
    (X := fun p q => ∑ d, R c d * delemAt J noi noj H dH x p q d) hi hj
    fun _ _ hp hq => delemAt_turn J hi hj H dH hR hx hp hq c
  have e : (fun p q => ∑ d, R c d * delemMat J noi noj H dH x d p q)
      = fun p q : Fin 9 => if p.val < noi ∧ q.val < noj then
        ∑ d, R c d * delemAt J noi noj H dH x p q d else 0 := by
    funext p q
    by_cases h : p.val < noi ∧ q.val < noj
    · simp [delemMat, h]
    · simp [delemMat, h]
  rw [e]
  exact h

/-- Multiplication with the orbitals of the image. -/
theorem dotDT_turn {R Q : Mat} (hR : R.transpose * R = 1) (hQ : Q.transpose * Q = 1) {noi noj : ℕ}
    (hj : ValidNo noj) {B' B : Fin 9 → Fin 9 → ℝ}
    (hB : CovR R (fun p q => if p.val < noi ∧ q.val < noj then B' p q else 0)
      (fun p q => if p.val < noi ∧ q.val < noj then B p q else 0))
    {D' D : Matrix (Fin 9) (Fin 9) ℝ}
    (hD' : ∀ a b : Fin 9, a.val < noj → b.val < noj → D' a b = orbRep (R * Q * R.transpose) a b)
    (hD : ∀ a b : Fin 9, a.val < noj → b.val < noj → D a b = orbRep Q a b) :
    CovR R (fun p q => if p.val < noi ∧ q.val < noj then dotDT noj B' D' p q else 0)
      (fun p q => if p.val < noi ∧ q.val < noj then dotDT noj B D p q else 0) := by
  have key : ∀ (M : Mat) (X : Fin 9 → Fin 9 → ℝ) (E : Matrix (Fin 9) (Fin 9) ℝ),
      (∀ a b : Fin 9, a.val < noj → b.val < noj → E a b = orbRep M a b) →
      (Matrix.of fun p q : Fin 9 => if p.val < noi ∧ q.val < noj then dotDT noj X E p q else 0)
        = (Matrix.of fun p q : Fin 9 => if p.val < noi ∧ q.val < noj then X p q else 0) * orbRep M := by
    intro M X E hE
    ext p q
    rw [Matrix.mul_apply, Matrix.of_apply]
    by_cases hp : p.val < noi
    · by_cases hq : q.val < noj
      · rw [if_pos ⟨hp, hq⟩, dotDT, Finset.sum_filter]
        refine Finset.sum_congr rfl fun y _ => ?_
        rw [Matrix.of_apply]
        by_cases hy : y.val < noj
        · rw [if_pos hy, if_pos ⟨hp, hy⟩, hE y q hy hq]
        · rw [if_neg hy, if_neg (fun h => hy h.2), zero_mul]
      · rw [if_neg (fun h => hq h.2)]
        symm
        refine Finset.sum_eq_zero fun y _ => ?_
        rw [Matrix.of_apply]
        by_cases hy : y.val < noj
        · rw [orbRep_shell hj hy hq, mul_zero]
        · rw [if_neg (fun h => hy h.2), zero_mul]
    · rw [if_neg (fun h => hp h.1)]
      symm
      refine Finset.sum_eq_zero fun y _ => ?_
      rw [Matrix.of_apply, if_neg (fun h => hp h.1), zero_mul]
  unfold CovR at hB ⊢
  rw [key _ _ _ hD', key _ _ _ hD, hB, orbRep_conj R Q hR hQ]
  simp only [Matrix.mul_assoc]
  rw [← Matrix.mul_assoc (orbRep R).transpose (orbRep R), orbRep_orthT R hR, Matrix.one_mul]

end Hotbit
