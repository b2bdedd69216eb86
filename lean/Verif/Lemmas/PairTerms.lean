import Verif.Spec.PairTerms
import Verif.Props.MatricesContainers
import Verif.Lemmas.PairSum
import Verif.Lemmas.MatricesVel
import Verif.Lemmas.Coulomb

/-!
# Sums over pairs of atoms and images
-/

set_option linter.unusedSimpArgs false

namespace Hotbit

open Matrix

theorem list_sum_perm_inv {α M : Type} [AddCommMonoid M] (l : List α) (σ : α → α) (hn : l.Nodup)
    (hm : ∀ n ∈ l, σ n ∈ l) (hi : ∀ n ∈ l, σ (σ n) = n) (F : α → M) :
    (l.map F).sum = (l.map fun n => F (σ n)).sum := by
  classical
  have h1 : (l.map σ).Nodup := by
    rw [List.nodup_map_iff_inj_on hn]
    intro x hx y hy hxy
    rw [← hi x hx, ← hi y hy, hxy]
  have h2 : (l.map σ).Perm l := by
    apply List.Subperm.perm_of_length_le
    · apply List.subperm_of_subset h1
      intro x hx
      obtain ⟨n, hn', rfl⟩ := List.mem_map.mp hx
      exact hm n hn'
    · simp
  have h3 := (h2.map F).sum_eq
  rw [List.map_map] at h3
  exact h3.symm

theorem foldl_add {α M : Type} [AddCommMonoid M] (l : List α) (g : α → M) (step : M → α → M)
    (h : ∀ e, ∀ x ∈ l, step e x = e + g x) (e : M) : l.foldl step e = e + (l.map g).sum := by
  induction l generalizing e with
  | nil => simp
  | cons x l ih =>
    rw [List.foldl_cons, h e x List.mem_cons_self, ih (fun e y hy => h e y (List.mem_cons_of_mem _ hy))]
    simp [add_assoc]

theorem foldlM_add {α M : Type} [AddCommMonoid M] (l : List α) (g : α → M) (step : M → α → Except Exn M)
    (h : ∀ e, ∀ x ∈ l, step e x = .ok (e + g x)) (e : M) :
    l.foldlM step e = .ok (e + (l.map g).sum) := by
  induction l generalizing e with
  | nil => simp [pure, Except.pure]
  | cons x l ih =>
    rw [List.foldlM_cons, h e x List.mem_cons_self]
    show l.foldlM step (e + g x) = _
    rw [ih (fun e y hy => h e y (List.mem_cons_of_mem _ hy))]
    simp [add_assoc]

/-- A fold that succeeds adds the terms of all steps that succeed. -/
theorem foldlM_add_of_ok {α M : Type} [AddCommMonoid M] (l : List α) (g : α → M)
    (step : M → α → Except Exn M) (h : ∀ e x e', step e x = .ok e' → e' = e + g x) (e e' : M)
    (hok : l.foldlM step e = .ok e') : e' = e + (l.map g).sum := by
  induction l generalizing e with
  | nil =>
    simp [pure, Except.pure] at hok
    simp [hok]
  | cons x l ih =>
    rw [List.foldlM_cons] at hok
    cases hs : step e x with
    | error y => rw [hs] at hok; simp [bind, Except.bind] at hok
    | ok e1 =>
      rw [hs] at hok
      have h1 := h _ _ _ hs
      have h2 := ih e1 hok
      rw [h2, h1]
      simp [add_assoc]

theorem zipIdx_sum {α M : Type} [AddCommMonoid M] [DecidableEq α] (z : α) (rest : List α) (hz : z ∉ rest)
    (F : α × ℕ → M) (g : α → M) (h0 : F (z, 0) = g z)
    (h : ∀ n m, n ≠ z → m ≠ 0 → F (n, m) = g n) :
    ((z :: rest).zipIdx.map F).sum = ((z :: rest).map g).sum := by
  rw [List.zipIdx_cons, List.map_cons, List.map_cons, List.sum_cons, List.sum_cons, h0]
  congr 1
  have : ∀ (l : List α) (k : ℕ), z ∉ l → k ≠ 0 → ((l.zipIdx k).map F).sum = (l.map g).sum := by
    intro l
    induction l with
    | nil => simp
    | cons x l ih =>
      intro k hx hk
      rw [List.zipIdx_cons, List.map_cons, List.map_cons, List.sum_cons, List.sum_cons,
        h x k (fun h => hx (h ▸ List.mem_cons_self)) hk,
        ih (k + 1) (fun h => hx (List.mem_cons_of_mem _ h)) (by omega)]
  exact this rest _ hz (by omega)

theorem range'_sum {M : Type} [AddCommMonoid M] (i N : ℕ) (f : ℕ → M) :
    ((List.range' i (N - i)).map f).sum = ∑ j ∈ Finset.Ico i N, f j := by
  rw [Finset.sum_Ico_eq_sum_range, List.range'_eq_map_range, List.map_map, ← list_range_sum]
  rfl

/-- Sum over the upper triangle of a symmetric array: diagonal once, off-diagonal half of both. -/
theorem triangle_sum (N : ℕ) (F : ℕ → ℕ → ℝ) (hs : ∀ i < N, ∀ j < N, i ≠ j → F i j = F j i) :
    ∑ i ∈ Finset.range N, ∑ j ∈ Finset.Ico i N, (if i = j then 1 / 2 * F i j else F i j)
      = 1 / 2 * ∑ i ∈ Finset.range N, ∑ j ∈ Finset.range N, F i j := by
  induction N with
  | zero => simp
  | succ N ih =>
    have ih' := ih fun i hi j hj => hs i (by omega) j (by omega)
    have e1 : ∑ i ∈ Finset.range N, ∑ j ∈ Finset.Ico i (N + 1), (if i = j then 1 / 2 * F i j else F i j)
        = ∑ i ∈ Finset.range N, (∑ j ∈ Finset.Ico i N, (if i = j then 1 / 2 * F i j else F i j) + F i N) := by
      refine Finset.sum_congr rfl fun i hi => ?_
      have hi' := Finset.mem_range.mp hi
      rw [Finset.sum_Ico_succ_top (by omega), if_neg (by omega)]
    rw [Finset.sum_range_succ, e1, Finset.sum_add_distrib, ih']
    have e2 : ∑ i ∈ Finset.range (N + 1), ∑ j ∈ Finset.range (N + 1), F i j
        = ∑ i ∈ Finset.range N, ∑ j ∈ Finset.range N, F i j + ∑ i ∈ Finset.range N, F i N
          + (∑ j ∈ Finset.range N, F N j + F N N) := by
      rw [Finset.sum_range_succ, Finset.sum_range_succ]
      congr 1
      rw [← Finset.sum_add_distrib]
      exact Finset.sum_congr rfl fun i _ => Finset.sum_range_succ _ _
    have e3 : ∑ j ∈ Finset.range N, F N j = ∑ i ∈ Finset.range N, F i N :=
      Finset.sum_congr rfl fun j hj => by
        have := Finset.mem_range.mp hj
        exact hs N (by omega) j (by omega) (by omega)
    rw [e2, e3]
    simp
    ring

variable {G : Geom} {σ : Op → Op}

theorem Geom.Inverse.sigma_zero (h : G.Inverse σ) {n : Op} (hn : n ∈ G.ntuples) : σ n = 0 ↔ n = 0 := by
  constructor
  · intro h0
    rw [← h.invol n hn, h0, h.zero]
  · rintro rfl; exact h.zero

theorem Geom.Inverse.norm (h : G.Inverse σ) {n : Op} (hn : n ∈ G.ntuples) {i j : ℕ} (hi : i < G.N)
    (hj : j < G.N) : norm3 (G.rij (σ n) j i) = norm3 (G.rij n i j) := by
  rw [h.pos n hn i hi j hj, norm3_neg, norm3_rot]
  rw [Matrix.transpose_transpose]
  exact mul_eq_one_comm.mp (h.orth n hn)

open Classical in
/-- Sums over images are the same seen from either atom. -/
theorem image_sum_swap (h : G.Inverse σ) {V : ℕ → ℕ → ℝ → ℝ} {i j : ℕ} (hi : i < G.N) (hj : j < G.N)
    (hV : ∀ d, V i j d = V j i d) :
    (G.ntuples.map fun n => if i = j ∧ n = 0 then 0 else V i j (norm3 (G.rij n i j))).sum
      = (G.ntuples.map fun n => if j = i ∧ n = 0 then 0 else V j i (norm3 (G.rij n j i))).sum := by
  rw [list_sum_perm_inv G.ntuples σ h.nodup h.mem h.invol
    (fun n => if j = i ∧ n = 0 then 0 else V j i (norm3 (G.rij n j i)))]
  congr 1
  refine List.map_congr_left fun n hn => ?_
  rw [h.norm hn hi hj, hV]
  simp only [h.sigma_zero hn, eq_comm (a := j) (b := i)]

theorem displace_rij (G : Geom) (a : ℕ) (v : Vec) (n : Op) (i j : ℕ) :
    (G.displace a v).rij n i j = G.rij n i j + ((if j = a then (G.rot n).mulVec v else 0)
      - (if i = a then (G.rot 0).mulVec v else 0)) := by
  unfold Geom.rij Geom.displace
  by_cases h1 : j = a <;> by_cases h2 : i = a <;> simp [h1, h2] <;> abel

theorem displace_inverse (h : G.Inverse σ) (a : ℕ) (v : Vec) : (G.displace a v).Inverse σ where
  idFirst := h.idFirst
  nodup := h.nodup
  mem := h.mem
  invol := h.invol
  zero := h.zero
  orth := h.orth
  rot := h.rot
  rot_zero := h.rot_zero
  pos := by
    intro n hn i hi j hj
    rw [displace_rij, displace_rij, h.pos n hn i hi j hj, Matrix.mulVec_add, neg_add]
    congr 1
    have hr : (G.displace a v).rot = G.rot := rfl
    rw [hr, h.rot n hn, h.rot_zero, Matrix.mulVec_sub]
    have ho := h.orth n hn
    by_cases h1 : j = a <;> by_cases h2 : i = a <;>
      simp [h1, h2, Matrix.mulVec_mulVec, ho]

/-- Derivative of one term along a displacement. -/
theorem term_deriv (F : ℝ → ℝ) (F' : ℝ) (u w : Vec) (hu : u ≠ 0) (hF : HasDerivAt F F' (norm3 u)) :
    HasDerivAt (fun t : ℝ => F (norm3 (u + t • w))) (F' * ((u ⬝ᵥ w) / norm3 u)) 0 := by
  have h1 := norm3_hasDerivAt u w hu
  have h2 : HasDerivAt F F' (norm3 (u + (0 : ℝ) • w)) := by simpa using hF
  rw [smul_dotProduct, smul_eq_mul, inv_mul_eq_div] at h1
  exact h2.comp (0 : ℝ) h1

/-- The central-force coefficient of an image. -/
noncomputable def coef (G : Geom) (V' : ℕ → ℕ → ℝ → ℝ) (n : Op) (i j : ℕ) : ℝ :=
  open Classical in if i = j ∧ n = 0 then 0 else V' i j (norm3 (G.rij n i j)) / norm3 (G.rij n i j)

theorem centralForce_coef (G : Geom) (V' : ℕ → ℕ → ℝ → ℝ) (i : ℕ) :
    centralForce G V' i = ∑ j ∈ Finset.range G.N, (G.ntuples.map fun n => coef G V' n i j • G.rij n i j).sum := by
  unfold centralForce coef
  refine Finset.sum_congr rfl fun j _ => ?_
  congr 1
  refine List.map_congr_left fun n _ => ?_
  split <;> simp

theorem list_sum_dot (l : List Op) (F : Op → Vec) (v : Vec) :
    (l.map F).sum ⬝ᵥ v = (l.map fun n => F n ⬝ᵥ v).sum := by
  induction l with
  | nil => simp
  | cons x l ih => simp [add_dotProduct, ih]

theorem list_sum_negR (l : List Op) (F : Op → ℝ) : (l.map fun n => - F n).sum = - (l.map F).sum := by
  induction l with
  | nil => simp
  | cons x l ih => simp [ih]; ring

theorem list_sum_subR (l : List Op) (F H : Op → ℝ) :
    (l.map fun n => F n - H n).sum = (l.map F).sum - (l.map H).sum := by
  induction l with
  | nil => simp
  | cons x l ih => simp [ih]; ring

/-- What is needed of the potentials at the distances that occur. -/
def SmoothAt (G : Geom) (V V' : ℕ → ℕ → ℝ → ℝ) : Prop :=
  ∀ i < G.N, ∀ j < G.N, ∀ n ∈ G.ntuples, ¬ (i = j ∧ n = 0) →
    G.rij n i j ≠ 0 ∧ HasDerivAt (V i j) (V' i j (norm3 (G.rij n i j))) (norm3 (G.rij n i j))

theorem coef_swap (h : G.Inverse σ) {V V' : ℕ → ℕ → ℝ → ℝ} (hV : ∀ i < G.N, ∀ j < G.N, V i j = V j i)
    (hs : SmoothAt G V V') {n : Op} (hn : n ∈ G.ntuples) {i j : ℕ} (hi : i < G.N) (hj : j < G.N) :
    coef G V' (σ n) j i = coef G V' n i j := by
  unfold coef
  rw [h.norm hn hi hj]
  simp only [h.sigma_zero hn, eq_comm (a := j) (b := i)]
  by_cases hc : i = j ∧ n = 0
  · rw [if_pos hc, if_pos hc]
  · rw [if_neg hc, if_neg hc]
    have h1 := (hs i hi j hj n hn hc).2
    have h2 := (hs j hj i hi (σ n) (h.mem n hn) (by
      rw [h.sigma_zero hn]; exact fun h => hc ⟨h.1.symm, h.2⟩)).2
    rw [h.norm hn hi hj, ← hV i hi j hj] at h2
    rw [h2.unique h1]

/-- The energy changes at minus the rate of the central force. -/
theorem cellEnergy_gradient (h : G.Inverse σ) {V V' : ℕ → ℕ → ℝ → ℝ}
    (hV : ∀ i < G.N, ∀ j < G.N, V i j = V j i) (hs : SmoothAt G V V') {a : ℕ} (ha : a < G.N) (v : Vec) :
    HasDerivAt (fun t : ℝ => cellEnergy (G.displace a (t • v)) V) (-(centralForce G V' a ⬝ᵥ v)) 0 := by
  classical
  let w : Op → ℕ → ℕ → Vec := fun n i j =>
    (if j = a then (G.rot n).mulVec v else 0) - (if i = a then v else 0)
  have hw : ∀ (t : ℝ) n i j, (G.displace a (t • v)).rij n i j = G.rij n i j + t • w n i j := by
    intro t n i j
    rw [displace_rij, h.rot_zero]
    congr 1
    simp only [w, smul_sub, Matrix.one_mulVec, Matrix.mulVec_smul]
    by_cases h1 : j = a <;> by_cases h2 : i = a <;> simp [h1, h2]
  have hterm : ∀ i < G.N, ∀ j < G.N, HasDerivAt (fun t : ℝ =>
      (G.ntuples.map fun n => if i = j ∧ n = 0 then 0 else
        V i j (norm3 ((G.displace a (t • v)).rij n i j))).sum)
      ((G.ntuples.map fun n => coef G V' n i j * (G.rij n i j ⬝ᵥ w n i j)).sum) 0 := by
    intro i hi j hj
    refine hasDerivAt_listSum G.ntuples
      (fun n t => if i = j ∧ n = 0 then 0 else V i j (norm3 ((G.displace a (t • v)).rij n i j)))
      (fun n => coef G V' n i j * (G.rij n i j ⬝ᵥ w n i j)) 0 ?_
    · intro n hn
      by_cases hc : i = j ∧ n = 0
      · simp only [hc, coef, and_self, if_true, zero_mul]
        exact hasDerivAt_const _ _
      · simp only [coef, hc, if_false]
        obtain ⟨h1, h2⟩ := hs i hi j hj n hn hc
        have h3 := term_deriv (V i j) _ (G.rij n i j) (w n i j) h1 h2
        simp only [hw]
        convert h3 using 1
        ring
  have hsum : HasDerivAt (fun t : ℝ => cellEnergy (G.displace a (t • v)) V)
      (1 / 2 * ∑ i ∈ Finset.range G.N, ∑ j ∈ Finset.range G.N,
        (G.ntuples.map fun n => coef G V' n i j * (G.rij n i j ⬝ᵥ w n i j)).sum) 0 := by
    unfold cellEnergy
    refine HasDerivAt.const_mul _ ?_
    show HasDerivAt (fun t : ℝ => ∑ i ∈ Finset.range G.N, ∑ j ∈ Finset.range G.N, (G.ntuples.map fun n =>
      if i = j ∧ n = 0 then 0 else V i j (norm3 ((G.displace a (t • v)).rij n i j))).sum) _ 0
    refine HasDerivAt.fun_sum fun i hi => ?_
    refine HasDerivAt.fun_sum fun j hj => ?_
    exact hterm i (Finset.mem_range.mp hi) j (Finset.mem_range.mp hj)
  convert hsum using 1
  have hsplit : ∀ i ∈ Finset.range G.N, ∀ j ∈ Finset.range G.N,
      (G.ntuples.map fun n => coef G V' n i j * (G.rij n i j ⬝ᵥ w n i j)).sum
      = (if j = a then - (G.ntuples.map fun n => (coef G V' n a i • G.rij n a i) ⬝ᵥ v).sum else 0)
        - (if i = a then (G.ntuples.map fun n => (coef G V' n a j • G.rij n a j) ⬝ᵥ v).sum else 0) := by
    intro i hi j hj
    have hi' := Finset.mem_range.mp hi
    have hj' := Finset.mem_range.mp hj
    have e : ∀ n, coef G V' n i j * (G.rij n i j ⬝ᵥ w n i j)
        = (if j = a then coef G V' n i j * (G.rij n i j ⬝ᵥ (G.rot n).mulVec v) else 0)
          - (if i = a then coef G V' n i j * (G.rij n i j ⬝ᵥ v) else 0) := by
      intro n
      simp only [w, dotProduct_sub]
      by_cases h1 : j = a <;> by_cases h2 : i = a <;> simp [h1, h2, mul_sub]
    simp only [e]
    rw [list_sum_subR]
    congr 1
    · by_cases h1 : j = a
      · subst h1
        simp only [if_true]
        rw [← list_sum_negR, list_sum_perm_inv G.ntuples σ h.nodup h.mem h.invol
          (fun n => -((coef G V' n j i • G.rij n j i) ⬝ᵥ v))]
        congr 1
        refine List.map_congr_left fun n hn => ?_
        rw [coef_swap h hV hs hn hi' hj', h.pos n hn i hi' j hj', smul_dotProduct, neg_dotProduct,
          smul_eq_mul, mul_neg, neg_neg, Matrix.dotProduct_mulVec, Matrix.mulVec_transpose]
      · simp [h1]
    · by_cases h2 : i = a
      · subst h2
        simp only [if_true, smul_dotProduct, smul_eq_mul]
      · simp [h2]
  rw [Finset.sum_congr rfl fun i hi => Finset.sum_congr rfl fun j hj => hsplit i hi j hj]
  simp only [Finset.sum_sub_distrib, Finset.sum_ite_eq', Finset.mem_range, ha, if_true]
  rw [Finset.sum_comm (f := fun i j => if i = a then _ else _)]
  simp only [Finset.sum_ite_eq', Finset.mem_range, ha, if_true]
  rw [centralForce_coef, sum_dotProduct]
  simp only [list_sum_dot, Finset.sum_neg_distrib]
  ring

/-- Forces sum to zero when the images are only translated copies (in particular without images). -/
theorem centralForce_sum (h : G.Inverse σ) {V V' : ℕ → ℕ → ℝ → ℝ}
    (hV : ∀ i < G.N, ∀ j < G.N, V i j = V j i) (hs : SmoothAt G V V')
    (hr : ∀ n ∈ G.ntuples, G.rot n = 1) : ∑ i ∈ Finset.range G.N, centralForce G V' i = 0 := by
  have key : ∑ i ∈ Finset.range G.N, centralForce G V' i = - ∑ i ∈ Finset.range G.N, centralForce G V' i := by
    simp only [centralForce_coef]
    rw [← Finset.sum_neg_distrib]
    conv_rhs => rw [← Finset.sum_congr rfl fun i _ => Finset.sum_neg_distrib _]
    rw [Finset.sum_comm]
    refine Finset.sum_congr rfl fun j hj => Finset.sum_congr rfl fun i hi => ?_
    rw [list_sum_perm_inv G.ntuples σ h.nodup h.mem h.invol (fun n => coef G V' n i j • G.rij n i j),
      ← list_sum_neg]
    congr 1
    refine List.map_congr_left fun n hn => ?_
    have hi' := Finset.mem_range.mp hi
    have hj' := Finset.mem_range.mp hj
    rw [coef_swap h hV hs hn hj' hi', h.pos n hn j hj' i hi', hr n hn]
    simp
  have := self_eq_neg.mp key
  exact this

end Hotbit
