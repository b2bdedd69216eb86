import Verif.Lemmas.TurnedMatrices

/-!
# The matrices of a turned structure, continued
-/

set_option linter.unusedSimpArgs false

namespace Hotbit

open Matrix

/-- The input of `get_matrices` when everything is turned by `R`. -/
structure MatTurned (I I' : MatIn) (R : Mat) : Prop where
  orth : R.transpose * R = 1
  N : I'.N = I.N
  no : I'.no = I.no
  eps : I'.eps = I.eps
  sym : I'.sym = I.sym
  seps : I'.seps = I.seps
  ntuples : I'.ntuples = I.ntuples
  tab : I'.tab = I.tab
  J : I'.J = I.J
  rotOrth : ∀ n ∈ I.ntuples, (I.rot n).transpose * I.rot n = 1
  rot : ∀ n ∈ I.ntuples, I'.rot n = R * I.rot n * R.transpose
  rij : ∀ n ∈ I.ntuples, ∀ i < I.N, ∀ j < I.N, I'.rij n i j = R *ᵥ I.rij n i j

/-- The transformation of the orbitals used for an operation. -/
noncomputable def dOf (I : MatIn) (n : Op) : Matrix (Fin 9) (Fin 9) ℝ :=
  match rotationTransformation (I.rot n) (I.angles n) (HasD I) with
  | .ok D => D
  | .error _ => 0

/-- The image counts and lies in the range of the table. -/
def Act (I : MatIn) (i j : ℕ) (n : Op) : Prop :=
  ¬ (i = j ∧ n = 0) ∧ (I.tab (I.sym i) (I.sym j)).r1 ≤ norm3 (I.rij n i j) ∧
    norm3 (I.rij n i j) ≤ (I.tab (I.sym i) (I.sym j)).r2

open Classical in
theorem sum_images {I : MatIn} {l : List (Op × Matrix (Fin 9) (Fin 9) ℝ)} (hl : I.transforms = .ok l)
    (hid : IdFirst I) (i j : ℕ) (Φ : Op × Matrix (Fin 9) (Fin 9) ℝ → ℂ) :
    (l.zipIdx.map fun im : Im => if Active I i j im then Φ im.1 else 0).sum
      = (I.ntuples.map fun n => if Act I i j n then Φ (n, dOf I n) else 0).sum := by
  obtain ⟨hlen, hget⟩ := transforms_get hl
  refine sum_zipIdx hlen _ _ fun m h1 h2 => ?_
  obtain ⟨g1, g2⟩ := hget m h1 h2
  have hiff : Active I i j (l[m], m) ↔ Act I i j I.ntuples[m] := by
    unfold Active Counts InRange Act
    simp only [g1, idFirst_get hid m h1]
  have hd : dOf I I.ntuples[m] = l[m].2 := by
    unfold dOf
    rw [g2]
  have he : l[m] = (I.ntuples[m], dOf I I.ntuples[m]) := Prod.ext g1 hd.symm
  simp only [hiff]
  by_cases ha : Act I i j I.ntuples[m]
  · rw [if_pos ha, if_pos ha, ← he]
  · rw [if_neg ha, if_neg ha]

namespace MatTurned

variable {I I' : MatIn} {R : Mat} (T : MatTurned I I' R)
include T

theorem act_iff {i j : ℕ} (hi : i < I.N) (hj : j < I.N) {n : Op} (hn : n ∈ I.ntuples) :
    Act I' i j n ↔ Act I i j n := by
  unfold Act
  rw [T.tab, T.sym, T.rij n hn i hi j hj, norm3_rot T.orth]

theorem idFirst (h : IdFirst I) : IdFirst I' := by
  unfold IdFirst
  rw [T.ntuples]
  exact h

theorem hasD : HasD I' ↔ HasD I := by
  unfold HasD
  rw [T.N, T.no]

theorem notTooClose : NotTooClose I' ↔ NotTooClose I := by
  unfold NotTooClose
  rw [T.N, T.ntuples]
  constructor
  · intro h i j hij hj n hn hne
    have := h i j hij hj n hn hne
    rwa [T.rij n hn i (by omega) j hj, norm3_rot T.orth] at this
  · intro h i j hij hj n hn hne
    rw [T.rij n hn i (by omega) j hj, norm3_rot T.orth]
    exact h i j hij hj n hn hne

theorem dOf_spec (hf : OrbitalsFollow I) (hf' : OrbitalsFollow I') {n : Op} (hn : n ∈ I.ntuples) {j : ℕ}
    (hj : j < I.N) (hv : ValidNo (I.no j)) :
    (∀ a b : Fin 9, a.val < I.no j → b.val < I.no j →
      dOf I' n a b = orbRep (R * I.rot n * R.transpose) a b) ∧
    ∀ a b : Fin 9, a.val < I.no j → b.val < I.no j → dOf I n a b = orbRep (I.rot n) a b := by
  constructor
  · intro a b ha hb
    obtain ⟨D, h1, h2⟩ := hf' n (by rw [T.ntuples]; exact hn)
    unfold dOf
    rw [h1]
    dsimp only
    rw [h2 a b (by rw [T.hasD]; exact follow_range hj hv ha hb), T.rot n hn]
  · intro a b ha hb
    obtain ⟨D, h1, h2⟩ := hf n hn
    unfold dOf
    rw [h1]
    exact h2 a b (follow_range hj hv ha hb)

/-- One image of the matrices. -/
theorem block (hf : OrbitalsFollow I) (hf' : OrbitalsFollow I') {n : Op} (hn : n ∈ I.ntuples) {i j : ℕ}
    (hi : i < I.N) (hj : j < I.N) (hvi : ValidNo (I.no i)) (hvj : ValidNo (I.no j))
    (hx : I.rij n i j ≠ 0) (f df : SkTable → ℝ → Fin 14 → ℝ) (m : ℕ) :
    CovR R
      (fun p q => if p.val < I.no i ∧ q.val < I.no j then
        (skBlock I' f df i j ((n, dOf I' n), m)).1 p q else 0)
      (fun p q => if p.val < I.no i ∧ q.val < I.no j then
        (skBlock I f df i j ((n, dOf I n), m)).1 p q else 0) := by
  obtain ⟨d1, d2⟩ := T.dOf_spec hf hf' hn hj hvj
  have e : (fun p q : Fin 9 => if p.val < I.no i ∧ q.val < I.no j then
        (skBlock I' f df i j ((n, dOf I' n), m)).1 p q else 0)
      = fun p q => if p.val < I.no i ∧ q.val < I.no j then dotDT (I.no j)
        (elemAt I.J (I.no i) (I.no j) (f (I.tab (I.sym i) (I.sym j))) (R *ᵥ I.rij n i j)) (dOf I' n) p q
        else 0 := by
    funext p q
    rw [skBlock_fst]
    unfold blkAt
    dsimp only
    rw [T.rij n hn i hi j hj, T.J, T.no, T.tab, T.sym]
  rw [e]
  exact dotDT_turn T.orth (T.rotOrth n hn) hvj (elemMat_turn I.J hvi hvj _ T.orth hx) d1 d2

theorem dblock (hf : OrbitalsFollow I) (hf' : OrbitalsFollow I') {n : Op} (hn : n ∈ I.ntuples) {i j : ℕ}
    (hi : i < I.N) (hj : j < I.N) (hvi : ValidNo (I.no i)) (hvj : ValidNo (I.no j))
    (hx : I.rij n i j ≠ 0) (f df : SkTable → ℝ → Fin 14 → ℝ) (m : ℕ) (c : Fin 3) :
    CovR R
      (fun p q => if p.val < I.no i ∧ q.val < I.no j then
        (skBlock I' f df i j ((n, dOf I' n), m)).2 c p q else 0)
      (fun p q => if p.val < I.no i ∧ q.val < I.no j then
        ∑ d, R c d * (skBlock I f df i j ((n, dOf I n), m)).2 d p q else 0) := by
  obtain ⟨d1, d2⟩ := T.dOf_spec hf hf' hn hj hvj
  have e : (fun p q : Fin 9 => if p.val < I.no i ∧ q.val < I.no j then
        (skBlock I' f df i j ((n, dOf I' n), m)).2 c p q else 0)
      = fun p q => if p.val < I.no i ∧ q.val < I.no j then dotDT (I.no j)
        (fun p q => delemAt I.J (I.no i) (I.no j) (f (I.tab (I.sym i) (I.sym j)))
          (df (I.tab (I.sym i) (I.sym j))) (R *ᵥ I.rij n i j) p q c) (dOf I' n) p q
        else 0 := by
    funext p q
    rw [skBlock_snd]
    unfold dblkAt
    dsimp only
    rw [T.rij n hn i hi j hj, T.J, T.no, T.tab, T.sym]
  have e2 : (fun p q : Fin 9 => if p.val < I.no i ∧ q.val < I.no j then
        ∑ d, R c d * (skBlock I f df i j ((n, dOf I n), m)).2 d p q else 0)
      = fun p q => if p.val < I.no i ∧ q.val < I.no j then dotDT (I.no j)
        (fun p q => ∑ d, R c d * delemAt I.J (I.no i) (I.no j) (f (I.tab (I.sym i) (I.sym j)))
          (df (I.tab (I.sym i) (I.sym j))) (I.rij n i j) p q d) (dOf I n) p q
        else 0 := by
    funext p q
    by_cases hpq : p.val < I.no i ∧ q.val < I.no j
    · rw [if_pos hpq, if_pos hpq]
      simp only [skBlock_snd, dblkAt, dotDT, Finset.mul_sum, Finset.sum_mul]
      rw [Finset.sum_comm]
      exact Finset.sum_congr rfl fun y _ => Finset.sum_congr rfl fun d _ => by ring
    · rw [if_neg hpq, if_neg hpq]
  rw [e, e2]
  refine dotDT_turn T.orth (T.rotOrth n hn) hvj ?_ d1 d2
  have h := delemMat_turn I.J hvi hvj (f (I.tab (I.sym i) (I.sym j))) (df (I.tab (I.sym i) (I.sym j)))
    T.orth hx c
  have e3 : (fun p q : Fin 9 => if p.val < I.no i ∧ q.val < I.no j then
        ∑ d, R c d * delemAt I.J (I.no i) (I.no j) (f (I.tab (I.sym i) (I.sym j)))
          (df (I.tab (I.sym i) (I.sym j))) (I.rij n i j) p q d else 0)
      = fun p q => ∑ d, R c d * delemMat I.J (I.no i) (I.no j) (f (I.tab (I.sym i) (I.sym j)))
          (df (I.tab (I.sym i) (I.sym j))) (I.rij n i j) d p q := by
    funext p q
    by_cases hpq : p.val < I.no i ∧ q.val < I.no j
    · simp [delemMat, hpq]
    · simp [delemMat, hpq]
  rw [e3]
  exact h

end MatTurned

/-- Covariance of a sum over images. -/
theorem cov_images {R : Mat} (ns : List Op) (k : Vec) (P' P : Op → Prop) (B' B : Op → Fin 9 → Fin 9 → ℝ)
    {noi noj : ℕ} (hP : ∀ n ∈ ns, (P' n ↔ P n))
    (hB : ∀ n ∈ ns, P n → CovR R (fun p q => if p.val < noi ∧ q.val < noj then B' n p q else 0)
      (fun p q => if p.val < noi ∧ q.val < noj then B n p q else 0)) :
    open Classical in
    Cov R (fun p q => if p.val < noi ∧ q.val < noj then
        (ns.map fun n => if P' n then blochPhase k n * (B' n p q : ℂ) else 0).sum else 0)
      (fun p q => if p.val < noi ∧ q.val < noj then
        (ns.map fun n => if P n then blochPhase k n * (B n p q : ℂ) else 0).sum else 0) := by
  classical
  have e : ∀ (Q : Op → Prop) (C : Op → Fin 9 → Fin 9 → ℝ),
      (fun p q : Fin 9 => if p.val < noi ∧ q.val < noj then
        (ns.map fun n => if Q n then blochPhase k n * (C n p q : ℂ) else 0).sum else 0)
      = fun p q : Fin 9 => (ns.map fun n => if Q n then blochPhase k n *
          ((if p.val < noi ∧ q.val < noj then C n p q else 0 : ℝ) : ℂ) else 0).sum := by
    intro Q C
    funext p q
    by_cases hpq : p.val < noi ∧ q.val < noj
    · simp [hpq]
    · simp [hpq]
  rw [e, e]
  refine Cov.list_sum ns (fun n p q => if P' n then blochPhase k n *
          ((if p.val < noi ∧ q.val < noj then B' n p q else 0 : ℝ) : ℂ) else 0)
    (fun n p q => if P n then blochPhase k n *
          ((if p.val < noi ∧ q.val < noj then B n p q else 0 : ℝ) : ℂ) else 0) ?_
  intro n hn
  by_cases h : P n
  · simp only [(hP n hn).mpr h, h, if_true]
    exact (hB n hn h).smul_phase _
  · have h' : ¬ P' n := fun h' => h ((hP n hn).mp h')
    simp only [h', h, if_false]
    exact Cov.zero R

/-- All orbitals of a shell have the same energy. -/
def ShellDiag (d : Fin 9 → ℝ) (no : ℕ) : Prop :=
  ∀ a b : Fin 9, a.val < no → b.val < no → orbL a = orbL b → d a = d b

theorem cov_diag {R : Mat} (hR : R.transpose * R = 1) {d : Fin 9 → ℝ} {no : ℕ} (hv : ValidNo no)
    (h : ShellDiag d no) :
    Cov R (fun p q : Fin 9 => if p.val < no ∧ q.val < no then (if p = q then (d p : ℂ) else 0) else 0)
      (fun p q : Fin 9 => if p.val < no ∧ q.val < no then (if p = q then (d p : ℂ) else 0) else 0) := by
  refine Cov.cut hv hv fun p q hp hq => ?_
  have h1 : (∑ a, ∑ b, ((orbRep R p a * orbRep R q b : ℝ) : ℂ) * (if a = b then (d a : ℂ) else 0))
      = ((∑ a, orbRep R p a * orbRep R q a * d a : ℝ) : ℂ) := by
    push_cast
    refine Finset.sum_congr rfl fun a _ => ?_
    simp
  have h2 : (∑ a, orbRep R p a * orbRep R q a * d a) = (∑ a, orbRep R p a * orbRep R q a) * d p := by
    rw [Finset.sum_mul]
    refine Finset.sum_congr rfl fun a _ => ?_
    by_cases hl : orbL p = orbL a
    · by_cases ha : a.val < no
      · rw [h p a hp ha hl]
      · rw [orbRep_shell hv hp ha]; simp
    · rw [orbRep_off _ _ _ hl]; simp
  have h3 : (∑ a, orbRep R p a * orbRep R q a) = if p = q then 1 else 0 := by
    have := congrFun (congrFun (orbRep_orth R hR) p) q
    rw [Matrix.mul_apply, Matrix.one_apply] at this
    exact this
  rw [h1, h2, h3]
  by_cases hpq : p = q <;> simp [hpq]

namespace MatTurned

variable {I I' : MatIn} {R : Mat} (T : MatTurned I I' R)
include T

/-- The matrices turn along. -/
theorem get_cov {k : Vec} {st st' : MatSt} (h : getMatrices I k = .ok st)
    (h' : getMatrices I' k = .ok st') (hid : IdFirst I) (hf : OrbitalsFollow I) (hf' : OrbitalsFollow I')
    (hno : ∀ i < I.N, ValidNo (I.no i)) (K : Comp)
    (hsh : ∀ i < I.N, ShellDiag (K.diag I i) (I.no i)) {i j : ℕ} (hi : i < I.N) (hj : j < I.N) :
    Cov R (K.get st' i j) (K.get st i j) := by
  classical
  obtain ⟨l, hl, -, hok⟩ := getMatrices_ok h
  obtain ⟨l', hl', -, -⟩ := getMatrices_ok h'
  have hcl := notTooClose_of_ok h hid hno hf
  have hup : ∀ i j, i ≤ j → j < I.N →
      Cov R (upperBlock K I' k l'.zipIdx i j) (upperBlock K I k l.zipIdx i j) := by
    intro i j hij hj
    have hdiag : K.diag I' i = K.diag I i := by
      cases K
      · show I'.eps i = I.eps i
        rw [T.eps]
      · show (fun _ => 1 + I'.seps) = fun _ => 1 + I.seps
        rw [T.seps]
    have e1 : upperBlock K I k l.zipIdx i j = fun p q =>
        (if p.val < I.no i ∧ q.val < I.no j then (if i = j ∧ p = q then ((K.diag I i p : ℝ) : ℂ) else 0)
          else 0)
        + (if p.val < I.no i ∧ q.val < I.no j then (I.ntuples.map fun n => if Act I i j n then
          blochPhase k n * ((skBlock I K.f K.df i j ((n, dOf I n), 0)).1 p q : ℂ) else 0).sum else 0) := by
      funext p q
      have hs : blockSum K I k l.zipIdx i j p q = _ := sum_images hl hid i j
        fun im => blochPhase k im.1 * ((skBlock I K.f K.df i j (im, 0)).1 p q : ℂ)
      unfold upperBlock
      rw [hs]
      by_cases hpq : p.val < I.no i ∧ q.val < I.no j <;> simp [hpq]
    have e2 : upperBlock K I' k l'.zipIdx i j = fun p q =>
        (if p.val < I.no i ∧ q.val < I.no j then (if i = j ∧ p = q then ((K.diag I i p : ℝ) : ℂ) else 0)
          else 0)
        + (if p.val < I.no i ∧ q.val < I.no j then (I.ntuples.map fun n => if Act I' i j n then
          blochPhase k n * ((skBlock I' K.f K.df i j ((n, dOf I' n), 0)).1 p q : ℂ) else 0).sum
          else 0) := by
      funext p q
      have hs : blockSum K I' k l'.zipIdx i j p q = _ := sum_images hl' (T.idFirst hid) i j
        fun im => blochPhase k im.1 * ((skBlock I' K.f K.df i j (im, 0)).1 p q : ℂ)
      unfold upperBlock
      rw [hs, T.no, T.ntuples, hdiag]
      by_cases hpq : p.val < I.no i ∧ q.val < I.no j <;> simp [hpq]
    rw [e1, e2]
    refine Cov.add ?_ ?_
    · by_cases hii : i = j
      · subst hii
        simpa using cov_diag T.orth (hno i hj) (hsh i hj)
      · simpa [hii] using Cov.zero R
    · refine cov_images I.ntuples k _ _ _ _ (fun n hn => T.act_iff (by omega) hj hn) fun n hn ha => ?_
      exact T.block hf hf' hn (by omega) hj (hno i (by omega)) (hno j hj)
        (norm3_ne (hcl i j hij hj n hn ha.1)) _ _ _
  have hfun : K.get st' i j = finalBlock K I' k l'.zipIdx i j := by
    funext p q
    exact getMatrices_closed h' hl' K (by rw [T.N]; exact hi) (by rw [T.N]; exact hj) p q
  have hfun2 : K.get st i j = finalBlock K I k l.zipIdx i j := by
    funext p q
    exact getMatrices_closed h hl K hi hj p q
  rw [hfun, hfun2]
  by_cases hij : i ≤ j
  · have e1 : finalBlock K I k l.zipIdx i j = upperBlock K I k l.zipIdx i j := by
      funext p q; unfold finalBlock; rw [if_pos hij]
    have e2 : finalBlock K I' k l'.zipIdx i j = upperBlock K I' k l'.zipIdx i j := by
      funext p q; unfold finalBlock; rw [if_pos hij]
    rw [e1, e2]
    exact hup i j hij hj
  · have e1 : finalBlock K I k l.zipIdx i j
        = fun p q => starRingEnd ℂ (upperBlock K I k l.zipIdx j i q p) := by
      funext p q; unfold finalBlock; rw [if_neg hij]
    have e2 : finalBlock K I' k l'.zipIdx i j
        = fun p q => starRingEnd ℂ (upperBlock K I' k l'.zipIdx j i q p) := by
      funext p q; unfold finalBlock; rw [if_neg hij]
    rw [e1, e2]
    exact (hup j i (by omega) hi).mirror

/-- The derivatives turn along, also as vectors. -/
theorem getD_cov {k : Vec} {st st' : MatSt} (h : getMatrices I k = .ok st)
    (h' : getMatrices I' k = .ok st') (hid : IdFirst I) (hf : OrbitalsFollow I) (hf' : OrbitalsFollow I')
    (hno : ∀ i < I.N, ValidNo (I.no i)) (K : Comp) {i j : ℕ} (hi : i < I.N) (hj : j < I.N) (c : Fin 3) :
    Cov R (K.getD st' c i j) (fun p q => ∑ d, (R c d : ℂ) * K.getD st d i j p q) := by
  classical
  obtain ⟨l, hl, -, hok⟩ := getMatrices_ok h
  obtain ⟨l', hl', -, -⟩ := getMatrices_ok h'
  have hcl := notTooClose_of_ok h hid hno hf
  have hsumR : ∀ (F : Fin 3 → Op → Fin 9 → Fin 9 → ℝ) (i j : ℕ) (p q : Fin 9),
      (∑ d, (R c d : ℂ) * (I.ntuples.map fun n => if Act I i j n then
          blochPhase k n * (F d n p q : ℂ) else 0).sum)
      = (I.ntuples.map fun n => if Act I i j n then
          blochPhase k n * ((∑ d, R c d * F d n p q : ℝ) : ℂ) else 0).sum := by
    intro F i j p q
    induction I.ntuples with
    | nil => simp
    | cons a l ih =>
      simp only [List.map_cons, List.sum_cons, mul_add, Finset.sum_add_distrib]
      rw [ih]
      congr 1
      by_cases ha : Act I i j a
      · simp only [if_pos ha]
        push_cast
        rw [Finset.mul_sum]
        exact Finset.sum_congr rfl fun d _ => by ring
      · simp [if_neg ha]
  have hfun : K.getD st' c i j = finalD K I' k l'.zipIdx c i j := by
    funext p q
    exact getMatrices_closedD h' hl' K (by rw [T.N]; exact hi) (by rw [T.N]; exact hj) c p q
  have hfun2 : (fun p q => ∑ d, (R c d : ℂ) * K.getD st d i j p q)
      = fun p q => ∑ d, (R c d : ℂ) * finalD K I k l.zipIdx d i j p q := by
    funext p q
    exact Finset.sum_congr rfl fun d _ => by rw [getMatrices_closedD h hl K hi hj d p q]
  rw [hfun, hfun2]
  by_cases hij : i ≤ j
  · have e1 : (fun p q => ∑ d, (R c d : ℂ) * finalD K I k l.zipIdx d i j p q) = fun p q =>
        if p.val < I.no i ∧ q.val < I.no j then (I.ntuples.map fun n => if Act I i j n then
          blochPhase k n * ((∑ d, R c d * (-(skBlock I K.f K.df i j ((n, dOf I n), 0)).2 d p q) : ℝ) : ℂ)
          else 0).sum else 0 := by
      funext p q
      unfold finalD dBlockSum
      by_cases hpq : p.val < I.no i ∧ q.val < I.no j
      · simp only [if_pos hpq, if_pos hij]
        rw [← hsumR (fun d n p q => -(skBlock I K.f K.df i j ((n, dOf I n), 0)).2 d p q)]
        refine Finset.sum_congr rfl fun d _ => ?_
        congr 1
        exact sum_images hl hid i j
          fun im => blochPhase k im.1 * ((-(skBlock I K.f K.df i j (im, 0)).2 d p q : ℝ) : ℂ)
      · simp [hpq]
    have e2 : finalD K I' k l'.zipIdx c i j = fun p q =>
        if p.val < I.no i ∧ q.val < I.no j then (I.ntuples.map fun n => if Act I' i j n then
          blochPhase k n * ((-(skBlock I' K.f K.df i j ((n, dOf I' n), 0)).2 c p q : ℝ) : ℂ)
          else 0).sum else 0 := by
      funext p q
      unfold finalD dBlockSum
      rw [T.no]
      by_cases hpq : p.val < I.no i ∧ q.val < I.no j
      · simp only [if_pos hpq, if_pos hij]
        rw [← T.ntuples]
        exact sum_images hl' (T.idFirst hid) i j
          fun im => blochPhase k im.1 * ((-(skBlock I' K.f K.df i j (im, 0)).2 c p q : ℝ) : ℂ)
      · simp only [if_neg hpq]
    rw [e1, e2]
    refine cov_images I.ntuples k _ _
      (fun n p q => -(skBlock I' K.f K.df i j ((n, dOf I' n), 0)).2 c p q)
      (fun n p q => ∑ d, R c d * (-(skBlock I K.f K.df i j ((n, dOf I n), 0)).2 d p q))
      (fun n hn => T.act_iff hi hj hn) fun n hn ha => ?_
    have hb := T.dblock hf hf' hn hi hj (hno i hi) (hno j hj)
      (norm3_ne (hcl i j hij hj n hn ha.1)) K.f K.df 0 c
    rw [covR_iff] at hb ⊢
    intro p q
    have hb' := congrArg Neg.neg (hb p q)
    rw [← Finset.sum_neg_distrib] at hb'
    have el : (if p.val < I.no i ∧ q.val < I.no j then
        -(skBlock I' K.f K.df i j ((n, dOf I' n), 0)).2 c p q else 0)
        = -(if p.val < I.no i ∧ q.val < I.no j then
          (skBlock I' K.f K.df i j ((n, dOf I' n), 0)).2 c p q else 0) := by
      split <;> simp
    rw [el, hb']
    refine Finset.sum_congr rfl fun a _ => ?_
    rw [← Finset.sum_neg_distrib]
    refine Finset.sum_congr rfl fun b _ => ?_
    by_cases hab : a.val < I.no i ∧ b.val < I.no j
    · simp only [if_pos hab, mul_neg, Finset.sum_neg_distrib]
    · simp only [if_neg hab, mul_zero, neg_zero]
  · have e1 : (fun p q => ∑ d, (R c d : ℂ) * finalD K I k l.zipIdx d i j p q) = fun p q =>
        starRingEnd ℂ ((fun p q => if p.val < I.no j ∧ q.val < I.no i then
          (I.ntuples.map fun n => if Act I j i n then
          blochPhase k n * ((∑ d, R c d *
            dotRot (skBlock I K.f K.df j i ((n, dOf I n), 0)).2 (I.rot n) d p q : ℝ) : ℂ)
          else 0).sum else 0) q p) := by
      funext p q
      unfold finalD dBlockSum2
      dsimp only
      by_cases hpq : p.val < I.no i ∧ q.val < I.no j
      · simp only [if_pos hpq, if_pos hpq.symm, if_neg hij]
        rw [← hsumR (fun d n p q => dotRot (skBlock I K.f K.df j i ((n, dOf I n), 0)).2 (I.rot n) d p q)]
        rw [map_sum]
        refine Finset.sum_congr rfl fun d _ => ?_
        rw [map_mul, Complex.conj_ofReal]
        congr 2
        exact sum_images hl hid j i
          fun im => blochPhase k im.1 * ((dotRot (skBlock I K.f K.df j i (im, 0)).2 (I.rot im.1) d q p : ℝ) : ℂ)
      · have hqp : ¬ (q.val < I.no j ∧ p.val < I.no i) := fun h => hpq h.symm
        simp [hpq, hqp]
    have e2 : finalD K I' k l'.zipIdx c i j = fun p q =>
        starRingEnd ℂ ((fun p q => if p.val < I.no j ∧ q.val < I.no i then
          (I.ntuples.map fun n => if Act I' j i n then
          blochPhase k n *
            ((dotRot (skBlock I' K.f K.df j i ((n, dOf I' n), 0)).2 (I'.rot n) c p q : ℝ) : ℂ)
          else 0).sum else 0) q p) := by
      funext p q
      unfold finalD dBlockSum2
      dsimp only
      rw [T.no]
      by_cases hpq : p.val < I.no i ∧ q.val < I.no j
      · simp only [if_pos hpq, if_pos hpq.symm, if_neg hij]
        rw [← T.ntuples]
        congr 1
        exact sum_images hl' (T.idFirst hid) j i
          fun im => blochPhase k im.1 * ((dotRot (skBlock I' K.f K.df j i (im, 0)).2 (I'.rot im.1) c q p : ℝ) : ℂ)
      · have hqp : ¬ (q.val < I.no j ∧ p.val < I.no i) := fun h => hpq h.symm
        simp [hpq, hqp]
    rw [e1, e2]
    refine Cov.mirror ?_
    refine cov_images I.ntuples k _ _
      (fun n p q => dotRot (skBlock I' K.f K.df j i ((n, dOf I' n), 0)).2 (I'.rot n) c p q)
      (fun n p q => ∑ d, R c d * dotRot (skBlock I K.f K.df j i ((n, dOf I n), 0)).2 (I.rot n) d p q)
      (fun n hn => T.act_iff hj hi hn) fun n hn ha => ?_
    have hb := fun e => covR_iff.mp (T.dblock hf hf' hn hj hi (hno j hj) (hno i hi)
      (norm3_ne (hcl j i (by omega) hi n hn ha.1)) K.f K.df 0 e)
    rw [covR_iff]
    intro p q
    have hrot : ∀ d, ∑ e, R e d * I'.rot n e c = ∑ f, R c f * I.rot n d f := by
      intro d
      have h1 : R.transpose * I'.rot n = I.rot n * R.transpose := by
        rw [T.rot n hn, ← Matrix.mul_assoc, ← Matrix.mul_assoc, T.orth, Matrix.one_mul]
      have h2 := congrFun (congrFun h1 d) c
      simp only [Matrix.mul_apply, Matrix.transpose_apply] at h2
      rw [h2]
      exact Finset.sum_congr rfl fun f _ => mul_comm _ _
    have el : (if p.val < I.no j ∧ q.val < I.no i then
        dotRot (skBlock I' K.f K.df j i ((n, dOf I' n), 0)).2 (I'.rot n) c p q else 0)
        = ∑ e, (if p.val < I.no j ∧ q.val < I.no i then
          (skBlock I' K.f K.df j i ((n, dOf I' n), 0)).2 e p q else 0) * I'.rot n e c := by
      unfold dotRot
      by_cases hpq : p.val < I.no j ∧ q.val < I.no i <;> simp [hpq]
    rw [el]
    simp only [hb _ p q, Finset.sum_mul]
    rw [Finset.sum_comm]
    refine Finset.sum_congr rfl fun a _ => ?_
    rw [Finset.sum_comm]
    refine Finset.sum_congr rfl fun b _ => ?_
    by_cases hab : a.val < I.no j ∧ b.val < I.no i
    · simp only [if_pos hab]
      unfold dotRot
      calc ∑ e, orbRep R p a * orbRep R q b *
            (∑ d, R e d * (skBlock I K.f K.df j i ((n, dOf I n), 0)).2 d a b) * I'.rot n e c
          = orbRep R p a * orbRep R q b * ∑ d, (skBlock I K.f K.df j i ((n, dOf I n), 0)).2 d a b
              * ∑ e, R e d * I'.rot n e c := by
            simp only [Finset.mul_sum, Finset.sum_mul]
            rw [Finset.sum_comm]
            exact Finset.sum_congr rfl fun d _ => Finset.sum_congr rfl fun e _ => by ring
        _ = _ := by
            simp only [hrot]
            congr 1
            simp only [Finset.mul_sum]
            rw [Finset.sum_comm]
            exact Finset.sum_congr rfl fun d _ => Finset.sum_congr rfl fun e _ => by ring
    · simp [if_neg hab]

end MatTurned

end Hotbit
