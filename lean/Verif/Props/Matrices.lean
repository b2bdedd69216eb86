import Verif.Lemmas.MatricesClosed
import Verif.Spec.Matrices
import Verif.Props.OrbitalRotation
import Verif.Props.SkGradient
import Verif.Lemmas.Atoms

/-!
# C29: the Hamiltonian and overlap matrices
-/

set_option linter.unusedSimpArgs false

namespace Hotbit

open Matrix

theorem mapM_ok_cases {α β : Type} (f : α → Except Exn β) : ∀ (l : List α) (r : List β),
    l.mapM f = .ok r → ∀ m (hm : m < l.length), ∃ hr : m < r.length, f l[m] = .ok r[m]
  | [], r, _, m, hm => by simp at hm
  | a :: l, r, h, m, hm => by
    rw [List.mapM_cons] at h
    cases ha : f a with
    | error e => rw [ha] at h; cases h
    | ok b =>
    cases hl : l.mapM f with
    | error e => rw [ha, hl] at h; cases h
    | ok r' =>
    rw [ha, hl] at h
    cases h
    cases m with
    | zero => exact ⟨by simp, by simpa using ha⟩
    | succ m =>
      obtain ⟨h1, h2⟩ := mapM_ok_cases f l r' hl m (by simpa using hm)
      exact ⟨by simpa using h1, by simpa using h2⟩

theorem mapM_ok_length {α β : Type} (f : α → Except Exn β) : ∀ (l : List α) (r : List β),
    l.mapM f = .ok r → r.length = l.length
  | [], r, h => by
    simp only [List.mapM_nil, pure, Except.pure] at h
    cases h; rfl
  | a :: l, r, h => by
    rw [List.mapM_cons] at h
    cases ha : f a with
    | error e => rw [ha] at h; cases h
    | ok b =>
    cases hl : l.mapM f with
    | error e => rw [ha, hl] at h; cases h
    | ok r' =>
    rw [ha, hl] at h
    cases h
    simp [mapM_ok_length f l r' hl]

theorem transforms_get {I : MatIn} {l : List (Op × Matrix (Fin 9) (Fin 9) ℝ)}
    (h : I.transforms = .ok l) :
    l.length = I.ntuples.length ∧ ∀ m (h1 : m < I.ntuples.length) (h2 : m < l.length),
      l[m].1 = I.ntuples[m] ∧
      rotationTransformation (I.rot I.ntuples[m]) (I.angles I.ntuples[m]) (HasD I) = .ok l[m].2 := by
  unfold MatIn.transforms at h
  refine ⟨mapM_ok_length _ _ _ h, fun m h1 h2 => ?_⟩
  obtain ⟨h2', h3⟩ := mapM_ok_cases _ _ _ h m h1
  cases hr : rotationTransformation (I.rot I.ntuples[m]) (I.angles I.ntuples[m]) (HasD I) with
  | error e =>
    unfold HasD at hr
    rw [hr] at h3; cases h3
  | ok D =>
    have hr' := hr
    unfold HasD at hr'
    rw [hr'] at h3
    simp only [bind, Except.bind, pure, Except.pure, Except.ok.injEq] at h3
    rw [← h3]
    exact ⟨rfl, rfl⟩

/-- Changing a sum over tagged images into a sum over operations. -/
theorem sum_zipIdx {l : List (Op × Matrix (Fin 9) (Fin 9) ℝ)} {ns : List Op}
    (hlen : l.length = ns.length) (F : Im → ℂ) (G : Op → ℂ)
    (h : ∀ m (h1 : m < ns.length) (h2 : m < l.length), F (l[m], m) = G ns[m]) :
    (l.zipIdx.map F).sum = (ns.map G).sum := by
  congr 1
  apply List.ext_getElem
  · simp [hlen]
  · intro m h1 h2
    simp only [List.getElem_map, List.getElem_zipIdx, zero_add]
    exact h m (by simpa using h2) (by simpa using h1)

theorem idFirst_get {I : MatIn} (h : IdFirst I) (m : ℕ) (hm : m < I.ntuples.length) :
    m = 0 ↔ I.ntuples[m] = 0 := by
  obtain ⟨rest, h1, h2⟩ := h
  constructor
  · rintro rfl; simp [h1]
  · intro he
    cases m with
    | zero => rfl
    | succ m =>
      exfalso
      apply h2
      have : I.ntuples[m + 1] = rest[m]'(by rw [h1] at hm; simpa using hm) := by
        simp [h1]
      rw [this] at he
      rw [← he]
      exact List.getElem_mem _

theorem norm3_ne {x : Vec} (h : 0.1 < norm3 x) : x ≠ 0 := by
  rintro rfl
  rw [norm3_eq_zero.2 rfl] at h
  norm_num at h

theorem dotDT_spec {I : MatIn} {noi noj : ℕ} (hi : ValidNo noi) (hj : ValidNo noj) {r : Vec}
    (hr : r 0 ^ 2 + r 1 ^ 2 + r 2 ^ 2 = 1) (h : Fin 14 → ℝ) (R : Mat)
    (D : Matrix (Fin 9) (Fin 9) ℝ)
    (hD : ∀ a b : Fin 9, a.val < noj → b.val < noj → D a b = orbRep R a b)
    {p q : Fin 9} (hp : p.val < noi) (hq : q.val < noj) :
    dotDT noj (skElem I.J noi noj r h) D p q = ∑ x, skSpec (intOf h) r p x * orbRep R x q := by
  unfold dotDT
  rw [Finset.sum_filter]
  refine Finset.sum_congr rfl fun x _ => ?_
  by_cases hx : x.val < noj
  · rw [if_pos hx, skElem_spec I.J r hr hi hj h hp hx, hD x q hx hq]
  · rw [if_neg hx]
    have : orbRep R x q = 0 := by
      apply orbRep_off
      intro he
      rcases hj with rfl | rfl | rfl <;> unfold orbL at he <;> split_ifs at he <;> omega
    rw [this, mul_zero]

theorem follow_range {I : MatIn} {j : ℕ} (hj : j < I.N) (hv : ValidNo (I.no j)) {a b : Fin 9}
    (ha : a.val < I.no j) (hb : b.val < I.no j) : HasD I ∨ (a.val < 4 ∧ b.val < 4) := by
  rcases hv with h | h | h
  · right; omega
  · right; omega
  · left; exact ⟨j, hj, by omega⟩

theorem blockSum_spec {I : MatIn} {k : Vec} (K : Comp) {l : List (Op × Matrix (Fin 9) (Fin 9) ℝ)}
    (hl : I.transforms = .ok l) (hid : IdFirst I) (hf : OrbitalsFollow I) {i j : ℕ}
    (hj : j < I.N) (hok : PairOk I l.zipIdx i j) {p q : Fin 9} (hp : p.val < I.no i)
    (hq : q.val < I.no j) :
    blockSum K I k l.zipIdx i j p q = blochSum I K.f k i j p q := by
  obtain ⟨hlen, hget⟩ := transforms_get hl
  unfold blockSum blochSum
  refine sum_zipIdx hlen _ _ fun m h1 h2 => ?_
  obtain ⟨g1, g2⟩ := hget m h1 h2
  have hmem : (l[m], m) ∈ l.zipIdx := by
    rw [List.mem_zipIdx_iff_getElem?]
    simp [h2]
  have hiff : Active I i j (l[m], m) ↔ (¬ (i = j ∧ I.ntuples[m] = 0) ∧
      (I.tab (I.sym i) (I.sym j)).r1 ≤ norm3 (I.rij I.ntuples[m] i j) ∧
        norm3 (I.rij I.ntuples[m] i j) ≤ (I.tab (I.sym i) (I.sym j)).r2) := by
    unfold Active Counts InRange
    simp only [g1, idFirst_get hid m h1]
  by_cases ha : Active I i j (l[m], m)
  · rw [if_pos ha, if_pos (hiff.mp ha)]
    dsimp only
    rw [g1]
    congr 2
    have hd := hok.1 _ hmem ha.1
    dsimp only at hd
    rw [g1] at hd
    obtain ⟨vi, vj⟩ := hok.2 _ hmem ha
    obtain ⟨D, hD1, hD2⟩ := hf _ (List.getElem_mem h1)
    rw [g2] at hD1
    cases hD1
    unfold skBlock imageElem
    dsimp only
    rw [g1]
    exact dotDT_spec vi vj (unit_dir (norm3_ne hd)) _ _ _
      (fun a b ha hb => hD2 a b (follow_range hj vj ha hb)) hp hq
  · rw [if_neg ha, if_neg fun h => ha (hiff.mpr h)]

/-- **C29 (elements).** Whenever `get_matrices` succeeds, the element between orbital `p` of atom
`i` and orbital `q` of atom `j ≥ i` of the Hamiltonian and of the overlap is the on-site value plus
the Bloch sum of the textbook two-centre elements with the rotated orbitals of the images. -/
theorem c29_elements {I : MatIn} {k : Vec} {st : MatSt} (h : getMatrices I k = .ok st)
    (hid : IdFirst I) (hf : OrbitalsFollow I) {i j : ℕ} (hij : i ≤ j) (hj : j < I.N) {p q : Fin 9}
    (hp : p.val < I.no i) (hq : q.val < I.no j) :
    st.H0 i j p q = (if i = j ∧ p = q then (I.eps i p : ℂ) else 0) + blochSum I SkTable.h k i j p q ∧
    st.S i j p q = (if i = j ∧ p = q then ((1 + I.seps : ℝ) : ℂ) else 0)
      + blochSum I SkTable.s k i j p q := by
  obtain ⟨l, hl, -, hok⟩ := getMatrices_ok h
  have key : ∀ K : Comp, K.get st i j p q
      = (if i = j ∧ p = q then ((K.diag I i p : ℝ) : ℂ) else 0) + blochSum I K.f k i j p q := by
    intro K
    rw [getMatrices_closed h hl K (by omega) hj, finalBlock, if_pos hij, upperBlock,
      if_pos ⟨hp, hq⟩, blockSum_spec K hl hid hf hj (hok i j hij hj) hp hq]
  exact ⟨key .H, key .S⟩

theorem orbRep_transpose (R : Mat) (a b : Fin 9) : orbRep R.transpose a b = orbRep R b a := by
  by_cases h : orbL a = orbL b
  · rcases orb_cases a with rfl | ⟨i, rfl⟩ | ⟨i, rfl⟩ <;>
      rcases orb_cases b with rfl | ⟨j, rfl⟩ | ⟨j, rfl⟩ <;> try (simp at h; done)
    · rfl
    · rw [orbRep_pp, orbRep_pp]; rfl
    · rw [orbRep_dd, orbRep_dd]
      unfold dRep
      rw [Matrix.transpose_transpose]
      congr 1
      rw [Matrix.trace_mul_comm (R.transpose * quadOrb j * R)]
      rw [Matrix.mul_assoc R, Matrix.mul_assoc R, Matrix.trace_mul_comm R]
      simp only [Matrix.mul_assoc]
  · rw [orbRep_off _ _ _ h, orbRep_off _ _ _ (Ne.symm h)]

theorem orbRep_orth' (R : Mat) (hR : R.transpose * R = 1) (z q : Fin 9) :
    ∑ x, orbRep R x z * orbRep R x q = if z = q then 1 else 0 := by
  have h : (orbRep R).transpose * orbRep R = 1 := mul_eq_one_comm.mp (orbRep_orth R hR)
  have := congrFun (congrFun h z) q
  rw [Matrix.mul_apply, Matrix.one_apply] at this
  exact this

theorem norm3_rot {R : Mat} (hR : R.transpose * R = 1) (x : Vec) : norm3 (R *ᵥ x) = norm3 x := by
  have h := dot_rot R hR x x
  rw [Fin.sum_univ_three, Fin.sum_univ_three (fun d => x d * x d)] at h
  have e : ∀ c, ∑ d, R c d * x d = (R *ᵥ x) c := fun c => rfl
  simp only [e] at h
  unfold norm3
  congr 1
  nlinarith [h]

/-- Exchange of the two orbitals for the inverse image: `M(σ n) = M(n)ᵀ`. -/
theorem imageElem_inverse {I : MatIn} {f : SkTable → ℝ → Fin 14 → ℝ} {i : ℕ} {n n' : Op}
    (ho : (I.rot n).transpose * I.rot n = 1) (hr : I.rot n' = (I.rot n).transpose)
    (hp : I.rij n' i i = - (I.rot n).transpose.mulVec (I.rij n i i))
    (hpar : ParityTable f (I.tab (I.sym i) (I.sym i))) (p q : Fin 9) :
    norm3 (I.rij n' i i) = norm3 (I.rij n i i) ∧ imageElem I f i i n' p q = imageElem I f i i n q p := by
  have ho' : (I.rot n).transpose.transpose * (I.rot n).transpose = 1 := by
    rw [Matrix.transpose_transpose]; exact mul_eq_one_comm.mp ho
  have hn : norm3 (I.rij n' i i) = norm3 (I.rij n i i) := by
    rw [hp, norm3_neg, norm3_rot ho']
  refine ⟨hn, ?_⟩
  unfold imageElem
  dsimp only
  rw [hn, hr]
  set A := I.rot n with hA
  set u := (norm3 (I.rij n i i))⁻¹ • I.rij n i i with hu
  have hu' : (norm3 (I.rij n i i))⁻¹ • I.rij n' i i = A.transpose *ᵥ (-u) := by
    rw [hp, hu, Matrix.mulVec_neg, Matrix.mulVec_smul, smul_neg]
  rw [hu']
  set V : ℕ → ℕ → Fin 3 → ℝ := fun la lb k =>
    f (I.tab (I.sym i) (I.sym i)) (norm3 (I.rij n i i)) (skIntegralIndex la lb k) with hV
  have hex : ∀ y, skSpec V (-u) y q = skSpec V u q y := fun y =>
    skSpec_exchange V V (fun la hla lb hlb k hk => hpar _ la hla lb hlb k hk) u q y
  calc ∑ x, skSpec V (A.transpose *ᵥ -u) p x * orbRep A.transpose x q
      = ∑ x, ∑ y, ∑ z, orbRep A.transpose p y * skSpec V (-u) y z
          * (orbRep A.transpose x z * orbRep A.transpose x q) := by
        refine Finset.sum_congr rfl fun x _ => ?_
        rw [skSpec_rot V _ ho', Finset.sum_mul]
        refine Finset.sum_congr rfl fun y _ => ?_
        rw [Finset.sum_mul]
        exact Finset.sum_congr rfl fun z _ => by ring
    _ = ∑ y, ∑ z, orbRep A.transpose p y * skSpec V (-u) y z
          * ∑ x, orbRep A.transpose x z * orbRep A.transpose x q := by
        rw [Finset.sum_comm]
        refine Finset.sum_congr rfl fun y _ => ?_
        rw [Finset.sum_comm]
        refine Finset.sum_congr rfl fun z _ => ?_
        rw [Finset.mul_sum]
    _ = ∑ y, orbRep A.transpose p y * skSpec V (-u) y q := by
        refine Finset.sum_congr rfl fun y _ => ?_
        simp only [orbRep_orth' _ ho']
        simp
    _ = ∑ y, skSpec V u q y * orbRep A y p := by
        refine Finset.sum_congr rfl fun y _ => ?_
        rw [orbRep_transpose, hex, mul_comm]

theorem list_sum_reindex {α : Type} [DecidableEq α] (l : List α) (σ : α → α) (hn : l.Nodup)
    (hm : ∀ n ∈ l, σ n ∈ l) (hi : ∀ n ∈ l, σ (σ n) = n) (F : α → ℂ) :
    (l.map F).sum = (l.map fun n => F (σ n)).sum := by
  have h1 : (l.map σ).Nodup := by
    rw [List.nodup_map_iff_inj_on hn]
    intro x hx y hy hxy
    rw [← hi x hx, ← hi y hy, hxy]
  have h2 : (l.map σ).Perm l := by
    apply List.Subperm.perm_of_length_le
    · apply List.subperm_of_subset h1
      intro x hx
      obtain ⟨n, hn', rfl⟩ := List.mem_map.mp hx
      exact hm n hn'
    · simp
  have h3 := (h2.map F).sum_eq
  rw [List.map_map] at h3
  exact h3.symm

theorem conj_list_sum (l : List Op) (F : Op → ℂ) :
    starRingEnd ℂ (l.map F).sum = (l.map fun n => starRingEnd ℂ (F n)).sum := by
  rw [map_list_sum, List.map_map]; rfl

theorem blochSum_herm {I : MatIn} {f : SkTable → ℝ → Fin 14 → ℝ} {k : Vec} {σ : Op → Op}
    (hσ : InversePairs I k σ) {i : ℕ} (hi : i < I.N)
    (hpar : ParityTable f (I.tab (I.sym i) (I.sym i))) (p q : Fin 9) :
    blochSum I f k i i q p = starRingEnd ℂ (blochSum I f k i i p q) := by
  classical
  unfold blochSum
  rw [conj_list_sum, list_sum_reindex _ σ hσ.nodup hσ.mem hσ.invol]
  congr 1
  apply List.map_congr_left
  intro n hn
  obtain ⟨h1, h2⟩ := imageElem_inverse (hσ.orth n hn) (hσ.rot n hn) (hσ.pos n hn i hi) hpar q p
  have hz : σ n = 0 ↔ n = 0 := by
    constructor
    · intro h
      rw [← hσ.invol n hn, h, hσ.zero]
    · rintro rfl; exact hσ.zero
  rw [h1, h2, hσ.phase n hn]
  simp only [hz]
  split
  · rw [map_mul, Complex.conj_ofReal]
  · simp

/-- **C29 (Hermitian).** If the list of interacting images is closed under inversion, the rotations
used for the orbitals are the right ones (C71) and the tables of equal elements have the exchange
parity (C73), then at every k-point the Hamiltonian and the overlap matrix equal their conjugate
transposes. -/
theorem c29_hermitian {I : MatIn} {k : Vec} {st : MatSt} (h : getMatrices I k = .ok st)
    (hid : IdFirst I) (hf : OrbitalsFollow I) {σ : Op → Op} (hσ : InversePairs I k σ)
    (hpar : ∀ i < I.N, ParityTable SkTable.h (I.tab (I.sym i) (I.sym i)) ∧
      ParityTable SkTable.s (I.tab (I.sym i) (I.sym i)))
    {i j : ℕ} (hi : i < I.N) (hj : j < I.N) {p q : Fin 9} (hp : p.val < I.no i)
    (hq : q.val < I.no j) :
    st.H0 j i q p = starRingEnd ℂ (st.H0 i j p q) ∧ st.S j i q p = starRingEnd ℂ (st.S i j p q) := by
  obtain ⟨l, hl, -, hok⟩ := getMatrices_ok h
  have key : ∀ K : Comp, K.get st j i q p = starRingEnd ℂ (K.get st i j p q) := by
    intro K
    rw [getMatrices_closed h hl K hi hj, getMatrices_closed h hl K hj hi]
    unfold finalBlock
    rcases lt_trichotomy i j with hlt | rfl | hgt
    · rw [if_neg (by omega), if_pos (by omega)]
    · have hu : ∀ p q : Fin 9, p.val < I.no i → q.val < I.no i → upperBlock K I k l.zipIdx i i p q
          = (if p = q then ((K.diag I i p : ℝ) : ℂ) else 0) + blochSum I K.f k i i p q := by
        intro p q hp hq
        rw [upperBlock, if_pos ⟨hp, hq⟩, blockSum_spec K hl hid hf hi (hok i i (le_refl _) hi) hp hq]
        simp
      rw [if_pos (le_refl _), if_pos (le_refl _), hu q p hq hp, hu p q hp hq, map_add]
      congr 1
      · by_cases hpq : p = q
        · subst hpq; simp
        · rw [if_neg hpq, if_neg (Ne.symm hpq)]; simp
      · refine blochSum_herm hσ hi ?_ p q
        cases K
        · exact (hpar i hi).1
        · exact (hpar i hi).2
    · rw [if_pos (by omega), if_neg (by omega)]
      simp
  exact ⟨key .H, key .S⟩

end Hotbit
