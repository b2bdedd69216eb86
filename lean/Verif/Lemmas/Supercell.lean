import Verif.Spec.Supercell
import Verif.Lemmas.UnfoldRun

/-!
# Larger cells are repeated structures
-/

set_option linter.unusedSimpArgs false

namespace Hotbit

open Matrix

section Ops

variable {d : Fin 3} {M : ℕ}

/-- Operation `n` of the large cell, from cell `u` to cell `v`. -/
def combOp (d : Fin 3) (M : ℕ) (u v : ℕ) (n : Op) : Op := stretch d M n + along d ((v : ℤ) - u)

theorem combOp_d (u v : ℕ) (n : Op) : combOp d M u v n d = M * n d + (v - u) := by
  simp [combOp, stretch, along]

theorem combOp_ne (u v : ℕ) (n : Op) {x : Fin 3} (hx : x ≠ d) : combOp d M u v n x = n x := by
  simp [combOp, stretch, along, hx]

theorem step_unique {M : ℕ} {a b : ℤ} {v w : ℕ} (hv : v < M) (hw : w < M)
    (h : (M : ℤ) * a + v = M * b + w) : v = w ∧ a = b := by
  have h1 : ((v : ℤ)) % M = (w : ℤ) % M := by
    have := congrArg (· % (M : ℤ)) h
    simpa [Int.add_emod] using this
  rw [Int.emod_eq_of_lt (by omega) (by omega), Int.emod_eq_of_lt (by omega) (by omega)] at h1
  refine ⟨by omega, ?_⟩
  have h2 : (M : ℤ) * a = M * b := by omega
  exact Int.eq_of_mul_eq_mul_left (by omega) h2

theorem combOp_inj {u v w : ℕ} (hv : v < M) (hw : w < M) {n m : Op}
    (h : combOp d M u v n = combOp d M u w m) : v = w ∧ n = m := by
  have h1 := congrFun h d
  rw [combOp_d, combOp_d] at h1
  obtain ⟨h2, h3⟩ := step_unique hv hw (a := n d) (b := m d) (by linarith)
  refine ⟨h2, funext fun x => ?_⟩
  by_cases hx : x = d
  · rw [hx]; exact h3
  · have := congrFun h x
    rwa [combOp_ne _ _ _ hx, combOp_ne _ _ _ hx] at this

theorem combOp_zero {u v : ℕ} (hu : u < M) (hv : v < M) {n : Op} : combOp d M u v n = 0 ↔ u = v ∧ n = 0 := by
  constructor
  · intro h
    have : combOp d M u v n = combOp d M u u 0 := by
      rw [h]
      simp [combOp, stretch, along]
    obtain ⟨h1, h2⟩ := combOp_inj hv hu this
    exact ⟨h1.symm, h2⟩
  · rintro ⟨rfl, rfl⟩
    simp [combOp, stretch, along]

theorem combOp_surj (hM : 0 < M) (u : ℕ) (n : Op) : ∃ v < M, ∃ m, combOp d M u v m = n := by
  have hM' : (0 : ℤ) < M := by exact_mod_cast hM
  have h0 := Int.emod_nonneg (n d + u) hM'.ne'
  have h1 := Int.emod_lt_of_pos (n d + u) hM'
  refine ⟨((n d + u) % M).toNat, by omega, Function.update n d ((n d + u) / M), funext fun x => ?_⟩
  by_cases hx : x = d
  · subst hx
    rw [combOp_d, Function.update_self, Int.toNat_of_nonneg h0]
    have := Int.mul_ediv_add_emod (n x + u) M
    linarith
  · rw [combOp_ne _ _ _ hx, Function.update_of_ne hx]

end Ops

section Phases

variable {d : Fin 3} {M : ℕ}

theorem blochPhase_along (k : Vec) (z : ℤ) : blochPhase k (along d z) = Complex.exp (Complex.I * ((z * k d : ℝ) : ℂ)) := by
  unfold blochPhase
  congr 3
  rw [Finset.sum_eq_single d]
  · simp [along]
  · intro x _ hx
    simp [along, hx]
  · intro h; exact absurd (Finset.mem_univ _) h

theorem blochPhase_stretch (hM : 0 < M) (k : Vec) (c : ℕ) (n : Op) :
    blochPhase (Function.update k d ((k d + 2 * Real.pi * c) / M)) (stretch d M n) = blochPhase k n := by
  unfold blochPhase
  have hM' : (M : ℝ) ≠ 0 := by exact_mod_cast hM.ne'
  have e : (∑ x, ((stretch d M n x : ℤ) : ℝ) * Function.update k d ((k d + 2 * Real.pi * c) / M) x)
      = (∑ x, (n x : ℝ) * k x) + ((n d * c : ℤ) : ℝ) * (2 * Real.pi) := by
    have h1 : ∀ x, ((stretch d M n x : ℤ) : ℝ) * Function.update k d ((k d + 2 * Real.pi * c) / M) x
        = (n x : ℝ) * k x + if x = d then ((n d * c : ℤ) : ℝ) * (2 * Real.pi) else 0 := by
      intro x
      by_cases hx : x = d
      · subst hx
        rw [if_pos rfl]
        simp only [stretch, Function.update_self]
        push_cast
        field_simp
      · simp [stretch, hx]
    rw [Finset.sum_congr rfl fun x _ => h1 x, Finset.sum_add_distrib]
    simp
  rw [e, Complex.ofReal_add, mul_add, Complex.exp_add]
  have : Complex.exp (Complex.I * ((((n d * c : ℤ) : ℝ) * (2 * Real.pi) : ℝ) : ℂ)) = 1 := by
    rw [Complex.exp_eq_one_iff]
    refine ⟨n d * c, ?_⟩
    push_cast
    ring
  rw [this, mul_one]

theorem phase_orth (hM : 0 < M) (k : ℝ) (c e : Fin M) :
    ∑ u ∈ Finset.range M, starRingEnd ℂ (Complex.exp (Complex.I * (((u : ℤ) * ((k + 2 * Real.pi * (c : ℕ)) / M) : ℝ) : ℂ)))
      * Complex.exp (Complex.I * (((u : ℤ) * ((k + 2 * Real.pi * (e : ℕ)) / M) : ℝ) : ℂ))
      = if c = e then (M : ℂ) else 0 := by
  have hM' : (M : ℂ) ≠ 0 := by exact_mod_cast hM.ne'
  set ζ : ℂ := Complex.exp (Complex.I * (2 * Real.pi * ((e : ℕ) - (c : ℕ) : ℂ) / M)) with hζ
  have h1 : ∀ u : ℕ, starRingEnd ℂ (Complex.exp (Complex.I * (((u : ℤ) * ((k + 2 * Real.pi * (c : ℕ)) / M) : ℝ) : ℂ)))
      * Complex.exp (Complex.I * (((u : ℤ) * ((k + 2 * Real.pi * (e : ℕ)) / M) : ℝ) : ℂ)) = ζ ^ u := by
    intro u
    rw [← Complex.exp_conj, ← Complex.exp_add, hζ, ← Complex.exp_nat_mul]
    congr 1
    rw [map_mul, Complex.conj_I, Complex.conj_ofReal]
    push_cast
    ring
  rw [Finset.sum_congr rfl fun u _ => h1 u]
  by_cases hce : c = e
  · rw [if_pos hce]
    have : ζ = 1 := by
      rw [hζ, hce, sub_self]
      simp
    simp [this]
  · rw [if_neg hce]
    have hz : ζ ^ M = 1 := by
      rw [hζ, ← Complex.exp_nat_mul, Complex.exp_eq_one_iff]
      refine ⟨(e : ℤ) - c, ?_⟩
      push_cast
      field_simp
    have hne : ζ ≠ 1 := by
      rw [hζ, Ne, Complex.exp_eq_one_iff]
      rintro ⟨m, hm⟩
      have hpi : (2 * Real.pi * Complex.I : ℂ) ≠ 0 := Complex.two_pi_I_ne_zero
      have h2 : (((e : ℕ) : ℤ) - ((c : ℕ) : ℤ)) = m * M := by
        have h3 : ((e : ℕ) - (c : ℕ) : ℂ) = m * M := by
          apply mul_left_cancel₀ hpi
          field_simp at hm
          linear_combination Complex.I * 2 * Real.pi * hm
        exact_mod_cast h3
      have hc := c.2
      have he := e.2
      rcases lt_trichotomy m 0 with h | h | h
      · nlinarith
      · rw [h] at h2
        exact hce (Fin.ext (by omega))
      · nlinarith
    have := mul_neg_geom_sum ζ M
    rw [hz, sub_self] at this
    exact (mul_eq_zero.1 this).resolve_left (sub_ne_zero.2 (Ne.symm hne))

end Phases

section Cells

variable {A B : Atoms} {d : Fin 3} {M : ℕ}

theorem legal_along (h : A.ranges d = rangeInf) (h0 : Legal A 0) (z : ℤ) : Legal A (along d z) := by
  intro x
  by_cases hx : x = d
  · subst hx
    rw [h]
    simp [rangeInf, Bound.toEReal]
  · have := h0 x
    simpa [along, hx] using this

theorem Supercell.legal_zero (S : Supercell A B d M) : Legal A 0 := by
  have hne : ((List.range M).map fun u : ℕ => along d (u : ℤ)) ≠ [] := by
    have := S.pos
    simp; omega
  by_contra h
  have := (c06_list A _ hne).2 ⟨0, List.mem_map.2 ⟨0, List.mem_range.2 S.pos, by simp [along]⟩, h⟩
  rw [S.copies] at this
  cases this

theorem legal_comb (S : Supercell A B d M) {u v : ℕ} {n : Op} : Legal B n ↔ Legal A (combOp d M u v n) := by
  unfold Legal
  rw [S.ranges]
  refine forall_congr' fun x => ?_
  by_cases hx : x = d
  · subst hx
    rw [S.inf]
    simp [rangeInf, Bound.toEReal]
  · rw [combOp_ne _ _ _ hx]

theorem Supercell.atom (S : Supercell A B d M) (h0 : Legal A 0) :
    B.atoms.length = M * A.atoms.length ∧ ∀ u < M, ∀ i < A.atoms.length, ∀ s r,
      A.atoms[i]? = some (s, r) →
      B.atoms[u * A.atoms.length + i]? = some (s, A.rawTransform r (along d u)) := by
  have hne : ((List.range M).map fun u : ℕ => along d (u : ℤ)) ≠ [] := by
    have := S.pos
    simp; omega
  obtain ⟨out, h1, h2, h3⟩ := (c06_list A _ hne).1 (by
    intro n hn
    obtain ⟨u, -, rfl⟩ := List.mem_map.1 hn
    exact legal_along S.inf h0 _)
  rw [S.copies] at h1
  cases h1
  refine ⟨by simpa using h2, fun u hu i hi s r ha => ?_⟩
  obtain ⟨x, h4, h5⟩ := h3 u (along d u) i s r (by simp [hu]) ha
  rw [(c05_transform_guard A r _).1 (legal_along S.inf h0 _)] at h4
  cases h4
  exact h5

theorem Supercell.length (S : Supercell A B d M) (h0 : Legal A 0) :
    B.positions.length = M * A.positions.length := by
  unfold Atoms.positions
  rw [List.length_map, List.length_map, (S.atom h0).1]

theorem Supercell.position (S : Supercell A B d M) (h0 : Legal A 0) {u i : ℕ} (hu : u < M)
    (hi : i < A.positions.length) :
    B.pos (u * A.positions.length + i) = A.rawTransform (A.pos i) (along d u) := by
  unfold Atoms.positions at hi
  rw [List.length_map] at hi
  have h := (S.atom h0).2 u hu i hi (A.atoms[i]).1 (A.atoms[i]).2 (List.getElem?_eq_getElem hi)
  unfold Atoms.pos Atoms.positions
  rw [List.length_map]
  simp [List.getD_eq_getElem?_getD, h, List.getElem?_eq_getElem hi]

theorem Supercell.symbol (S : Supercell A B d M) (h0 : Legal A 0) {u i : ℕ} (hu : u < M)
    (hi : i < A.atoms.length) :
    ((B.atoms[u * A.atoms.length + i]?).map Prod.fst).getD "" = ((A.atoms[i]?).map Prod.fst).getD "" := by
  have h := (S.atom h0).2 u hu i hi (A.atoms[i]).1 (A.atoms[i]).2 (List.getElem?_eq_getElem hi)
  simp [h, List.getElem?_eq_getElem hi]

/-- Where a copy sees an image. -/
theorem Supercell.rij (S : Supercell A B d M) (h0 : Legal A 0) {u v i j : ℕ} (hu : u < M) (hv : v < M)
    (hi : i < A.positions.length) (hj : j < A.positions.length) (n : Op) :
    B.rawTransform (B.pos (v * A.positions.length + j)) n
        - B.rawTransform (B.pos (u * A.positions.length + i)) 0
      = A.rawRotation (along d u) *ᵥ
        (A.rawTransform (A.pos j) (combOp d M u v n) - A.rawTransform (A.pos i) 0) := by
  rw [S.position h0 hv hj, S.position h0 hu hi, rawTransform_zero B S.commB, rawTransform_zero A S.commA,
    S.op, rawTransform_add A S.commA, ← rawTransform_sub A S.commA, rawTransform_add A S.commA]
  congr 2
  unfold combOp along
  funext x
  by_cases hx : x = d
  · subst hx; simp; ring
  · simp [hx, stretch]

theorem Supercell.turn (S : Supercell A B d M) (u v : ℕ) (n : Op) :
    B.rawRotation n = A.rawRotation (along d u) * A.rawRotation (combOp d M u v n)
      * (A.rawRotation (along d v))ᵀ := by
  rw [rawRotation_add A S.commA]
  have e : along d (u : ℤ) + combOp d M u v n = stretch d M n + along d v := by
    unfold combOp along
    funext x
    by_cases hx : x = d
    · subst hx; simp; ring
    · simp [hx]
  rw [e, ← rawRotation_add A S.commA, Matrix.mul_assoc,
    mul_eq_one_comm.1 (rawRotation_orth A S.commA _), Matrix.mul_one, S.rot]

/-- A larger cell repeats the geometry, if neither list misses images within range. -/
theorem Supercell.repeats (S : Supercell A B d M) (h0 : Legal A 0) {G G' : Geom} {s : ℝ}
    {rng : ℕ → ℕ → ℝ}
    (hN : G.N = A.positions.length) (hN' : G'.N = B.positions.length)
    (hs : ∀ i, G.sym i = ((A.atoms[i]?).map Prod.fst).getD "")
    (hs' : ∀ i, G'.sym i = ((B.atoms[i]?).map Prod.fst).getD "")
    (hr : G.rot = A.rawRotation) (hr' : G'.rot = B.rawRotation)
    (hp : ∀ n i, G.pos n i = s • A.rawTransform (A.pos i) n)
    (hp' : ∀ n i, G'.pos n i = s • B.rawTransform (B.pos i) n)
    (nd : G.ntuples.Nodup) (nd' : G'.ntuples.Nodup)
    (hl : ∀ n ∈ G.ntuples, Legal A n) (hl' : ∀ n ∈ G'.ntuples, Legal B n)
    (all : ∀ n, Legal A n → ∀ i < G.N, ∀ j < G.N, norm3 (G.rij n i j) ≤ rng i j → n ∈ G.ntuples)
    (all' : ∀ n, Legal B n → ∀ u < M, ∀ v < M, ∀ i < G.N, ∀ j < G.N,
      norm3 (G'.rij n (u * G.N + i) (v * G.N + j)) ≤ rng i j → n ∈ G'.ntuples) :
    Repeats G G' M (fun u i => u * A.positions.length + i) (fun u _ => A.rawRotation (along d u))
      (fun u _ v _ => combOp d M u v) rng := by
  have hrij : ∀ u < M, ∀ v < M, ∀ n, ∀ i < G.N, ∀ j < G.N,
      G'.rij n (u * G.N + i) (v * G.N + j) = A.rawRotation (along d u) *ᵥ G.rij (combOp d M u v n) i j := by
    intro u hu v hv n i hi j hj
    unfold Geom.rij
    rw [hN] at hi hj ⊢
    rw [hp, hp, hp', hp', ← smul_sub, ← smul_sub, Matrix.mulVec_smul, S.rij h0 hu hv hi hj]
  refine
    { N := by rw [hN', hN, S.length h0]
      copies := by rw [hN]; exact copies_block M _
      sym := fun u hu i hi => ?_
      nodup := nd
      nodup' := nd'
      orth := fun u _ _ _ => rawRotation_orth A S.commA _
      rotOrth := fun u _ v _ n _ _ _ _ _ => by rw [hr]; exact rawRotation_orth A S.commA _
      rij := fun u hu v hv n _ i hi j hj => by
        have := hrij u hu v hv n i hi j hj
        rwa [hN] at this
      rot := fun u _ v _ n _ _ _ _ _ => by rw [hr, hr']; exact S.turn u v n
      zero := fun u hu v hv n _ _ _ => combOp_zero hu hv
      inj := fun u _ v hv w hw n _ m _ _ _ _ _ h => combOp_inj hv hw h
      into := fun u _ v _ n hn i hi j hj h => all _ ((legal_comb S).1 (hl' n hn)) i hi j hj h
      onto := fun u hu i hi j hj n hn h => ?_ }
  · rw [hs', hs]
    have e : G.N = A.atoms.length := by rw [hN]; unfold Atoms.positions; rw [List.length_map]
    have e' : A.positions.length = A.atoms.length := by unfold Atoms.positions; rw [List.length_map]
    rw [e] at hi
    rw [e']
    exact S.symbol h0 hu hi
  · obtain ⟨v, hv, m, hm⟩ := combOp_surj (d := d) S.pos u n
    refine ⟨v, hv, m, ?_, hm⟩
    refine all' m ((legal_comb S).2 (hm ▸ hl n hn)) u hu v hv i hi j hj ?_
    rw [hrij u hu v hv m i hi j hj, hm, norm3_rot (rawRotation_orth A S.commA _)]
    exact h

theorem undo_zero (n : Op) : undoOp 0 n = -n := by
  unfold undoOp; split <;> simp

theorem trivialOp_zero (hA : Commuting A.ctype) (k : Vec) : TrivialOp A k 0 :=
  ⟨rawTransform_zero A hA, rawRotation_zero A hA, blochPhase_zero _⟩

theorem getD_pos (A : Atoms) (i : ℕ) : (A.positions[i]?).getD 0 = A.pos i := by
  unfold Atoms.pos
  rw [List.getD_eq_getElem?_getD]

theorem goodMat_ofAtoms (hA : Commuting A.ctype) {P : ScfIn} (L : ScanList A P.scan)
    (hcut : ∀ i j, P.cut i j = P.cut j i) (hf : OrbitalsFollow (P.mat A)) (ht : MutualTables P.tab) (k : Vec) :
    GoodMat (P.mat A) k (undoOp 0) := by
  have h := c29_inverse_pairs A hA P.bohr k P.no P.eps P.seps P.tab P.J 0 P.cut P.scan hcut L.nodup
    (fun n hn => by rw [undo_zero]; exact L.neg n hn) (Or.inr rfl) (trivialOp_zero hA k) (by rw [undo_zero, neg_zero])
  refine ⟨h.1, hf, { toInversePairs := h.2, posAll := fun n _ i _ j _ => ?_ }, ht⟩
  have := imagePos_inverse A hA P.bohr k 0 n (fun _ => trivialOp_zero hA k) i j
  rw [Matrix.neg_mulVec]
  exact this

theorem inverse_ofAtoms (hA : Commuting A.ctype) {P : ScfIn} (L : ScanList A P.scan)
    (hcut : ∀ i j, P.cut i j = P.cut j i) : (P.geom A).Inverse (undoOp 0) :=
  c31_containers A hA P.bohr 0 P.cut P.scan hcut L.nodup
    (fun n hn => by rw [undo_zero]; exact L.neg n hn) (Or.inr rfl) (trivialOp_zero hA 0)
    (by rw [undo_zero, neg_zero])

theorem mem_geom {P : ScfIn} (h0 : Legal A 0) (L : ScanList A P.scan) {n : Op} (hn : n ∈ (P.geom A).ntuples) :
    Legal A n := by
  have : n ∈ selectImages A.atoms.length (imagePos A P.bohr) P.cut P.scan := hn
  unfold selectImages at this
  rcases List.mem_cons.1 this with rfl | h
  · exact h0
  · exact L.legal n (List.mem_of_mem_filter h)

theorem geom_mem {P : ScfIn} (hc : ∀ i j, P.cut i j = P.cut j i) (H : HasAllImages A P.bohr P.scan P.cut)
    {n : Op} (hn : Legal A n) {i j : ℕ} (hi : i < A.positions.length) (hj : j < A.positions.length)
    (h : norm3 ((P.geom A).rij n i j) ≤ P.cut i j) : n ∈ (P.geom A).ntuples := by
  have e : A.positions.length = A.atoms.length := by unfold Atoms.positions; rw [List.length_map]
  show n ∈ selectImages A.atoms.length (imagePos A P.bohr) P.cut P.scan
  unfold selectImages
  by_cases h0 : n = 0
  · rw [h0]; exact List.mem_cons_self
  refine List.mem_cons_of_mem _ (List.mem_filter.2 ⟨H n hn h0 i hi j hj h, decide_eq_true ⟨h0, j, e ▸ hj, i, e ▸ hi, ?_⟩⟩)
  have e2 : ∑ c, (imagePos A P.bohr 0 i c - imagePos A P.bohr n j c) ^ 2
      = norm3 (imagePos A P.bohr n j - imagePos A P.bohr 0 i) ^ 2 := by
    rw [← sum_sq_norm3]
    exact Finset.sum_congr rfl fun c _ => by simp only [Pi.sub_apply]; ring
  rw [e2, hc j i]
  exact pow_le_pow_left₀ (norm3_nonneg _) h 2

theorem scanOps_mem {c : ℝ} (H : HasAllImages A 1 (scanOps A) fun _ _ => c) (h0 : Legal A 0)
    {n : Op} (hn : Legal A n) {i j : ℕ} (hi : i < A.positions.length) (hj : j < A.positions.length)
    (h : norm3 ((nbGeom A).rij n i j) ≤ c) : n ∈ (nbGeom A).ntuples := by
  show n ∈ scanOps A
  by_cases hz : n = 0
  · rw [hz, mem_scanOps]
    exact ⟨h0, by simp⟩
  refine H n hn hz i hi j hj (le_trans (le_of_eq ?_) h)
  unfold imagePos Geom.rij nbGeom
  simp only [getD_pos, inv_one, one_smul]

end Cells

section Calc

variable {P P' : ScfIn} {A B : Atoms} {d : Fin 3} {M : ℕ} {kf : Fin P'.nk × Fin M ≃ Fin P.nk}

theorem SupercellCalc.geomRepeats (C : SupercellCalc P P' A B d M kf) :
    Repeats (P.geom A) (P'.geom B) M (fun u i => u * A.positions.length + i) (fun u _ => A.rawRotation (along d u))
      (fun u _ v _ => combOp d M u v) P.cut := by
  have h0 := C.cell.legal_zero
  have h0' : Legal B 0 := (legal_comb C.cell (u := 0) (v := 0)).2 (by
    rw [(combOp_zero C.cell.pos C.cell.pos).2 ⟨rfl, rfl⟩]; exact h0)
  have e : A.positions.length = A.atoms.length := by unfold Atoms.positions; rw [List.length_map]
  have e' : B.positions.length = B.atoms.length := by unfold Atoms.positions; rw [List.length_map]
  have eN : (P.geom A).N = A.positions.length := e.symm
  have eN' : (P'.geom B).N = B.positions.length := e'.symm
  have nd : (P.geom A).ntuples.Nodup := (inverse_ofAtoms C.cell.commA C.scanA C.cutSymm.1).nodup
  have nd' : (P'.geom B).ntuples.Nodup := (inverse_ofAtoms C.cell.commB C.scanB C.cutSymm.2).nodup
  refine C.cell.repeats h0 (G := P.geom A) (G' := P'.geom B) (s := P.bohr⁻¹) (rng := P.cut) eN eN' (fun _ => rfl) (fun _ => rfl) rfl rfl
    (fun n i => ?_) (fun n i => ?_) nd nd' (fun n hn => mem_geom h0 C.scanA hn)
    (fun n hn => mem_geom h0' C.scanB hn) ?_ ?_
  · show P.bohr⁻¹ • A.rawTransform _ n = _
    rw [getD_pos]
  · show P'.bohr⁻¹ • B.rawTransform _ n = _
    rw [getD_pos, C.same.1]
  · intro n hn i hi j hj h
    have hi' : i < A.positions.length := lt_of_lt_of_eq hi e.symm
    have hj' : j < A.positions.length := lt_of_lt_of_eq hj e.symm
    exact geom_mem C.cutSymm.1 C.imagesA hn hi' hj' h
  · intro n hn u hu v hv i hi j hj h
    have hi' : i < A.positions.length := lt_of_lt_of_eq hi e.symm
    have hj' : j < A.positions.length := lt_of_lt_of_eq hj e.symm
    have eN : (P.geom A).N = A.positions.length := e.symm
    rw [eN] at h
    refine geom_mem C.cutSymm.2 C.imagesB hn ?_ ?_ (h.trans_eq (C.cuts u hu v hv i hi' j hj').symm)
    · rw [C.cell.length h0]; exact copy_lt hu hi'
    · rw [C.cell.length h0]; exact copy_lt hv hj'

/-- The hypotheses of the unfolding hold for a larger cell. -/
noncomputable def SupercellCalc.enlarged (C : SupercellCalc P P' A B d M kf)
    (hv : ∀ i < A.positions.length, ValidNo (P.no i)) : Enlarged P P' A B M where
  ix u i := u * A.positions.length + i
  R u _ := A.rawRotation (along d u)
  comb u _ v _ := combOp d M u v
  rng := P.cut
  crng := P.gcut.getD 0
  σ := undoOp 0
  τ := undoOp 0
  kf := kf
  φ k c u _ := blochPhase (P.kpt (kf (k, c))) (along d u)
  pos := C.cell.pos
  commA := C.cell.commA
  commB := C.cell.commB
  geom := C.geomRepeats
  orbs := by
    have e : A.positions.length = A.atoms.length := by unfold Atoms.positions; rw [List.length_map]
    have eN : (P.mat A).N = A.positions.length := e.symm
    refine ⟨fun u hu i hi => ?_, fun u hu i hi => ?_, C.same.2.2.2.1, C.same.2.2.2.2.1, fun i hi => hv i (eN ▸ hi),
      fun i hi => C.shell i (eN ▸ hi)⟩
    · rw [eN] at hi; exact (C.atoms u hu i hi).1
    · rw [eN] at hi; exact (C.atoms u hu i hi).2.1
  goodA k := goodMat_ofAtoms C.cell.commA C.scanA C.cutSymm.1 C.followA C.tables _
  goodB k := goodMat_ofAtoms C.cell.commB C.scanB C.cutSymm.2 C.followB (by
    rw [C.same.2.2.2.2.1]; exact C.tables) _
  invA := inverse_ofAtoms C.cell.commA C.scanA C.cutSymm.1
  invB := inverse_ofAtoms C.cell.commB C.scanB C.cutSymm.2
  reach := C.reach
  fold k := by
    refine ⟨fun c u hu v hv n _ _ _ _ _ => ?_, fun c u hu _ _ => ?_, fun c e _ _ => ?_⟩
    · have h1 : blochPhase (P'.kpt k) n = blochPhase (P.kpt (kf (k, c))) (stretch d M n) := by
        rw [C.kpoints, blochPhase_stretch C.cell.pos]
      rw [h1, ← blochPhase_add, ← blochPhase_add]
      congr 1
      unfold combOp along
      funext x
      by_cases hx : x = d
      · subst hx; simp; ring
      · simp [hx]
    · rw [blochPhase_conj, ← blochPhase_add, neg_add_cancel, blochPhase_zero]
    · have := phase_orth C.cell.pos (P'.kpt k d) c e
      rw [← this]
      refine Finset.sum_congr rfl fun u _ => ?_
      rw [C.kpoints, C.kpoints, blochPhase_along, blochPhase_along, Function.update_self, Function.update_self]
  weight := C.weight
  coul hs := by
    obtain ⟨c, hc, H, H'⟩ := C.coulomb hs
    have h0 := C.cell.legal_zero
    have h0' : Legal B 0 := (legal_comb C.cell (u := 0) (v := 0)).2 (by
      rw [(combOp_zero C.cell.pos C.cell.pos).2 ⟨rfl, rfl⟩]; exact h0)
    rw [hc]
    refine ⟨C.cell.repeats h0 (s := 1) rfl rfl (fun _ => rfl) (fun _ => rfl) rfl rfl
      (fun n i => (one_smul _ _).symm) (fun n i => (one_smul _ _).symm) (scanOps_nodup A) (scanOps_nodup B)
      (fun n hn => ((mem_scanOps A n).1 hn).1) (fun n hn => ((mem_scanOps B n).1 hn).1) ?_ ?_,
      fun u _ v _ n hn _ _ _ _ => (legal_comb C.cell).1 ((mem_scanOps B n).1 hn).1,
      fun n _ i _ j _ h => (h.1 c rfl).le, Or.inl rfl⟩
    · intro n hn i hi j hj h
      exact scanOps_mem H h0 hn hi hj h
    · intro n hn u hu v hv i hi j hj h
      refine scanOps_mem H' h0' hn ?_ ?_ h
      · rw [C.cell.length h0]; exact copy_lt hu hi
      · rw [C.cell.length h0]; exact copy_lt hv hj
  hubbard u hu i hi := ⟨(C.atoms u hu i hi).2.2.1, (C.atoms u hu i hi).2.2.2.1, (C.atoms u hu i hi).2.2.2.2⟩
  units := ⟨C.same.1, C.same.2.1⟩
  same := ⟨C.same.2.2.1, C.same.2.2.2.2.2⟩
  symV := C.symV
  count := C.count
  tols := C.tols

end Calc

end Hotbit
