import Verif.Lemmas.TimeReversalRun
import Verif.Lemmas.TimeReversalMesh
import Verif.Props.SupercellExample
import Verif.Props.KSampling

/-!
# C138: k-points and their inverses
-/

set_option linter.unusedSimpArgs false

namespace Hotbit

open Matrix Real

/-- **C138 (bands).** The energies of the states at a k-point are those at the inverse k-point, and at the
k-points that differ by full turns. This holds for every structure, without and with the electrostatic part
`H1` of the Hamiltonian. -/
theorem c138_bands (I : MatIn) (t : OrbTables) (H1 : Option (Fin t.norb → Fin t.norb → ℝ)) {k k' : Vec}
    (hk : SameOrInverse k k') {s s' : MatSt} (h : getMatrices I k = .ok s) (h' : getMatrices I k' = .ok s')
    {e e' : Fin t.norb → ℝ} {wf wf' : CMat t.norb}
    (hs : AreStates (scfHamiltonian H1 (t.flat s.H0) (t.flat s.S)) (t.flat s.S) e wf)
    (hs' : AreStates (scfHamiltonian H1 (t.flat s'.H0) (t.flat s'.S)) (t.flat s'.S) e' wf') : e' = e := by
  obtain ⟨b, hb⟩ := sameOrInverse_phase hk
  have := getMatrices_cj (I := I) hb
  rw [h, h'] at this
  have e1 : s' = s.cj b := Except.ok.inj this
  have h2 := areStates_cj (b := b) hs
  rw [← scfHamiltonian_cj] at h2
  rw [e1] at hs'
  exact c121_unique _ _ _ _ _ _ hs' h2

/-- **C138.** Let every k-point of `K'` be represented in `K` by itself or by its inverse, with the weights
added. Then to every self-consistent solution with the k-points `K` there is one with the k-points `K'`, and
the other way round, with the same chemical potential, charges, energies of the states, total energy and
forces. -/
theorem c138_represent (P : ScfIn) (A : Atoms) {K K' : KSet} {κ : Fin K'.nk → Fin K.nk}
    (R : Represents K K' κ) :
    (∀ r : ScfRun (P.sampled K), Converged (P.sampled K) A r → ∃ r' : ScfRun (P.sampled K'),
      Converged (P.sampled K') A r' ∧ r'.mu = r.mu ∧ r'.dq = r.dq ∧ (∀ k, r'.e k = r.e (κ k)) ∧
      r'.energy A = r.energy A ∧ ∀ i, r'.force A i = r.force A i) ∧
    (∀ r' : ScfRun (P.sampled K'), Converged (P.sampled K') A r' → ∃ r : ScfRun (P.sampled K),
      Converged (P.sampled K) A r ∧ r'.mu = r.mu ∧ r'.dq = r.dq ∧ (∀ k, r'.e k = r.e (κ k)) ∧
      r'.energy A = r.energy A ∧ ∀ i, r'.force A i = r.force A i) := by
  constructor
  · intro r h
    obtain ⟨r', b, h', hp⟩ := R.forward h
    exact ⟨r', h', hp.mu, hp.dq, hp.e, hp.energy R h, fun i => hp.force R i⟩
  · intro r' h'
    obtain ⟨r, b, h, hp⟩ := R.backward h'
    exact ⟨r, h, hp.mu, hp.dq, hp.e, hp.energy R h, fun i => hp.force R i⟩

/-- **C138 (mesh).** The k-points that are set up for a mesh `(n0,n1,n2)` leave out inverse points. The results
are those of the whole mesh with equal weights: to every self-consistent solution for one there is a
self-consistent solution for the other with the same chemical potential, charges, total energy and forces. -/
theorem c138_mesh (P : ScfIn) (A : Atoms) (width : ℝ) (n : Fin 3 → ℤ) (physical rsK : Bool) (s : KSampling)
    (h : setupKSampling A width (.tuple n) physical rsK = .ok s) (hn : ∀ i, n i ≤ 10 ^ 10) :
    (∀ r : ScfRun (P.sampled (.ofList s.points)), Converged (P.sampled (.ofList s.points)) A r →
      ∃ r' : ScfRun (P.sampled (fullMesh A n)), Converged (P.sampled (fullMesh A n)) A r' ∧
        r'.mu = r.mu ∧ r'.dq = r.dq ∧ r'.energy A = r.energy A ∧ ∀ i, r'.force A i = r.force A i) ∧
    (∀ r' : ScfRun (P.sampled (fullMesh A n)), Converged (P.sampled (fullMesh A n)) A r' →
      ∃ r : ScfRun (P.sampled (.ofList s.points)), Converged (P.sampled (.ofList s.points)) A r ∧
        r'.mu = r.mu ∧ r'.dq = r.dq ∧ r'.energy A = r.energy A ∧ ∀ i, r'.force A i = r.force A i) := by
  obtain ⟨κ, R⟩ := represents_mesh A width n physical rsK s h hn
  obtain ⟨h1, h2⟩ := c138_represent P A R
  refine ⟨fun r hr => ?_, fun r hr => ?_⟩
  · obtain ⟨r', a, b, c, -, d⟩ := h1 r hr
    exact ⟨r', a, b, c, d⟩
  · obtain ⟨r', a, b, c, -, d⟩ := h2 r hr
    exact ⟨r', a, b, c, d⟩

/-- The k-points of the chain of C133. -/
noncomputable def exRowSet (J : SkJunk) : KSet := ⟨(exRowIn J).nk, (exRowIn J).kpt, (exRowIn J).wk⟩

/-- `0`, `π` and `-π`. -/
noncomputable def exRowSet3 : KSet := ⟨3, ![0, ![π, 0, 0], ![-π, 0, 0]], ![1 / 2, 1 / 4, 1 / 4]⟩

theorem exRowSet_represents (J : SkJunk) : Represents (exRowSet J) exRowSet3 (![0, 1, 1] : Fin 3 → Fin 2) where
  onto l := by
    have : l = (0 : Fin 2) ∨ l = (1 : Fin 2) := fin2_cases l
    rcases this with rfl | rfl
    · exact ⟨(0 : Fin 3), rfl⟩
    · exact ⟨(1 : Fin 3), rfl⟩
  same k := by
    have k0 : (exRowIn J).kpt (0 : Fin 2) = 0 := by
      funext c; fin_cases c <;> simp [exRowIn]
    have k1 : (exRowIn J).kpt (1 : Fin 2) = ![π, 0, 0] := by
      funext c; fin_cases c <;> simp [exRowIn]
    have : k = (0 : Fin 3) ∨ k = (1 : Fin 3) ∨ k = (2 : Fin 3) := by
      have : ∀ k : Fin 3, k = 0 ∨ k = 1 ∨ k = 2 := by decide
      exact this k
    rcases this with rfl | rfl | rfl
    · refine ⟨1, Or.inl rfl, 0, fun c => ?_⟩
      show (0 : Vec) c = (1 : ℤ) * (exRowIn J).kpt (0 : Fin 2) c + _
      rw [k0]; simp
    · refine ⟨1, Or.inl rfl, 0, fun c => ?_⟩
      show (![π, 0, 0] : Vec) c = (1 : ℤ) * (exRowIn J).kpt (1 : Fin 2) c + _
      rw [k1]; simp
    · refine ⟨-1, Or.inr rfl, 0, fun c => ?_⟩
      show (![-π, 0, 0] : Vec) c = (-1 : ℤ) * (exRowIn J).kpt (1 : Fin 2) c + _
      rw [k1]; fin_cases c <;> simp
  weight l := by
    have key : ∀ l : Fin 2, (1 / 2 : ℝ) = ∑ k : Fin 3, if (![0, 1, 1] : Fin 3 → Fin 2) k = l then
        (![1 / 2, 1 / 4, 1 / 4] : Fin 3 → ℝ) k else 0 := by
      intro l
      rcases fin2_cases l with rfl | rfl
      · simp [Fin.sum_univ_three]
      · simp [Fin.sum_univ_three]; norm_num
    exact key l

/-- Hypotheses of `c138_represent`: the chain with the k-points `0` and `π` has a self-consistent solution,
which is one for the k-points `0`, `π` and `-π`. -/
example (J : SkJunk) : ∃ (r : ScfRun ((exRowIn J).sampled (exRowSet J))) (r' : ScfRun ((exRowIn J).sampled exRowSet3)),
    Converged ((exRowIn J).sampled (exRowSet J)) exRow r ∧ Converged ((exRowIn J).sampled exRowSet3) exRow r' ∧
    (∃ E, r.energy exRow = .ok E ∧ r'.energy exRow = .ok E) ∧ ∀ i, r'.force exRow i = r.force exRow i := by
  obtain ⟨r, hr, -, -, E, hE⟩ := exRow_converged J
  obtain ⟨r', h1, -, -, -, h2, h3⟩ := (c138_represent (exRowIn J) exRow (exRowSet_represents J)).1 r hr
  exact ⟨r, r', hr, h1, ⟨E, hE, by rw [h2]; exact hE⟩, h3⟩

/-- The matrices of the chain at any k-point. -/
theorem exRow_matsAt (J : SkJunk) (k : Vec) : ∃ st, getMatrices ((exRowIn J).mat exRow) k = .ok st ∧
    st.H0 0 0 0 0 = blochPhase k (along 0 1) + blochPhase k (along 0 (-1)) ∧ st.S 0 0 0 0 = 1 := by
  have hid : IdFirst ((exRowIn J).mat exRow) := by
    obtain ⟨r, h1, h2⟩ := selectImages_idFirst exRow.atoms.length (imagePos exRow 1) (fun _ _ => 3) exRowScan
    exact ⟨r, h1, h2⟩
  have hfol := follow_row (A := exRow) rfl (exRowIn J)
  obtain ⟨st, hst⟩ := (c29_too_close (I := (exRowIn J).mat exRow) k hid
    (fun _ _ => Or.inl rfl) hfol).1 (by
      intro i j hij hj n hn hself
      have hj' : j < 1 := hj
      obtain rfl : j = 0 := by omega
      obtain rfl : i = 0 := by omega
      rw [exRow_ntuples] at hn
      simp at hn
      rcases hn with rfl | rfl | rfl
      · exact absurd ⟨rfl, rfl⟩ hself
      · rw [exRow_norm J 1 (by norm_num)]; norm_num
      · rw [exRow_norm J (-1) (by norm_num)]; norm_num)
  have hp : ((0 : Fin 9) : ℕ) < ((exRowIn J).mat exRow).no 0 := by
    show 0 < 1
    norm_num
  have h := c29_elements hst hid hfol (le_refl 0) (show 0 < 1 by norm_num) hp hp
  have heps : ∀ i q, ((exRowIn J).mat exRow).eps i q = 0 := fun _ _ => rfl
  have hseps : ((exRowIn J).mat exRow).seps = 0 := rfl
  rw [exRow_bloch, exRow_bloch, heps, hseps] at h
  refine ⟨st, hst, ?_, ?_⟩
  · rw [h.1]; simp [exRowHop]
  · rw [h.2]; simp [exRowHop]

/-- The chain without charge transfer. -/
noncomputable def exRowPlain (J : SkJunk) : ScfIn := { exRowIn J with scc := false }

/-- Without charge transfer there is a solution for every sampling at whose k-points the band of the chain
is at zero, if the weights add up to one. -/
theorem exRow_sampled (J : SkJunk) (K : KSet)
    (hk : ∀ k, blochPhase (K.kpt k) (along 0 1) + blochPhase (K.kpt k) (along 0 (-1)) = 0)
    (hw : ∑ k, K.wk k = 1) : ∃ r : ScfRun ((exRowPlain J).sampled K), Converged ((exRowPlain J).sampled K) exRow r := by
  choose st hst hH hS using fun k => exRow_matsAt J (K.kpt k)
  set r : ScfRun ((exRowPlain J).sampled K) :=
    ⟨st, fun _ _ => 0, fun _ => (1 : CMat 1), 0, [], fun _ _ => 0, fun _ _ => 0, { cutoff := none }, [], []⟩ with hr
  have fin1 : ∀ x : Fin 1, x = 0 := by decide
  have hH0 : ∀ k, r.H0 k = (0 : CMat 1) := by
    intro k
    funext x y
    show (st k).H0 (exTable1.atomAt x) (exTable1.atomAt y) (exTable1.numAt x) (exTable1.numAt y) = _
    rw [fin1 x, fin1 y]
    exact (hH k).trans (hk k)
  have hSk : ∀ k, r.S k = (1 : CMat 1) := by
    intro k
    funext x y
    show (st k).S (exTable1.atomAt x) (exTable1.atomAt y) (exTable1.numAt x) (exTable1.numAt y) = _
    rw [fin1 x, fin1 y]
    exact hS k
  have hf : fermi 1 0 0 = 1 := by
    have := exDimer_two (d := 0) (by norm_num)
    norm_num at this
    linarith
  refine ⟨r, hst, fun k => ?_, ?_, fun h => absurd h (by simp [exRowPlain]), fun h => absurd h (by simp [exRowPlain])⟩
  · have e1 : r.h1 exRow.positions.length = none := rfl
    rw [e1, hH0, hSk]
    have : AreStates (0 : CMat 1) (1 : CMat 1) (fun _ => 0) (1 : CMat 1) := by
      refine ⟨fun a b _ => le_refl _, ?_, ?_⟩
      · intro a b; rw [fin1 a, fin1 b]; simp
      · intro a i; rw [fin1 a, fin1 i]; simp
    exact this
  · show ∑ k, K.wk k * ∑ _a : Fin 1, fermi 1 0 0 = 1
    simp [hf, hw]

/-- Hypotheses of `c138_mesh`: the mesh `(2,1,1)` of the chain is accepted, and there is a self-consistent
solution. -/
example (J : SkJunk) : ∃ s, setupKSampling exRow 0.01 (.tuple ![2, 1, 1]) true false = .ok s ∧
    ∃ (r : ScfRun ((exRowPlain J).sampled (.ofList s.points)))
      (r' : ScfRun ((exRowPlain J).sampled (fullMesh exRow ![2, 1, 1]))),
      Converged ((exRowPlain J).sampled (.ofList s.points)) exRow r ∧
      Converged ((exRowPlain J).sampled (fullMesh exRow ![2, 1, 1])) exRow r' ∧
      ∀ i, r'.force exRow i = r.force exRow i := by
  have hn : ∀ i, (![2, 1, 1] : Fin 3 → ℤ) i ≤ 10 ^ 10 := by intro i; fin_cases i <;> simp
  obtain ⟨s, hs⟩ : ∃ s, setupKSampling exRow 0.01 (.tuple ![2, 1, 1]) true false = .ok s := by
    refine c12_accepts exRow (by simp [exRow]) _ (by norm_num) _ ?_ ?_ ?_ _
    · intro i; fin_cases i <;> simp
    · intro i M h
      fin_cases i <;> simp [exRow, Atoms.numberOfTransformations, Atoms.ranges, rangeInf, rangeZero] at h ⊢ <;>
        simp [← h]
    · intro i h
      fin_cases i <;> simp [exRow, Atoms.numberOfTransformations, Atoms.ranges, rangeInf, rangeZero] at h ⊢
  obtain ⟨mesh, h1, -, -, h2, h3, -⟩ := c10_mesh exRow _ _ _ _ s hs hn
  have hx : ∀ q ∈ s.points, q.1 0 = - (π / 2) ∨ q.1 0 = π / 2 := by
    intro q hq
    obtain ⟨j, hj, he⟩ := (h1 q.1).1 (h3 q hq).2.1
    have hj0 : j 0 < 2 := by have := hj 0; simp at this; omega
    have : q.1 0 = -π + (2 * (j 0 : ℝ) + 1) * π / 2 := by
      rw [he]
      simp [meshPoint, shear, exRow, meshCoord, Atoms.numberOfTransformations, Atoms.ranges, rangeInf]
    rw [this]
    interval_cases j 0
    · left; push_cast; ring
    · right; push_cast; ring
  obtain ⟨r, hr⟩ := exRow_sampled J (.ofList s.points) (by
    intro k
    have hm : (s.points[k]) ∈ s.points := List.getElem_mem _
    have e : (KSet.ofList s.points).kpt k = (s.points[k]).1 := rfl
    rw [e, blochPhase_along, blochPhase_along]
    have hI : Complex.exp (Complex.I * ((π / 2 : ℝ) : ℂ)) = Complex.I := by
      rw [mul_comm]; push_cast; exact Complex.exp_pi_div_two_mul_I
    have hI' : Complex.exp (Complex.I * ((-(π / 2) : ℝ) : ℂ)) = -Complex.I := by
      rw [show Complex.I * ((-(π / 2) : ℝ) : ℂ) = -(Complex.I * ((π / 2 : ℝ) : ℂ)) by push_cast; ring,
        Complex.exp_neg, hI, Complex.inv_I]
    rcases hx _ hm with h | h <;> rw [h]
    · rw [show (((1 : ℤ) : ℝ) * -(π / 2)) = -(π / 2) by push_cast; ring,
        show (((-1 : ℤ) : ℝ) * -(π / 2)) = π / 2 by push_cast; ring, hI, hI']
      ring
    · rw [show (((1 : ℤ) : ℝ) * (π / 2)) = π / 2 by push_cast; ring,
        show (((-1 : ℤ) : ℝ) * (π / 2)) = -(π / 2) by push_cast; ring, hI, hI']
      ring) (by
    have : ∑ k : Fin s.points.length, (s.points[k]).2 = (s.points.map Prod.snd).sum :=
      Fin.sum_univ_fun_getElem s.points Prod.snd
    exact this.trans h2)
  obtain ⟨r', a, -, -, -, b⟩ := (c138_mesh (exRowPlain J) exRow 0.01 _ true false s hs hn).1 r hr
  exact ⟨s, hs, r, r', hr, a, b⟩

/-- Hypotheses of `c138_bands`: the chain at `π/2` and at `-π/2`. -/
example (J : SkJunk) : ∃ s s' e, SameOrInverse (![π / 2, 0, 0] : Vec) ![-(π / 2), 0, 0] ∧
    getMatrices ((exRowIn J).mat exRow) ![π / 2, 0, 0] = .ok s ∧
    getMatrices ((exRowIn J).mat exRow) ![-(π / 2), 0, 0] = .ok s' ∧
    (∃ wf, AreStates (scfHamiltonian none (exTable1.flat s.H0) (exTable1.flat s.S)) (exTable1.flat s.S) e wf) ∧
    ∃ wf, AreStates (scfHamiltonian none (exTable1.flat s'.H0) (exTable1.flat s'.S)) (exTable1.flat s'.S) e wf := by
  have hk : SameOrInverse (![π / 2, 0, 0] : Vec) ![-(π / 2), 0, 0] :=
    ⟨-1, Or.inr rfl, 0, fun c => by fin_cases c <;> simp⟩
  obtain ⟨s, hs, hH, hS⟩ := exRow_matsAt J ![π / 2, 0, 0]
  obtain ⟨b, hb⟩ := sameOrInverse_phase hk
  have hcj := getMatrices_cj (I := (exRowIn J).mat exRow) hb
  rw [hs] at hcj
  have fin1 : ∀ x : Fin 1, x = 0 := by decide
  have hI : Complex.exp (Complex.I * ((π / 2 : ℝ) : ℂ)) = Complex.I := by
    rw [mul_comm]; push_cast; exact Complex.exp_pi_div_two_mul_I
  have hI' : Complex.exp (Complex.I * ((-(π / 2) : ℝ) : ℂ)) = -Complex.I := by
    rw [show Complex.I * ((-(π / 2) : ℝ) : ℂ) = -(Complex.I * ((π / 2 : ℝ) : ℂ)) by push_cast; ring,
      Complex.exp_neg, hI, Complex.inv_I]
  have h0 : s.H0 0 0 0 0 = 0 := by
    rw [hH, blochPhase_along, blochPhase_along]
    show Complex.exp (Complex.I * ((((1 : ℤ) : ℝ) * (π / 2) : ℝ) : ℂ))
      + Complex.exp (Complex.I * ((((-1 : ℤ) : ℝ) * (π / 2) : ℝ) : ℂ)) = 0
    rw [show (((1 : ℤ) : ℝ) * (π / 2)) = π / 2 by push_cast; ring,
      show (((-1 : ℤ) : ℝ) * (π / 2)) = -(π / 2) by push_cast; ring, hI, hI']
    ring
  have st : AreStates (scfHamiltonian none (exTable1.flat s.H0) (exTable1.flat s.S)) (exTable1.flat s.S)
      (fun _ : Fin 1 => 0) (1 : CMat 1) := by
    have e1 : exTable1.flat s.H0 = (0 : CMat 1) := by
      funext x y
      show s.H0 (exTable1.atomAt x) (exTable1.atomAt y) (exTable1.numAt x) (exTable1.numAt y) = _
      rw [fin1 x, fin1 y]; exact h0
    have e2 : exTable1.flat s.S = (1 : CMat 1) := by
      funext x y
      show s.S (exTable1.atomAt x) (exTable1.atomAt y) (exTable1.numAt x) (exTable1.numAt y) = _
      rw [fin1 x, fin1 y]; exact hS
    rw [e1, e2]
    have : AreStates (0 : CMat 1) (1 : CMat 1) (fun _ => 0) (1 : CMat 1) := by
      refine ⟨fun a b _ => le_refl _, ?_, ?_⟩
      · intro a b; rw [fin1 a, fin1 b]; simp
      · intro a i; rw [fin1 a, fin1 i]; simp
    exact this
  have st' := areStates_cj (b := b) st
  rw [← scfHamiltonian_cj] at st'
  exact ⟨s, s.cj b, _, hk, hs, hcj, ⟨_, st⟩, ⟨_, st'⟩⟩

end Hotbit
