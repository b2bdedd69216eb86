import Verif.Lemmas.DampedLoop
import Verif.Props.Uniqueness

/-!
# C140: slow mixing always converges
-/

set_option linter.unusedSimpArgs false

namespace Hotbit

open Matrix

variable {P : ScfIn} {A : Atoms} {elements : String → Option ElementData} {x : Setup P}

/-- **C140.** For every structure there is a mixing constant below which mixing is slow enough, if the limit of
convergence is not too small for it. -/
theorem c140_slow (hw : 0 < P.width) (hk : ∀ k, 0 < P.wk k) (x : Setup P) :
    ∃ b > 0, ∃ K, ∀ p : MixerParams, 0 < p.beta → p.beta ≤ b → K / p.beta < p.convergence → SlowMixing A x p := by
  have hG : 0 ≤ stiffness P A := Finset.sum_nonneg fun i _ => Finset.sum_nonneg fun j _ => abs_nonneg _
  have hGC : 0 ≤ stiffness P A * softness x := mul_nonneg hG (softness_pos hk).le
  have hlt : P.width / (stiffness P A * softness x + 2 * P.width) < 1 := by
    rw [div_lt_one (by positivity)]
    linarith
  refine ⟨P.width / (stiffness P A * softness x + 2 * P.width), by positivity,
    (4 * stiffness P A * softness x / P.width + 2) * chargeNoise x, fun p h0 h1 h2 =>
    ⟨⟨h0, lt_of_le_of_lt h1 hlt⟩, ?_, h2⟩⟩
  rw [le_div_iff₀ (by positivity)] at h1
  nlinarith

/-- **C140.** If mixing is slow enough for the structure, the cycle never runs out of iterations, whatever the first
guess of the charges: given enough iterations it ends, or one of the iterations raises. This is the
Anderson mixer without memory of earlier iterations. -/
theorem c140_ends (hfit : Fits P A elements) (hA : InversionClosed A) (hx : setupOf P A = .ok x) (hs : P.scc = true)
    (hpos : ∀ q E, EsEnergy P.cd P.bohr P.U P.w P.gcut A q E → 0 ≤ E) (hw : 0 < P.width) (hk : ∀ k, 0 < P.wk k)
    (h0 : 0 < P.nel) (h1 : P.nel < 2 * P.t.norb * ∑ k, P.wk k) {p : MixerParams} (hp : SlowMixing A x p)
    (hm : p.memory ≤ 1) (hc : p.chop = none)
    (solve : {M : ℕ} → (Fin M → Fin M → ℝ) → (Fin M → ℝ) → Option (Fin M → ℝ))
    {T : ScfTools P (MixerState A.positions.length)} (hT : Solvable T x)
    (hmix : T.mix = listMixer (andersonCall p solve)) (guess : List ℝ) (hg : guess.length = A.positions.length) :
    ∃ n, ∀ maxiter, n ≤ maxiter → ∀ e,
      getStates (scfEnv T x A.positions.length) P.scc maxiter none .reset guess = .error e →
      ∃ q, onePass T x A.positions.length (some q) = .error e := by
  obtain ⟨n, hn⟩ := damped_scf hfit hA hx hs hpos hw hk h0 h1 hp (anderson_damps hm hc solve) hT hmix hg
  refine ⟨n, fun m hm' e he => ?_⟩
  rcases hn m hm' with ⟨r, q, pp, a, -, -⟩ | ⟨q, e', a, b⟩
  · rw [a] at he; cases he
  · rw [b] at he
    cases he
    exact ⟨q, a⟩

/-- **C140.** The same for Pulay's mixer without memory. -/
theorem c140_pulay (hfit : Fits P A elements) (hA : InversionClosed A) (hx : setupOf P A = .ok x) (hs : P.scc = true)
    (hpos : ∀ q E, EsEnergy P.cd P.bohr P.U P.w P.gcut A q E → 0 ≤ E) (hw : 0 < P.width) (hk : ∀ k, 0 < P.wk k)
    (h0 : 0 < P.nel) (h1 : P.nel < 2 * P.t.norb * ∑ k, P.wk k) {p : MixerParams} (hp : SlowMixing A x p)
    (hm : p.memory = 1) (hc : p.chop = none) {inv : {M : ℕ} → (Fin M → Fin M → ℝ) → Option (Fin M → Fin M → ℝ)}
    (hinv : ∀ (A B : Fin 1 → Fin 1 → ℝ), inv A = some B → A 0 0 * B 0 0 = 1)
    {T : ScfTools P (MixerState A.positions.length)} (hT : Solvable T x)
    (hmix : T.mix = listMixer (pulayCall p (fun {M} => inv (M := M)))) (guess : List ℝ)
    (hg : guess.length = A.positions.length) :
    ∃ n, ∀ maxiter, n ≤ maxiter → ∀ e,
      getStates (scfEnv T x A.positions.length) P.scc maxiter none .reset guess = .error e →
      ∃ q, onePass T x A.positions.length (some q) = .error e := by
  obtain ⟨n, hn⟩ := damped_scf hfit hA hx hs hpos hw hk h0 h1 hp (pulay_damps hm hc hinv) hT hmix hg
  refine ⟨n, fun m hm' e he => ?_⟩
  rcases hn m hm' with ⟨r, q, pp, a, -, -⟩ | ⟨q, e', a, b⟩
  · rw [a] at he; cases he
  · rw [b] at he
    cases he
    exact ⟨q, a⟩

/-- The root finder finds the chemical potential for all energies of the states, if it gets an interval that is a
width larger than that of the energies. -/
def FindsLevel (P : ScfIn) (brentq : (ℝ → ℝ) → ℝ → ℝ → Except Exn ℝ) : Prop :=
  ∀ e : Fin P.nk → Fin P.t.norb → ℝ, ∀ a b, (∀ k i, a ≤ e k i - P.width ∧ e k i + P.width ≤ b) →
    ∃ mu, brentq (Occ.root ⟨P.nel, P.width, P.wk, e⟩) a b = .ok mu ∧ |Occ.root ⟨P.nel, P.width, P.wk, e⟩ mu| ≤ 1e-10

/-- **C140.** An iteration does not raise if the root finder finds the chemical potential and the valence electrons of
the atoms and the charge are what the number of electrons is. -/
theorem c140_pass (hfit : Fits P A elements) (hw : 0 < P.width) (hk : ∀ k, 0 < P.wk k) {Mx : Type}
    {T : ScfTools P Mx} (hT : Solvable T x) (hnk : 0 < P.nk)
    (hb : FindsLevel P T.brentq) (hel : P.val.sum - P.nel = P.charge) (htol : 1e-10 ≤ P.tol) (q : List ℝ) :
    ∃ p, onePass T x A.positions.length (some q) = .ok p := by
  set H1 : Option (Fin P.t.norb → Fin P.t.norb → ℝ) := (some q).map fun q (a b : Fin P.t.norb) =>
    constructH1 P.t A.positions.length (x.epsilon A.positions.length q) (fun _ => 0) a b with hH1
  have hsy : ∀ h, H1 = some h → ∀ i j, h i j = h j i := by
    intro f hf i j
    rw [hH1] at hf
    obtain ⟨q, -, rfl⟩ := Option.map_eq_some_iff.1 hf
    exact c28_symmetric _ _ _ _ _ _
  obtain ⟨r, h2, h3⟩ := solve_states hT H1 hsy
  obtain ⟨o, ho⟩ : ∃ o, Occ.occupy ⟨P.nel, P.width, P.wk, fun k : Fin P.nk => (r.getD k (0, 0)).1⟩ T.brentq = .ok o := by
    set oc : Occ P.nk P.t.norb := ⟨P.nel, P.width, P.wk, fun k : Fin P.nk => (r.getD k (0, 0)).1⟩ with hoc
    obtain ⟨lo, hi, hlo, hhi, hends⟩ := sorted_ends oc ⟨hw, hk, hnk, by have := hT.two; omega⟩
    unfold Occ.occupy
    rw [hlo, hhi]
    dsimp only
    obtain ⟨mu, m1, m2⟩ := hb oc.e (lo - oc.width) (hi + oc.width) fun k i =>
      ⟨sub_le_sub_right (hends k i).1 _, by have := (hends k i).2; exact add_le_add_left this _⟩
    have m1' : T.brentq oc.root (lo - oc.width) (hi + oc.width) = .ok mu := m1
    rw [m1']
    dsimp only
    rw [if_neg (not_lt.2 m2)]
    exact ⟨_, rfl⟩
  have hN : A.symbols.length = A.positions.length := by simp [Atoms.symbols, Atoms.positions]
  obtain ⟨dq, hdq, -⟩ := c21_occupied elements A.symbols P.t hfit.orbitals _ _ o.1 o.2 ho
    (fun k : Fin P.nk => (r.getD k (0, 0)).2) x.S (fun k a => by rw [(h3 k).orthonormal a a, if_pos rfl]) P.val
    (by rw [hfit.valences, hN]) P.charge P.tol htol (by show P.nel = _; linarith)
  refine ⟨⟨fun k => (r.getD k (0, 0)).1, fun k => (r.getD k (0, 0)).2, o.1, dq, H1⟩, ?_⟩
  unfold onePass
  dsimp only
  rw [← hH1, h2]
  simp only [Bind.bind, Except.bind, ho, Option.isSome_some, if_true, hdq]
  rfl

/-- **C140.** So slow mixing converges, from every guess. -/
theorem c140_converges (hfit : Fits P A elements) (hA : InversionClosed A) (hx : setupOf P A = .ok x) (hs : P.scc = true)
    (hpos : ∀ q E, EsEnergy P.cd P.bohr P.U P.w P.gcut A q E → 0 ≤ E) (hw : 0 < P.width) (hk : ∀ k, 0 < P.wk k)
    (hnk : 0 < P.nk) (h0 : 0 < P.nel) (h1 : P.nel < 2 * P.t.norb * ∑ k, P.wk k) {p : MixerParams}
    (hp : SlowMixing A x p) (hm : p.memory ≤ 1) (hc : p.chop = none)
    (solve : {M : ℕ} → (Fin M → Fin M → ℝ) → (Fin M → ℝ) → Option (Fin M → ℝ))
    {T : ScfTools P (MixerState A.positions.length)} (hT : Solvable T x)
    (hmix : T.mix = listMixer (andersonCall p solve)) (hb : FindsLevel P T.brentq)
    (hel : P.val.sum - P.nel = P.charge) (htol : 1e-10 ≤ P.tol) (guess : List ℝ) (hg : guess.length = A.positions.length) :
    ∃ n, ∀ maxiter, n ≤ maxiter → ∃ r,
      getStates (scfEnv T x A.positions.length) P.scc maxiter none .reset guess = .ok r := by
  obtain ⟨n, hn⟩ := c140_ends hfit hA hx hs hpos hw hk h0 h1 hp hm hc solve hT hmix guess hg
  refine ⟨n, fun m hm' => ?_⟩
  rcases hr : getStates (scfEnv T x A.positions.length) P.scc m none .reset guess with e | r
  · obtain ⟨q, hq⟩ := hn m hm' e hr
    obtain ⟨pp, hpp⟩ := c140_pass hfit hw hk hT hnk hb hel htol q
    rw [hpp] at hq
    cases hq
  · exact ⟨r, rfl⟩

/-- A root finder that finds what there is. -/
noncomputable def exRoot (f : ℝ → ℝ) (_ _ : ℝ) : Except Exn ℝ :=
  open Classical in if h : ∃ mu, |f mu| ≤ 1e-10 then .ok (Classical.choose h) else .error .valueError

theorem exRoot_finds (hw : 0 < P.width) (hk : ∀ k, 0 < P.wk k) (h0 : 0 < P.nel)
    (h1 : P.nel < 2 * P.t.norb * ∑ k, P.wk k) (hsize : P.t.norb * (∑ k, P.wk k) ≤ 1e10) : FindsLevel P exRoot := by
  intro e a b _
  obtain ⟨mu, hmu⟩ := mu_exists hw hk e h0 h1
  have h : ∃ mu, |Occ.root ⟨P.nel, P.width, P.wk, e⟩ mu| ≤ 1e-10 := by
    refine ⟨mu, ?_⟩
    unfold Occ.root
    dsimp only
    have e1 : (∑ k, ∑ a, P.wk k * fermi P.width mu (e k a)) - P.nel
        = ∑ k, P.wk k * ∑ a, (fermi P.width mu (e k a) - smoothFermi P.width mu (e k a)) := by
      rw [← hmu, ← Finset.sum_sub_distrib]
      refine Finset.sum_congr rfl fun k _ => ?_
      rw [Finset.sum_sub_distrib, mul_sub, Finset.mul_sum, Finset.mul_sum]
    rw [e1]
    refine (Finset.abs_sum_le_sum_abs _ _).trans ?_
    have e2 : ∀ k, |P.wk k * ∑ a, (fermi P.width mu (e k a) - smoothFermi P.width mu (e k a))|
        ≤ P.wk k * (P.t.norb * 1e-20) := by
      intro k
      rw [abs_mul, abs_of_pos (hk k)]
      refine mul_le_mul_of_nonneg_left ?_ (hk k).le
      refine (Finset.abs_sum_le_sum_abs _ _).trans ((Finset.sum_le_sum fun a _ => fermi_smooth _ _ _).trans ?_)
      simp
    refine (Finset.sum_le_sum fun k _ => e2 k).trans ?_
    rw [← Finset.sum_mul]
    have := mul_le_mul_of_nonneg_right hsize (show (0 : ℝ) ≤ 1e-20 by norm_num)
    calc _ = P.t.norb * (∑ k, P.wk k) * 1e-20 := by ring
      _ ≤ 1e10 * 1e-20 := this
      _ = _ := by norm_num
  refine ⟨Classical.choose h, ?_, Classical.choose_spec h⟩
  unfold exRoot
  rw [dif_pos h]

open scoped ComplexOrder in
/-- An overlap with complete orthonormal states is positive definite. -/
theorem Solutions.posDef {n : ℕ} {H S c : CMat n} {e : Fin n → ℝ} (h : Solutions H S e c) : S.PosDef := by
  have o := h.matrix.1
  have u : cᵀ * ((cᵀ)ᴴ * S) = 1 := mul_eq_one_comm.1 o
  set M : CMat n := (cᵀ)ᴴ * S with hM
  have hMc : M * cᵀ = 1 := o
  have e1 : S = Mᴴ * M := by
    have : Mᴴ * (cᵀ)ᴴ = 1 := by rw [← conjTranspose_mul, u, conjTranspose_one]
    rw [hM, ← Matrix.mul_assoc, ← hM, this, Matrix.one_mul]
  rw [e1]
  exact Matrix.PosDef.conjTranspose_mul_self M (Matrix.mulVec_injective_of_isUnit ((Matrix.isUnit_iff_isUnit_det _).2
    (Matrix.isUnit_det_of_right_inverse hMc)))

/-- The setup that a converged calculation has. -/
theorem Converged.setup {r : ScfRun P} (h : Converged P A r) (hs : P.scc = true) :
    ∃ x, setupOf P A = .ok x ∧ x.st = r.st := by
  obtain ⟨⟨nb, hnb, -⟩, -⟩ := h.potential hs
  refine ⟨⟨r.st, nb.getD []⟩, ?_, rfl⟩
  unfold setupOf
  rw [mapM_ok_of_forall (fun k => getMatrices (P.mat A) (P.kpt k)) r.st _ fun k _ => h.mats k]
  simp only [Bind.bind, Except.bind, hs, if_true, hnb]
  simp only [Pure.pure, Except.pure, Except.ok.injEq]
  congr 1
  funext k
  simp [List.getD_eq_getElem?_getD]

/-- The setup of the two atoms. -/
theorem exOpp2_setup (J : SkJunk) : ∃ x : Setup (exOppIn2 J), setupOf (exOppIn2 J) exOpp2 = .ok x ∧
    (∀ k, (x.H0 k).IsHermitian) ∧ open scoped ComplexOrder in ∀ k, (x.S k).PosDef := by
  obtain ⟨r, hr, -⟩ := exOpp_converged J
  obtain ⟨r1, h1, -⟩ := c134_sector (exOpp_calc J) (exOpp_fits J) (exOpp2_fits J) hr
  obtain ⟨x, hx, hst⟩ := h1.setup rfl
  have e1 : ∀ k, x.H0 k = r1.H0 k := fun k => by unfold Setup.H0 ScfRun.H0; rw [hst]
  have e2 : ∀ k, x.S k = r1.S k := fun k => by unfold Setup.S ScfRun.S; rw [hst]
  exact ⟨x, hx, fun k => by rw [e1]; exact (h1.hermitian k).2.1, fun k => by rw [e2]; exact (h1.states k).solutions.posDef⟩

/-- What the theorems need of the two atoms. -/
theorem exOpp2_slow (J : SkJunk) : ∃ (p : MixerParams) (x : Setup (exOppIn2 J)) (L : Lapack (exOppIn2 J).t.norb),
    setupOf (exOppIn2 J) exOpp2 = .ok x ∧ SlowMixing exOpp2 x p ∧ p.memory = 1 ∧ p.chop = none ∧
    FindsLevel (exOppIn2 J) exRoot ∧ (∀ k, 0 < (exOppIn2 J).wk k) ∧
    (exOppIn2 J).nel < 2 * (exOppIn2 J).t.norb * ∑ k, (exOppIn2 J).wk k ∧
    (∀ q E, EsEnergy (exOppIn2 J).cd (exOppIn2 J).bohr (exOppIn2 J).U (exOppIn2 J).w (exOppIn2 J).gcut exOpp2 q E → 0 ≤ E) ∧
    ∀ mix : MixerState 2 → List ℝ → List ℝ → Bool × List ℝ × MixerState 2,
      Solvable (⟨L, 0, exRoot, mix, .reset, 0, [], []⟩ : ScfTools (exOppIn2 J) (MixerState 2)) x := by
  obtain ⟨x, hx, hH, hS⟩ := exOpp2_setup J
  have hw : 0 < (exOppIn2 J).width := by simp [exOppIn2, exRowIn2, exRowIn]
  have hk : ∀ k, 0 < (exOppIn2 J).wk k := fun k => by simp [exOppIn2, exRowIn2]
  have hno : (exOppIn2 J).t.norb = 2 := rfl
  have h0 : 0 < (exOppIn2 J).nel := by simp [exOppIn2, exRowIn2]
  have hsum : ∑ k, (exOppIn2 J).wk k = 1 := by
    show ∑ k : Fin 1, (1 : ℝ) = 1
    simp
  have h1 : (exOppIn2 J).nel < 2 * (exOppIn2 J).t.norb * ∑ k, (exOppIn2 J).wk k := by
    rw [hsum, hno]
    show (2 : ℝ) < _
    norm_num
  obtain ⟨b, hb, K, hK⟩ := c140_slow (A := exOpp2) hw hk x
  obtain ⟨L, hL⟩ := c121_lapack (exOppIn2 J).t.norb
  refine ⟨⟨b, 1, K / b + 1e-9, none⟩, x, L, hx, hK _ hb le_rfl (by show K / b < K / b + 1e-9; norm_num), rfl, rfl,
    exRoot_finds hw hk h0 h1 (by rw [hsum, hno]; norm_num), hk, h1, fun q E hE => ?_, fun mix =>
    ⟨le_refl 2, hL, le_rfl, hH, hS⟩⟩
  exact c139_gaussian exOpp_cell.commB exOpp2_only (exOpp2_fits J).units (fun _ _ => ⟨one_pos, exWide⟩) exOpp2_distinct hE

/-- Hypotheses of the theorems: two atoms with charge transfer. From any two charges the cycle converges. -/
example (J : SkJunk) : ∃ (p : MixerParams) (x : Setup (exOppIn2 J)) (T : ScfTools (exOppIn2 J) (MixerState 2)),
    setupOf (exOppIn2 J) exOpp2 = .ok x ∧ 0 < p.beta ∧ T.mix = listMixer (andersonCall p fun _ _ => none) ∧
    ∀ a b : ℝ, ∃ n, ∀ maxiter, n ≤ maxiter → ∃ r, getStates (scfEnv T x 2) true maxiter none .reset [a, b] = .ok r := by
  obtain ⟨p, x, L, hx, hp, hm, hc, hb, hk, h1, hpos, hT⟩ := exOpp2_slow J
  refine ⟨p, x, ⟨L, 0, exRoot, listMixer (andersonCall p fun _ _ => none), .reset, 0, [], []⟩, hx, hp.beta.1, rfl,
    fun q1 q2 => c140_converges (exOpp2_fits J) (Or.inl rfl) hx rfl hpos (by simp [exOppIn2, exRowIn2, exRowIn]) hk
      (show 0 < 1 by norm_num) (by simp [exOppIn2, exRowIn2]) h1 hp hm.le hc (fun _ _ => none) (hT _) rfl hb ?_ ?_
      [q1, q2] rfl⟩
  · show ([1, 1] : List ℝ).sum - 2 = 0
    norm_num
  · show (1e-10 : ℝ) ≤ 1
    norm_num

/-- The same two atoms with the other mixer, which only has to invert numbers. -/
noncomputable def exInv {M : ℕ} (A : Fin M → Fin M → ℝ) : Option (Fin M → Fin M → ℝ) :=
  if ∀ i j, A i j ≠ 0 then some fun i j => (A i j)⁻¹ else none

example (J : SkJunk) : ∃ (p : MixerParams) (x : Setup (exOppIn2 J)) (T : ScfTools (exOppIn2 J) (MixerState 2)),
    setupOf (exOppIn2 J) exOpp2 = .ok x ∧ 0 < p.beta ∧ T.mix = listMixer (pulayCall p (fun {M} => exInv (M := M))) ∧
    ∀ a b : ℝ, ∃ n, ∀ maxiter, n ≤ maxiter → ∃ r, getStates (scfEnv T x 2) true maxiter none .reset [a, b] = .ok r := by
  obtain ⟨p, x, L, hx, hp, hm, hc, hb, hk, h1, hpos, hT⟩ := exOpp2_slow J
  have hw : 0 < (exOppIn2 J).width := by simp [exOppIn2, exRowIn2, exRowIn]
  refine ⟨p, x, ⟨L, 0, exRoot, listMixer (pulayCall p (fun {M} => exInv (M := M))), .reset, 0, [], []⟩, hx, hp.beta.1, rfl,
    fun q1 q2 => ?_⟩
  obtain ⟨n, hn⟩ := c140_pulay (exOpp2_fits J) (Or.inl rfl) hx rfl hpos hw hk (by simp [exOppIn2, exRowIn2]) h1 hp hm hc
    (inv := fun {M} => exInv (M := M)) (fun A B h => by
      unfold exInv at h
      split at h
      · rename_i h'
        cases h
        exact mul_inv_cancel₀ (h' 0 0)
      · cases h) (hT _) rfl [q1, q2] rfl
  refine ⟨n, fun m hm' => ?_⟩
  generalize hg : getStates (Mx := MixerState 2) _ true m none _ [q1, q2] = g
  match g, hg with
  | .ok r, _ => exact ⟨r, rfl⟩
  | .error e, hg =>
    obtain ⟨q, hq⟩ := hn m hm' e hg
    obtain ⟨pp, hpp⟩ := c140_pass (exOpp2_fits J) hw hk (hT _) (show 0 < 1 by norm_num) hb
      (show ([1, 1] : List ℝ).sum - 2 = 0 by norm_num) (show (1e-10 : ℝ) ≤ 1 by norm_num) q
    cases hpp.symm.trans hq

end Hotbit
