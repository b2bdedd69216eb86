import Verif.Lemmas.DampedRun

/-!
# The end of the self-consistency cycle with damping
-/

set_option linter.unusedSimpArgs false

namespace Hotbit

open Matrix

section Loop

variable {St Q Mx : Type}

/-- The loop ends when the mixer says so, or with the error of an iteration. -/
theorem scfLoop_ends {env : ScfEnv St Q Mx} {q y : ℕ → Q} {s : ℕ → Mx}
    (hstep : ∀ i, (∃ e, env.solve (some (q i)) = .error e) ∨ ∃ st, env.solve (some (q i)) = .ok st ∧ env.dqOut st = y i)
    (hmix : ∀ i, (env.mix (s i) (q i) (y i)).2 = (q (i + 1), s (i + 1))) {n : ℕ}
    (hdone : (env.mix (s n) (q n) (y n)).1 = true) {maxiter : ℕ} (hn : n < maxiter) (d i : ℕ) (hi : i + d = n) (st : St) :
    (∃ r, scfLoop env maxiter (maxiter - i) i st (s i) (q i) = .ok r ∧ ∃ j, env.solve (some (q j)) = .ok r.states) ∨
      ∃ j e, env.solve (some (q j)) = .error e ∧ scfLoop env maxiter (maxiter - i) i st (s i) (q i) = .error e := by
  induction d generalizing i st with
  | zero =>
    obtain rfl : i = n := by omega
    obtain ⟨fuel, hf⟩ : ∃ fuel, maxiter - i = fuel + 1 := ⟨maxiter - i - 1, by omega⟩
    rw [hf]
    unfold scfLoop
    rcases hstep i with ⟨e, he⟩ | ⟨st', h1, h2⟩
    · right
      exact ⟨i, e, he, by rw [he]⟩
    · left
      obtain ⟨m1, m2⟩ : ∃ m2, env.mix (s i) (q i) (y i) = (true, m2) := ⟨_, Prod.ext hdone rfl⟩
      simp only [h1, h2, m2, if_true]
      exact ⟨_, rfl, i, h1⟩
  | succ d ih =>
    obtain ⟨fuel, hf⟩ : ∃ fuel, maxiter - i = fuel + 1 := ⟨maxiter - i - 1, by omega⟩
    rw [hf]
    unfold scfLoop
    rcases hstep i with ⟨e, he⟩ | ⟨st', h1, h2⟩
    · right
      exact ⟨i, e, he, by rw [he]⟩
    · rcases hb : (env.mix (s i) (q i) (y i)).1 with _ | _
      · have m2 : env.mix (s i) (q i) (y i) = (false, q (i + 1), s (i + 1)) := Prod.ext hb (hmix i)
        simp only [h1, h2, m2, Bool.false_eq_true, if_false]
        rw [if_neg (by omega)]
        have := ih (i + 1) (by omega) st'
        rwa [show maxiter - (i + 1) = fuel by omega] at this
      · have m2 : env.mix (s i) (q i) (y i) = (true, q (i + 1), s (i + 1)) := Prod.ext hb (hmix i)
        left
        simp only [h1, h2, m2, if_true]
        exact ⟨_, rfl, i, h1⟩

end Loop

theorem vecOf_ofFn {n : ℕ} (q : QVec n) : vecOf n (List.ofFn q) = q := by
  funext i
  simp [vecOf, List.getD_eq_getElem?_getD]

theorem ofFn_vecOf {n : ℕ} {l : List ℝ} (h : l.length = n) : List.ofFn (vecOf n l) = l := by
  subst h
  refine List.ext_getElem (by simp) fun i h1 h2 => ?_
  simp [vecOf, List.getD_eq_getElem?_getD, h2]

/-- The mixer always takes the same part of the new charges, and says that it is done soon after all differences
are small. -/
structure Damps {n : ℕ} (call : MixerState n → QVec n → QVec n → Bool × QVec n × MixerState n) (p : MixerParams) :
    Prop where
  next : ∀ s xi yi, (call s xi yi).2.1 = xi + p.beta • (yi - xi)
  ends : ∃ m, ∀ (q y : ℕ → QVec n) (s : ℕ → MixerState n), s 0 = .reset →
    (∀ i, s (i + 1) = (call (s i) (q i) (y i)).2.2) → ∀ n0, (∀ i, n0 ≤ i → maxAbs (y i - q i) < p.convergence) →
    (call (s (n0 + m)) (q (n0 + m)) (y (n0 + m))).1 = true

theorem simpleMix_step {n : ℕ} (p : MixerParams) (xi yi : QVec n) : simpleMix p xi yi = xi + p.beta • (yi - xi) := by
  unfold simpleMix
  rw [sub_smul, one_smul, smul_sub]
  abel

theorem anderson_damps {n : ℕ} {p : MixerParams} (hm : p.memory ≤ 1) (hc : p.chop = none)
    (solve : {M : ℕ} → (Fin M → Fin M → ℝ) → (Fin M → ℝ) → Option (Fin M → ℝ)) :
    Damps (andersonCall (n := n) p solve) p := by
  refine ⟨fun s xi yi => ?_, 0, fun q y s _ _ n0 h => ?_⟩
  · unfold andersonCall chopStep
    dsimp only
    rw [if_pos (by omega), hc]
    exact simpleMix_step p xi yi
  · unfold andersonCall
    dsimp only
    exact decide_eq_true (h _ le_rfl)

theorem pulay_damps {n : ℕ} {p : MixerParams} (hm : p.memory = 1) (hc : p.chop = none)
    {inv : {M : ℕ} → (Fin M → Fin M → ℝ) → Option (Fin M → Fin M → ℝ)}
    (hinv : ∀ (A B : Fin 1 → Fin 1 → ℝ), inv A = some B → A 0 0 * B 0 0 = 1) :
    Damps (pulayCall (n := n) p (fun {M} => inv (M := M))) p := by
  refine ⟨fun s xi yi => ?_, 3, fun q y s h0 hs n0 h => ?_⟩
  · have hlim : min (s.it + 1) p.memory = 1 := by omega
    unfold pulayCall chopStep
    dsimp only
    rw [hc]
    dsimp only
    generalize hl : min (s.it + 1) p.memory = lim
    rw [hlim] at hl
    subst hl
    split
    · exact simpleMix_step p xi yi
    · rename_i iA hiA
      have hne : iA 0 0 ≠ 0 := fun h0 => by
        have := hinv _ _ hiA
        rw [h0, mul_zero] at this
        exact zero_ne_one this
      rw [hm]
      simp only [Fin.sum_univ_one, List.take_succ_cons, List.take_zero]
      rw [div_self hne, one_smul]
      rfl
  · have hit : ∀ i, (s i).it = i := by
      intro i
      induction i with
      | zero => rw [h0]; rfl
      | succ i ih => rw [hs i]; show (s i).it + 1 = _; rw [ih]
    have hf : ∀ i, (s (i + 1)).fmax = maxAbs (y i - q i) :: (s i).fmax := fun i => by rw [hs i]; rfl
    unfold pulayCall
    dsimp only
    rw [Bool.and_eq_true]
    refine ⟨decide_eq_true (by rw [hit]; omega), ?_⟩
    rw [show n0 + 3 = n0 + 1 + 1 + 1 from rfl, hf, hf]
    simp only [List.take_succ_cons, List.take_zero, List.all_cons, List.all_nil, Bool.and_true, Bool.and_eq_true,
      decide_eq_true_eq]
    exact ⟨h _ (by omega), h _ (by omega), h _ (by omega)⟩

section Main

variable {P : ScfIn} {A : Atoms} {elements : String → Option ElementData} {x : Setup P}

open scoped ComplexOrder in
/-- The cycle ends. -/
theorem damped_scf (hfit : Fits P A elements) (hA : InversionClosed A) (hx : setupOf P A = .ok x) (hs : P.scc = true)
    (hpos : ∀ q E, EsEnergy P.cd P.bohr P.U P.w P.gcut A q E → 0 ≤ E) (hw : 0 < P.width)
    (hk : ∀ k, 0 < P.wk k) (h0 : 0 < P.nel) (h1 : P.nel < 2 * P.t.norb * ∑ k, P.wk k)
    {p : MixerParams} (hp : SlowMixing A x p)
    {call : MixerState A.positions.length → QVec A.positions.length → QVec A.positions.length →
      Bool × QVec A.positions.length × MixerState A.positions.length} (hd : Damps call p)
    {T : ScfTools P (MixerState A.positions.length)} (hT : Solvable T x) (hmix : T.mix = listMixer call)
    {guess : List ℝ} (hg : guess.length = A.positions.length) :
    ∃ n0, ∀ m, n0 ≤ m →
      (∃ r q pp, getStates (scfEnv T x A.positions.length) P.scc m none .reset guess = .ok r ∧ r.states = some pp ∧
        onePass T x A.positions.length (some q) = .ok pp) ∨
      ∃ q e, onePass T x A.positions.length (some q) = .error e ∧
        getStates (scfEnv T x A.positions.length) P.scc m none .reset guess = .error e := by
  obtain ⟨D, d1, d2⟩ := response_exists hfit hx hs hw hk h0 h1 hT.hermitian hT.posDef
  -- the charges after an iteration
  set out : QVec A.positions.length → List ℝ := fun q =>
    match onePass T x A.positions.length (some (List.ofFn q)) with
    | .ok pp => pp.dq
    | .error _ => List.ofFn (D q) with hout
  set z : ℕ → QVec A.positions.length × MixerState A.positions.length := fun i =>
    Nat.rec (vecOf A.positions.length guess, .reset) (fun _ z => (call z.2 z.1 (vecOf A.positions.length (out z.1))).2) i with hz
  have zs : ∀ i, z (i + 1) = (call (z i).2 (z i).1 (vecOf A.positions.length (out (z i).1))).2 := fun i => rfl
  set q : ℕ → QVec A.positions.length := fun i => (z i).1 with hq
  set y : ℕ → QVec A.positions.length := fun i => vecOf A.positions.length (out (q i)) with hy
  have noise : ∀ i, formLen (dotForm A.positions.length) (y i - D (q i)) ≤ chargeNoise x := by
    intro i
    rw [hy]
    dsimp only
    rw [hout]
    dsimp only
    rcases ho : onePass T x A.positions.length (some (List.ofFn (q i))) with e | pp
    · dsimp only
      rw [vecOf_ofFn, sub_self]
      unfold formLen
      rw [map_zero, Real.sqrt_zero]
      exact Real.sqrt_nonneg _
    · have := d2 _ T (List.ofFn (q i)) pp hT ho
      rwa [vecOf_ofFn] at this
  have hC : 0 < softness x := softness_pos hk
  have hG : 0 ≤ stiffness P A := Finset.sum_nonneg fun i _ => Finset.sum_nonneg fun j _ => abs_nonneg _
  obtain ⟨n0, hn0⟩ := damped_converges (gamMat_form hA hx hs hpos) dotForm_pos (g := stiffness P A)
    (c := P.width / 2 / softness x) hG (matForm_le (gamMat P A)) (by positivity) d1 (Real.sqrt_nonneg _) hp.beta.1 hp.beta.2
    (by
      have e : 2 * (1 - p.beta) * (P.width / 2 / softness x) = (1 - p.beta) * P.width / softness x := by ring
      rw [e, le_div_iff₀ hC]
      have := hp.slow
      linarith) (q := q) (y := y) noise (fun n => by rw [← hd.next (z n).2])
    (t := p.convergence) (by
      refine lt_of_le_of_lt (le_of_eq ?_) hp.limit
      congr 3
      field_simp
      ring)
  obtain ⟨m0, hm0⟩ := hd.ends
  have hdone := hm0 q y (fun i => (z i).2) rfl (fun i => congrArg Prod.snd (zs i)) n0
    fun i hi => lt_of_le_of_lt (maxAbs_le_len _) (hn0 i hi)
  refine ⟨n0 + m0 + 1, fun m hm => ?_⟩
  have := scfLoop_ends (env := scfEnv T x A.positions.length) (q := fun i => List.ofFn (q i)) (y := fun i => out (q i))
    (s := fun i => (z i).2) (fun i => ?_) (fun i => ?_) (n := n0 + m0) ?_ (maxiter := m) (by omega) (n0 + m0) 0 (by omega)
    none
  · have e0 : List.ofFn (q 0) = guess := ofFn_vecOf hg
    rw [e0] at this
    unfold getStates
    rw [if_pos hs]
    rcases this with ⟨r, a1, j, a2⟩ | ⟨j, e, a1, a2⟩
    · left
      rcases ho : onePass T x A.positions.length (some (List.ofFn (q j))) with e | pp
      · simp only [scfEnv, ho, Except.map] at a2
        cases a2
      · simp only [scfEnv, ho, Except.map, Except.ok.injEq] at a2
        exact ⟨r, _, pp, a1, a2.symm, ho⟩
    · right
      rcases ho : onePass T x A.positions.length (some (List.ofFn (q j))) with e' | pp
      · simp only [scfEnv, ho, Except.map, Except.error.injEq] at a1
        subst a1
        exact ⟨_, _, ho, a2⟩
      · simp only [scfEnv, ho, Except.map] at a1
        cases a1
  · rcases ho : onePass T x A.positions.length (some (List.ofFn (q i))) with e | pp
    · left
      exact ⟨e, by simp only [scfEnv, ho, Except.map]⟩
    · right
      refine ⟨some pp, by simp only [scfEnv, ho, Except.map], ?_⟩
      rw [hout]
      dsimp only
      rw [ho]
      rfl
  · show (T.mix _ _ _).2 = _
    rw [hmix]
    unfold listMixer
    dsimp only
    rw [vecOf_ofFn]
  · show (T.mix _ _ _).1 = _
    rw [hmix]
    unfold listMixer
    dsimp only
    rw [vecOf_ofFn]
    exact hdone

end Main

end Hotbit
