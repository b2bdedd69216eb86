import Verif.Lemmas.Mixers
import Verif.Model.Solver

/-!
# C15–C19: self-consistency loop and charge mixing
-/

namespace Hotbit

variable {n : ℕ}

/-- The mixer's state after a history of calls (input, output), oldest first. -/
def runMixer (call : MixerState n → QVec n → QVec n → Bool × QVec n × MixerState n)
    (h : List (QVec n × QVec n)) : MixerState n :=
  h.foldl (fun s p => (call s p.1 p.2).2.2) MixerState.reset

/-- All vectors of a history carry the same total charge `Q`. -/
def SameTotal (Q : ℝ) (h : List (QVec n × QVec n)) : Prop :=
  ∀ p ∈ h, total p.1 = Q ∧ total p.2 = Q

/-! ## C16 -/

theorem runMixer_inv (p : MixerParams) (Q : ℝ)
    (call : MixerState n → QVec n → QVec n → Bool × QVec n × MixerState n)
    (hcall : ∀ s xi yi, (call s xi yi).2.2 =
      { it := s.it + 1, F := ((yi - xi) :: s.F).take p.memory, x := (xi :: s.x).take p.memory,
        fmax := maxAbs (yi - xi) :: s.fmax })
    (h : List (QVec n × QVec n)) (hQ : SameTotal Q h) : HistInv p Q (runMixer call h) := by
  suffices ∀ s, HistInv p Q s → HistInv p Q (h.foldl (fun s p => (call s p.1 p.2).2.2) s) from
    this _ (HistInv.init p Q)
  induction h with
  | nil => intro s hs; exact hs
  | cons a h ih =>
    intro s hs
    refine ih (fun q hq => hQ q (List.mem_cons_of_mem _ hq)) _ ?_
    simp only [hcall]
    exact hs.push _ _ (hQ a List.mem_cons_self).1 (hQ a List.mem_cons_self).2 _

/-- C16, Anderson: after any history of charge-conserving calls, with any linear solver, mixing
constant, memory and damping, the returned charges have the same total. -/
theorem c16_anderson (p : MixerParams)
    (solve : {M : ℕ} → (Fin M → Fin M → ℝ) → (Fin M → ℝ) → Option (Fin M → ℝ)) (Q : ℝ)
    (h : List (QVec n × QVec n)) (hQ : SameTotal Q h) (xi yi : QVec n)
    (hx : ∑ i, xi i = Q) (hy : ∑ i, yi i = Q) :
    ∑ i, (andersonCall p solve (runMixer (andersonCall p solve) h) xi yi).2.1 i = Q := by
  have inv := runMixer_inv p Q (andersonCall p solve) (fun _ _ _ => rfl) h hQ
  generalize runMixer (andersonCall p solve) h = s at *
  change total _ = Q
  unfold andersonCall
  simp only
  refine total_chopStep p _ _ _ hx ?_
  split
  · exact total_simpleMix p _ _ _ hx hy
  · split
    · exact total_simpleMix p _ _ _ hx hy
    · rename_i c _
      have hxh : ∀ j : Fin (min s.it p.memory), total (s.x.getD j 0) = Q := fun j =>
        inv.totX _ (getD_mem _ _ _ (by rw [inv.lenX]; exact j.2))
      have hFh : ∀ j : Fin (min s.it p.memory), total (s.F.getD j 0) = 0 := fun j =>
        inv.totF _ (getD_mem _ _ _ (by rw [inv.lenF]; exact j.2))
      have hx' : total xi = Q := hx
      have hy' : total yi = Q := hy
      simp only [total_add, total_sum, total_smul, total_sub, hxh, hFh, hx', hy']
      simp

/-- C16, Pulay: the same, provided the entries of the inverse do not add up to zero (the code
divides by that number; numpy then returns NaN or infinity). -/
theorem c16_pulay (p : MixerParams) (hm : 1 ≤ p.memory)
    (inv : {M : ℕ} → (Fin M → Fin M → ℝ) → Option (Fin M → Fin M → ℝ))
    (hinv : ∀ (M : ℕ) (A : Fin M → Fin M → ℝ) iA, 0 < M → inv A = some iA →
      ∑ i, ∑ j, iA i j ≠ 0) (Q : ℝ)
    (h : List (QVec n × QVec n)) (hQ : SameTotal Q h) (xi yi : QVec n)
    (hx : ∑ i, xi i = Q) (hy : ∑ i, yi i = Q) :
    ∑ i, (pulayCall p inv (runMixer (pulayCall p inv) h) xi yi).2.1 i = Q := by
  have hI := runMixer_inv p Q (pulayCall p inv) (fun _ _ _ => rfl) h hQ
  generalize runMixer (pulayCall p inv) h = s at *
  change total _ = Q
  have hI' := hI.push xi yi hx hy []
  unfold pulayCall
  simp only
  refine total_chopStep p _ _ _ hx ?_
  split
  · exact total_simpleMix p _ _ _ hx hy
  · rename_i iA hiA
    have hd := hinv _ _ iA (by omega) hiA
    have hxh : ∀ j : Fin (min (s.it + 1) p.memory),
        total (((xi :: s.x).take p.memory).getD j 0) = Q := fun j =>
      hI'.totX _ (getD_mem _ _ _ (by rw [hI'.lenX]; exact j.2))
    have hFh : ∀ j : Fin (min (s.it + 1) p.memory),
        total ((((yi - xi) :: s.F).take p.memory).getD j 0) = 0 := fun j =>
      hI'.totF _ (getD_mem _ _ _ (by rw [hI'.lenF]; exact j.2))
    simp only [total_add, total_sum, total_smul, hxh, hFh, mul_zero, add_zero]
    rw [← Finset.sum_mul, ← Finset.sum_div]
    rw [Finset.sum_comm, div_self hd, one_mul]

/-- A concrete charge-conserving history of three calls, and a solver for it. -/
example : SameTotal (1 : ℝ) ([(![1, 0], ![0, 1]), (![1/2, 1/2], ![0, 1]), (![0, 1], ![1/4, 3/4])] :
    List (QVec 2 × QVec 2)) := by
  intro p hp
  simp only [List.mem_cons, List.not_mem_nil, or_false] at hp
  rcases hp with rfl | rfl | rfl <;> norm_num [total]

/-! ## C17 -/

theorem chopStep_bound (p : MixerParams) (c : ℝ) (hp : p.chop = some c) (hc : 0 < c)
    (xi xb : QVec n) (i : Fin n) : |chopStep p xi xb i - xi i| ≤ c := by
  unfold chopStep
  rw [hp]
  simp only
  split
  · rename_i h
    have h0 : 0 < maxAbs (xb - xi) := hc.trans h
    have := abs_le_maxAbs (xb - xi) i
    simp only [Pi.add_apply, Pi.smul_apply, smul_eq_mul, add_sub_cancel_left]
    rw [abs_mul, abs_of_pos (div_pos hc h0)]
    calc c / maxAbs (xb - xi) * |(xb - xi) i| ≤ c / maxAbs (xb - xi) * maxAbs (xb - xi) :=
          mul_le_mul_of_nonneg_left this (div_pos hc h0).le
      _ = c := by field_simp
  · rename_i h
    have := abs_le_maxAbs (xb - xi) i
    simp only [Pi.sub_apply] at this
    linarith [not_lt.1 h]

/-- C17: with damping `chop = c > 0`, no component of the returned vector differs from the input
by more than `c`, in any state of either mixer. -/
theorem c17_bound (p : MixerParams) (c : ℝ) (hp : p.chop = some c) (hc : 0 < c)
    (solve : {M : ℕ} → (Fin M → Fin M → ℝ) → (Fin M → ℝ) → Option (Fin M → ℝ))
    (inv : {M : ℕ} → (Fin M → Fin M → ℝ) → Option (Fin M → Fin M → ℝ))
    (s : MixerState n) (xi yi : QVec n) (i : Fin n) :
    |(andersonCall p solve s xi yi).2.1 i - xi i| ≤ c ∧
    |(pulayCall p inv s xi yi).2.1 i - xi i| ≤ c :=
  ⟨chopStep_bound p c hp hc _ _ _, chopStep_bound p c hp hc _ _ _⟩

/-- C17: the damped vector is the undamped one if that is within the bound, otherwise a point on
the segment from the input to it, with the largest change equal to the bound. -/
theorem c17_direction (p : MixerParams) (c : ℝ) (hc : 0 < c)
    (solve : {M : ℕ} → (Fin M → Fin M → ℝ) → (Fin M → ℝ) → Option (Fin M → ℝ))
    (inv : {M : ℕ} → (Fin M → Fin M → ℝ) → Option (Fin M → Fin M → ℝ))
    (s : MixerState n) (xi yi : QVec n) (pulay : Bool) :
    let call := fun q : MixerParams =>
      if pulay then pulayCall q inv s xi yi else andersonCall q solve s xi yi
    let free := (call { p with chop := none }).2.1
    let damped := (call { p with chop := some c }).2.1
    ((∀ i, |free i - xi i| ≤ c) → damped = free) ∧
    ((∃ i, c < |free i - xi i|) →
      ∃ t : ℝ, 0 < t ∧ t < 1 ∧ damped = xi + t • (free - xi) ∧ maxAbs (damped - xi) = c) := by
  intro call free damped
  have hd : damped = chopStep { p with chop := some c } xi free := by
    simp only [damped, free, call]
    cases pulay <;> rfl
  constructor
  · intro h
    have : ¬ c < maxAbs (free - xi) := not_lt.2 ((maxAbs_le _ _ hc.le).2 h)
    rw [hd]; simp [chopStep, this]
  · rintro ⟨i, hi⟩
    have h : c < maxAbs (free - xi) := hi.trans_le (abs_le_maxAbs (free - xi) i)
    have h0 := hc.trans h
    have e : damped = xi + (c / maxAbs (free - xi)) • (free - xi) := by
      rw [hd]; simp [chopStep, h]
    refine ⟨c / maxAbs (free - xi), div_pos hc h0, (div_lt_one h0).2 h, e, ?_⟩
    rw [e, add_sub_cancel_left]
    have hs : ∀ (t : ℝ), 0 < t → ∀ v : QVec n, maxAbs (t • v) = t * maxAbs v := by
      intro t ht v
      apply le_antisymm
      · rw [maxAbs_le _ _ (mul_nonneg ht.le (maxAbs_nonneg v))]
        intro i
        simp only [Pi.smul_apply, smul_eq_mul, abs_mul, abs_of_pos ht]
        exact mul_le_mul_of_nonneg_left (abs_le_maxAbs v i) ht.le
      · rw [← le_div_iff₀' ht, maxAbs_le _ _ (div_nonneg (maxAbs_nonneg _) ht.le)]
        intro i
        rw [le_div_iff₀' ht]
        have := abs_le_maxAbs (t • v) i
        simpa [abs_mul, abs_of_pos ht] using this
    rw [hs _ (div_pos hc h0)]
    field_simp

/-- C17: a fixed point is a fixed point of simple mixing, with or without damping; in particular
the first two Anderson calls of a run return a converged vector unchanged. -/
theorem c17_fixed (p : MixerParams) (hc : ∀ c, p.chop = some c → 0 ≤ c)
    (solve : {M : ℕ} → (Fin M → Fin M → ℝ) → (Fin M → ℝ) → Option (Fin M → ℝ))
    (s : MixerState n) (hs : s.it ≤ 1 ∨ p.memory ≤ 1) (x : QVec n) :
    (andersonCall p solve s x x).2.1 = x := by
  have hM : min s.it p.memory ≤ 1 := by omega
  have hmix : simpleMix p x x = x := by
    ext i; simp [simpleMix]; ring
  have hz : maxAbs (0 : QVec n) = 0 :=
    le_antisymm ((maxAbs_le _ _ le_rfl).2 (by simp)) (maxAbs_nonneg _)
  unfold andersonCall
  simp only [hM, if_true, hmix]
  unfold chopStep
  split
  · rfl
  · rename_i c hc'
    rw [if_neg]
    rw [sub_self, hz]
    exact not_lt.2 (hc c hc')

/-! ## C18 -/

/-- C18, Anderson: convergence is reported iff every component's residual in this call is below
the tolerance. -/
theorem c18_anderson (p : MixerParams) (hp : 0 < p.convergence)
    (solve : {M : ℕ} → (Fin M → Fin M → ℝ) → (Fin M → ℝ) → Option (Fin M → ℝ))
    (s : MixerState n) (xi yi : QVec n) :
    (andersonCall p solve s xi yi).1 = true ↔ ∀ i, |yi i - xi i| < p.convergence := by
  unfold andersonCall
  simp only [decide_eq_true_eq, maxAbs_lt _ _ hp, Pi.sub_apply]

theorem runMixer_fmax (call : MixerState n → QVec n → QVec n → Bool × QVec n × MixerState n)
    (hf : ∀ s xi yi, (call s xi yi).2.2.fmax = maxAbs (yi - xi) :: s.fmax)
    (hi : ∀ s xi yi, (call s xi yi).2.2.it = s.it + 1) (h : List (QVec n × QVec n)) :
    (runMixer call h).fmax = (h.map fun p => maxAbs (p.2 - p.1)).reverse ∧
      (runMixer call h).it = h.length := by
  suffices ∀ s, (h.foldl (fun s p => (call s p.1 p.2).2.2) s).fmax
      = (h.map fun p => maxAbs (p.2 - p.1)).reverse ++ s.fmax ∧
      (h.foldl (fun s p => (call s p.1 p.2).2.2) s).it = s.it + h.length by
    simpa [runMixer, MixerState.reset] using this MixerState.reset
  induction h with
  | nil => simp
  | cons a h ih =>
    intro s
    have := ih (call s a.1 a.2).2.2
    rw [hf, hi] at this
    simp only [List.foldl_cons, List.map_cons, List.reverse_cons, List.length_cons]
    refine ⟨by rw [this.1]; simp, by rw [this.2]; omega⟩

/-- C18, Pulay: after any history, convergence is reported iff this is at least the fourth call
and in each of the last three calls, this one included, every residual is below the tolerance. -/
theorem c18_pulay (p : MixerParams) (hp : 0 < p.convergence)
    (inv : {M : ℕ} → (Fin M → Fin M → ℝ) → Option (Fin M → Fin M → ℝ))
    (h : List (QVec n × QVec n)) (xi yi : QVec n) :
    (pulayCall p inv (runMixer (pulayCall p inv) h) xi yi).1 = true ↔
      4 ≤ (h ++ [(xi, yi)]).length ∧
      ∀ q ∈ (h ++ [(xi, yi)]).reverse.take 3, ∀ i, |q.2 i - q.1 i| < p.convergence := by
  have hf := runMixer_fmax (pulayCall p inv) (fun _ _ _ => rfl) (fun _ _ _ => rfl) h
  generalize runMixer (pulayCall p inv) h = s at *
  unfold pulayCall
  simp only [Bool.and_eq_true, decide_eq_true_eq, hf.2, hf.1, List.length_append,
    List.length_singleton]
  refine and_congr (by omega) ?_
  have e : maxAbs (yi - xi) :: (h.map fun p => maxAbs (p.2 - p.1)).reverse
      = ((h ++ [(xi, yi)]).reverse.map fun p => maxAbs (p.2 - p.1)) := by simp
  rw [e, ← List.map_take, List.all_eq_true]
  simp only [List.mem_map, decide_eq_true_eq]
  constructor
  · intro hh q hq
    have := hh _ ⟨q, hq, rfl⟩
    rw [maxAbs_lt _ _ hp] at this
    simpa using this
  · rintro hh _ ⟨q, hq, rfl⟩
    rw [maxAbs_lt _ _ hp]
    simpa using hh q hq

/-! ## C15 -/

variable {St Q Mx : Type}

theorem scfLoop_ok (env : ScfEnv St Q Mx) (maxiter : ℕ) :
    ∀ fuel i st mx dq r, fuel + i = maxiter → 0 < fuel →
      scfLoop env maxiter fuel i st mx dq = .ok r →
      i < r.diagonalizations ∧ r.diagonalizations ≤ maxiter ∧
      r.iterations = some (r.diagonalizations - 1) ∧
      env.solve (some r.charges) = .ok r.states ∧
      ∃ mx', (env.mix mx' r.charges (env.dqOut r.states)).1 = true := by
  intro fuel
  induction fuel with
  | zero => intro i st mx dq r _ h0; omega
  | succ fuel ih =>
    intro i st mx dq r hfi _ h
    unfold scfLoop at h
    cases hs : env.solve (some dq) with
    | error e => simp [hs] at h
    | ok st' =>
      simp only [hs] at h
      rcases hm : env.mix mx dq (env.dqOut st') with ⟨done, dq', mx'⟩
      simp only [hm] at h
      cases done with
      | true =>
        simp only [if_true, Except.ok.injEq] at h
        subst h
        exact ⟨by simp, by simp; omega, by simp, hs, mx, by simp [hm]⟩
      | false =>
        simp only [Bool.false_eq_true, if_false] at h
        split at h
        · simp at h
        · obtain ⟨a, b, c⟩ := ih (i + 1) st' mx' dq' r (by omega) (by omega) h
          exact ⟨by omega, b, c⟩

/-- C15: with at least one allowed iteration, a self-consistent run that returns has made at most
`maxiter` diagonalizations; the returned states are the solution for the returned charges, and the
mixer, shown these charges and those that came out, reported convergence. -/
theorem c15_scc (env : ScfEnv St Q Mx) (maxiter : ℕ) (hm : 1 ≤ maxiter) (st0 : St) (mx0 : Mx)
    (dq : Q) (r : ScfResult St Q Mx) (h : getStates env true maxiter st0 mx0 dq = .ok r) :
    1 ≤ r.diagonalizations ∧ r.diagonalizations ≤ maxiter ∧
      env.solve (some r.charges) = .ok r.states ∧
      ∃ mx, (env.mix mx r.charges (env.dqOut r.states)).1 = true := by
  simp only [getStates, if_true] at h
  obtain ⟨a, b, _, c, d⟩ := scfLoop_ok env maxiter maxiter 0 st0 mx0 dq r rfl hm h
  exact ⟨a, b, c, d⟩

/-- C15 with the Anderson mixer: returned charges reproduce themselves within the tolerance. -/
theorem c15_anderson_converged (p : MixerParams) (hp : 0 < p.convergence)
    (solveLin : {M : ℕ} → (Fin M → Fin M → ℝ) → (Fin M → ℝ) → Option (Fin M → ℝ))
    (solve : Option (QVec n) → Except Exn St) (dqOut : St → QVec n) (maxiter : ℕ)
    (hm : 1 ≤ maxiter) (st0 : St) (dq : QVec n) (r : ScfResult St (QVec n) (MixerState n))
    (h : getStates ⟨solve, dqOut, andersonCall p solveLin⟩ true maxiter st0 .reset dq = .ok r) :
    solve (some r.charges) = .ok r.states ∧
      ∀ i, |dqOut r.states i - r.charges i| < p.convergence := by
  obtain ⟨-, -, h1, mx, h2⟩ := c15_scc _ maxiter hm st0 _ dq r h
  exact ⟨h1, (c18_anderson p hp solveLin mx _ _).1 h2⟩

/-- C15 with the Pulay mixer: the same. -/
theorem c15_pulay_converged (p : MixerParams) (hp : 0 < p.convergence)
    (inv : {M : ℕ} → (Fin M → Fin M → ℝ) → Option (Fin M → Fin M → ℝ))
    (solve : Option (QVec n) → Except Exn St) (dqOut : St → QVec n) (maxiter : ℕ)
    (hm : 1 ≤ maxiter) (st0 : St) (dq : QVec n) (r : ScfResult St (QVec n) (MixerState n))
    (h : getStates ⟨solve, dqOut, pulayCall p inv⟩ true maxiter st0 .reset dq = .ok r) :
    solve (some r.charges) = .ok r.states ∧
      ∀ i, |dqOut r.states i - r.charges i| < p.convergence := by
  obtain ⟨-, -, h1, mx, h2⟩ := c15_scc _ maxiter hm st0 _ dq r h
  refine ⟨h1, ?_⟩
  unfold pulayCall at h2
  simp only [Bool.and_eq_true, List.all_eq_true, decide_eq_true_eq] at h2
  have := h2.2 (maxAbs (dqOut r.states - r.charges)) (by simp)
  rwa [maxAbs_lt _ _ hp] at this

/-- C15: if the mixer never reports convergence and nothing else fails, the run fails with
`RuntimeError` (out of iterations). -/
theorem c15_out_of_iterations (env : ScfEnv St Q Mx) (maxiter : ℕ) (hm : 1 ≤ maxiter) (st0 : St)
    (mx0 : Mx) (dq : Q) (hs : ∀ q, ∃ st, env.solve (some q) = .ok st)
    (hmix : ∀ mx a b, (env.mix mx a b).1 = false) :
    getStates env true maxiter st0 mx0 dq = .error .runtimeError := by
  simp only [getStates, if_true]
  suffices ∀ fuel i st mx dq, fuel + i = maxiter → 0 < fuel →
      scfLoop env maxiter fuel i st mx dq = .error .runtimeError from
    this maxiter 0 st0 mx0 dq rfl hm
  intro fuel
  induction fuel with
  | zero => intro i st mx dq _ h0; omega
  | succ fuel ih =>
    intro i st mx dq hfi _
    obtain ⟨st', hst⟩ := hs dq
    have hd := hmix mx dq (env.dqOut st')
    unfold scfLoop
    rcases hm' : env.mix mx dq (env.dqOut st') with ⟨done, dq', mx'⟩
    rw [hm'] at hd
    simp only at hd
    subst hd
    simp only [hst, hm', Bool.false_eq_true, if_false]
    split
    · rfl
    · exact ih _ _ _ _ (by omega) (by omega)

/-- C15: without self-consistency exactly one diagonalization is made, and the mixer is not used. -/
theorem c15_nonscc (env : ScfEnv St Q Mx) (maxiter : ℕ) (hm : 1 ≤ maxiter) (st0 : St) (mx0 : Mx)
    (dq : Q) :
    (∀ st, env.solve none = .ok st → ∃ r, getStates env false maxiter st0 mx0 dq = .ok r ∧
      r.states = st ∧ r.diagonalizations = 1 ∧ r.mixer = mx0) ∧
    (∀ e, env.solve none = .error e → getStates env false maxiter st0 mx0 dq = .error e) := by
  have : maxiter ≠ 0 := by omega
  constructor
  · intro st hs
    exact ⟨⟨st, dq, 1, none, mx0⟩, by simp [getStates, this, hs], rfl, rfl, rfl⟩
  · intro e hs
    simp [getStates, this, hs]

/-- C15 is false for `maxiter = 0`: the loop body never runs and the states left from before the
call are returned as if converged. -/
theorem c15_zero_fails (env : ScfEnv St Q Mx) (scc : Bool) (st0 : St) (mx0 : Mx) (dq : Q) :
    ∃ r, getStates env scc 0 st0 mx0 dq = .ok r ∧ r.states = st0 ∧ r.diagonalizations = 0 := by
  cases scc <;> exact ⟨_, rfl, rfl, rfl⟩

/-- C16 for the loop: if the starting charges and all charges coming out of the solver total `Q0`,
then so do the charges that every Hamiltonian of the Anderson-mixed run is built from. -/
theorem c16_loop (p : MixerParams)
    (solveLin : {M : ℕ} → (Fin M → Fin M → ℝ) → (Fin M → ℝ) → Option (Fin M → ℝ))
    (solve : Option (QVec n) → Except Exn St) (dqOut : St → QVec n) (Q0 : ℝ)
    (hout : ∀ q st, solve (some q) = .ok st → ∑ i, dqOut st i = Q0)
    (maxiter : ℕ) (st0 : St) (dq : QVec n) (hdq : ∑ i, dq i = Q0)
    (r : ScfResult St (QVec n) (MixerState n))
    (h : getStates ⟨solve, dqOut, andersonCall p solveLin⟩ true maxiter st0 .reset dq = .ok r) :
    ∑ i, r.charges i = Q0 := by
  simp only [getStates, if_true] at h
  suffices ∀ fuel i st (hist : List (QVec n × QVec n)) dq, SameTotal Q0 hist → ∑ i, dq i = Q0 →
      scfLoop ⟨solve, dqOut, andersonCall p solveLin⟩ maxiter fuel i st
        (runMixer (andersonCall p solveLin) hist) dq = .ok r → ∑ i, r.charges i = Q0 from
    this maxiter 0 st0 [] dq (by simp [SameTotal]) hdq h
  intro fuel
  induction fuel with
  | zero =>
    intro i st hist dq hh hq h
    simp only [scfLoop, Except.ok.injEq] at h
    subst h
    exact hq
  | succ fuel ih =>
    intro i st hist dq hh hq h
    unfold scfLoop at h
    cases hs : solve (some dq) with
    | error e => simp [hs] at h
    | ok st' =>
      simp only [hs] at h
      have ho := hout dq st' hs
      split at h
      · simp only [Except.ok.injEq] at h
        subst h
        exact hq
      · split at h
        · simp at h
        · have e : runMixer (andersonCall p solveLin) (hist ++ [(dq, dqOut st')])
              = (andersonCall p solveLin (runMixer (andersonCall p solveLin) hist) dq
                  (dqOut st')).2.2 := by
            simp [runMixer]
          rw [← e] at h
          refine ih (i + 1) st' (hist ++ [(dq, dqOut st')]) _ ?_
            (c16_anderson p solveLin Q0 hist hh dq (dqOut st') hq ho) h
          intro q hq'
          rcases List.mem_append.1 hq' with hq' | hq'
          · exact hh q hq'
          · rw [List.mem_singleton] at hq'; subst hq'; exact ⟨hq, ho⟩

/-- A loop that converges in the first iteration: a solver whose outcome is the input. -/
example : ∃ r, getStates (St := QVec 2) ⟨fun q => .ok (q.getD 0), id,
    andersonCall ⟨0.2, 3, 1e-3, none⟩ (fun _ b => some b)⟩ true 50 0 .reset ![0.1, -0.1] = .ok r := by
  have hd : (andersonCall (n := 2) ⟨0.2, 3, 1e-3, none⟩ (fun _ b => some b) .reset
      ![0.1, -0.1] ![0.1, -0.1]).1 = true :=
    (c18_anderson _ (by norm_num) _ _ _ _).2 (by intro i; simp; norm_num)
  refine ⟨⟨![0.1, -0.1], ![0.1, -0.1], 1, some 0, (andersonCall (n := 2) ⟨0.2, 3, 1e-3, none⟩
    (fun _ b => some b) .reset ![0.1, -0.1] ![0.1, -0.1]).2.2⟩, ?_⟩
  rw [getStates, if_pos rfl, scfLoop]
  exact if_pos hd

/-! ## C19 -/

/-- C19: no argument gives the default Anderson mixer. -/
theorem c19_default : buildMixer .none = .ok ⟨.anderson, []⟩ := rfl

/-- C19: a name in any capitalization gives the mixer of that name with default parameters; any
other name raises `KeyError`. -/
theorem c19_name (name : String) :
    buildMixer (.str name) =
      if name.toLower = "pulay" then .ok ⟨.pulay, []⟩
      else if name.toLower = "anderson" then .ok ⟨.anderson, []⟩
      else .error .keyError := by
  simp only [buildMixer, mixerClass]
  split
  · rfl
  · split <;> rfl

example : buildMixer (.str "PuLay") = .ok ⟨.pulay, []⟩ ∧
    buildMixer (.str "broyden") = .error .keyError := by
  rw [c19_name, c19_name]
  constructor
  · rw [if_pos (by decide +kernel)]
  · rw [if_neg (by decide +kernel), if_neg (by decide +kernel)]

/-- C19: a dict with a mixer's name builds that mixer with exactly the other entries as parameters,
if these are known parameters. -/
theorem c19_dict (items : List (String × PyVal)) (name : String) (k : MixerKind)
    (hn : items.lookup "name" = some (.str name)) (hk : mixerClass name = .ok k) :
    (∀ kv ∈ items, kv.1 ≠ "name" → kv.1 ∈ mixerKeys) →
    ∃ m, buildMixer (.dict items) = .ok m ∧ m.kind = k ∧
      ∀ kv, kv ∈ m.kwargs ↔ kv ∈ items ∧ kv.1 ≠ "name" := by
  intro h
  refine ⟨⟨k, items.filter fun p => p.1 ≠ "name"⟩, ?_, rfl, ?_⟩
  · have hall : (items.filter fun p => p.1 ≠ "name").all
        (fun p => mixerKeys.contains p.1) = true := by
      rw [List.all_eq_true]
      intro p hp
      rw [List.mem_filter] at hp
      have := h p hp.1 (by simpa using hp.2)
      simpa using this
    simp only [buildMixer, hn, hk, bind, Except.bind, constructMixer]
    rw [if_pos hall]
  · intro kv
    simp

/-- C19: a misspelt parameter is refused. -/
theorem c19_bad_parameter (items : List (String × PyVal)) (name : String) (k : MixerKind)
    (hn : items.lookup "name" = some (.str name)) (hk : mixerClass name = .ok k)
    (kv : String × PyVal) (hkv : kv ∈ items) (h1 : kv.1 ≠ "name") (h2 : kv.1 ∉ mixerKeys) :
    buildMixer (.dict items) = .error .typeError := by
  have hall : ¬ (items.filter fun p => p.1 ≠ "name").all
      (fun p => mixerKeys.contains p.1) = true := by
    rw [List.all_eq_true]
    intro h
    have := h kv (List.mem_filter.2 ⟨hkv, by simpa using h1⟩)
    exact h2 (by simpa using this)
  simp only [buildMixer, hn, hk, bind, Except.bind, constructMixer]
  rw [if_neg hall]

/-- C19: a dict without a name and objects of other types are refused. -/
theorem c19_refused (items : List (String × PyVal)) (hn : items.lookup "name" = none) :
    buildMixer (.dict items) = .error .exception ∧ buildMixer .other = .error .exception := by
  simp [buildMixer, hn]

example : ([("name", .str "Anderson"), ("memory", .num 5)] : List (String × PyVal)).lookup "name"
    = some (.str "Anderson") := by simp [List.lookup]

end Hotbit
