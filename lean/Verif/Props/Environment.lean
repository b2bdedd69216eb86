import Verif.Model.Environment
import Verif.Props.Electrostatics
import Verif.Props.Calculator

/-!
# C108: external potentials and lasers
-/

namespace Hotbit

open Real Matrix

/-! ### Lasers -/

theorem norm3_smul (c : ℝ) (v : Vec) : norm3 (c • v) = |c| * norm3 v := by
  unfold norm3
  rw [← sqrt_sq_eq_abs, ← sqrt_mul (sq_nonneg c)]
  congr 1
  simp only [Pi.smul_apply, smul_eq_mul]
  ring

/-- C108: the potential of a laser is that of a uniform field of strength `E0` along the polarisation that oscillates
harmonically: it is linear in the position, of equal value on planes across the polarisation, and along the polarisation the
field is `E0 sin(ωt+φ)`. -/
theorem c108_laser (hartree energy flux phase t : ℝ) (p : Vec) (hp : p ≠ 0) :
    let L := Laser.make hartree energy flux p phase
    norm3 L.pol = 1 ∧
    (∀ r s : Vec, L.call (r + s) t = L.call r t + L.call s t) ∧
    (∀ (c : ℝ) (r : Vec), L.call (c • r) t = c * L.call r t) ∧
    (∀ r : Vec, r ⬝ᵥ p = 0 → L.call r t = 0) ∧
    (∀ s : ℝ, L.call (s • L.pol) t = -(√flux * 5.33802445585E-09 * sin (energy / hartree / 0.02342178 * t + phase)) * s) ∧
    (∀ r : Vec, |L.call r t| ≤ √flux * 5.33802445585E-09 * norm3 r) := by
  intro L
  have hn := norm3_pos hp
  have hpol : L.pol = (1 / norm3 p) • p := by
    ext i
    simp only [L, Laser.make, Pi.smul_apply, smul_eq_mul]
    ring
  have h1 : norm3 L.pol = 1 := by
    rw [hpol, norm3_smul, abs_of_pos (by positivity)]
    field_simp
  have hsq : L.pol 0 ^ 2 + L.pol 1 ^ 2 + L.pol 2 ^ 2 = 1 := by
    rw [← norm3_sq, h1]; norm_num
  have hE : 0 ≤ L.E0 := by simp only [L, Laser.make]; positivity
  refine ⟨h1, ?_, ?_, ?_, ?_, ?_⟩
  · intro r s
    simp only [Laser.call, add_dotProduct]
    ring
  · intro c r
    simp only [Laser.call, smul_dotProduct, smul_eq_mul]
    ring
  · intro r hr
    simp only [Laser.call]
    rw [hpol, dotProduct_smul, hr]
    simp
  · intro s
    have : L.pol ⬝ᵥ L.pol = 1 := by
      simp only [dotProduct, Fin.sum_univ_three]
      linear_combination hsq
    simp only [Laser.call, smul_dotProduct, this]
    simp only [L, Laser.make, smul_eq_mul]
    ring
  · intro r
    have hcs : |r ⬝ᵥ L.pol| ≤ norm3 r := by
      apply abs_le_of_sq_le_sq _ (show 0 ≤ norm3 r from sqrt_nonneg _)
      rw [norm3_sq]
      simp only [dotProduct, Fin.sum_univ_three]
      have : (r 0 ^ 2 + r 1 ^ 2 + r 2 ^ 2) * 1 = (r 0 ^ 2 + r 1 ^ 2 + r 2 ^ 2) * (L.pol 0 ^ 2 + L.pol 1 ^ 2 + L.pol 2 ^ 2) := by
        rw [hsq]
      nlinarith [sq_nonneg (r 0 * L.pol 1 - r 1 * L.pol 0), sq_nonneg (r 0 * L.pol 2 - r 2 * L.pol 0),
        sq_nonneg (r 1 * L.pol 2 - r 2 * L.pol 1)]
    simp only [Laser.call, abs_mul, abs_neg, abs_of_nonneg hE]
    calc L.E0 * |sin (L.omega * t + L.phase)| * |r ⬝ᵥ L.pol| ≤ L.E0 * 1 * norm3 r := by
          gcongr
          · exact abs_sin_le_one _
      _ = _ := by simp only [L, Laser.make]; ring

/-- C108: the potential repeats after the time `2π hbar/energy`, and only the direction of the given polarisation matters. -/
theorem c108_laser_period (hartree energy flux phase t : ℝ) (p r : Vec) (hh : hartree ≠ 0) (he : energy ≠ 0) (c : ℝ) (hc : 0 < c) :
    (Laser.make hartree energy flux p phase).call r (t + 2 * π * 0.02342178 / (energy / hartree)) =
      (Laser.make hartree energy flux p phase).call r t ∧
    Laser.make hartree energy flux (c • p) phase = Laser.make hartree energy flux p phase := by
  constructor
  · simp only [Laser.call, Laser.make]
    have : energy / hartree / 0.02342178 * (t + 2 * π * 0.02342178 / (energy / hartree)) + phase =
        energy / hartree / 0.02342178 * t + phase + 2 * π := by
      field_simp
      ring
    rw [this, sin_add_two_pi]
  · simp only [Laser.make, Laser.mk.injEq, true_and, and_true]
    ext i
    rw [norm3_smul, abs_of_pos hc]
    simp only [Pi.smul_apply, smul_eq_mul]
    rw [mul_div_mul_left _ _ hc.ne']

example : (![1, 1, 0] : Vec) ≠ 0 ∧ (27.2113 : ℝ) ≠ 0 ∧ (1.5 : ℝ) ≠ 0 ∧ (0 : ℝ) < 3 := by
  refine ⟨?_, by norm_num, by norm_num, by norm_num⟩
  intro h
  have := congrFun h 0
  simp at this

/-! ### The environment -/

theorem foldl_phi (l : List (Vec → ℝ → ℝ)) (r : Vec) (t p : ℝ) :
    l.foldl (fun pot f => pot + f r t) p = p + (l.map fun f => f r t).sum := by
  induction l generalizing p with
  | nil => simp
  | cons f l ih => simp only [List.foldl_cons, ih, List.map_cons, List.sum_cons]; ring

/-- The history of an environment. -/
inductive EnvOp
  | add (phi : Vec → ℝ → ℝ)
  | time (dt : ℝ)

/-- Execution of a history. -/
noncomputable def Env.run (e : Env) : List EnvOp → Env
  | [] => e
  | .add f :: l => (e.addPhi f).run l
  | .time dt :: l => (e.propagate dt).run l

/-- The potentials of a history. -/
def EnvOp.added : List EnvOp → List (Vec → ℝ → ℝ)
  | [] => []
  | .add f :: l => f :: added l
  | .time _ :: l => added l

/-- The time passed in a history. -/
noncomputable def EnvOp.elapsed : List EnvOp → ℝ
  | [] => 0
  | .add _ :: l => elapsed l
  | .time dt :: l => dt + elapsed l

theorem env_run (h : List EnvOp) (e : Env) : (e.run h).phis = e.phis ++ EnvOp.added h ∧ (e.run h).t = e.t + EnvOp.elapsed h := by
  induction h generalizing e with
  | nil => simp [Env.run, EnvOp.added, EnvOp.elapsed]
  | cons x l ih =>
    cases x with
    | add f => simp [Env.run, EnvOp.added, EnvOp.elapsed, ih, Env.addPhi]
    | time dt =>
      simp only [Env.run, EnvOp.added, EnvOp.elapsed, ih, Env.propagate]
      exact ⟨trivial, by ring⟩

/-- C108: after any history of adding potentials and advancing time, the external potential at a point, or at an atom, is the sum
of all potentials added, each at the time passed; an atom that does not exist is an error. -/
theorem c108_phi (h : List EnvOp) (pos : List Vec) :
    (∀ r, (({} : Env).run h).phi pos (.at_ r) = .ok ((EnvOp.added h).map fun f => f r (EnvOp.elapsed h)).sum) ∧
    (∀ i (hi : i < pos.length), (({} : Env).run h).phi pos (.atom i) = (({} : Env).run h).phi pos (.at_ pos[i])) ∧
    (∀ i, pos.length ≤ i → (({} : Env).run h).phi pos (.atom i) = .error .indexError) := by
  obtain ⟨h1, h2⟩ := env_run h {}
  refine ⟨?_, ?_, ?_⟩
  · intro r
    simp only [Env.phi, Bind.bind, Except.bind, pure, Except.pure, foldl_phi, h1, h2]
    simp
  · intro i hi
    simp [Env.phi, List.getElem?_eq_getElem hi, Bind.bind, Except.bind, pure, Except.pure]
  · intro i hi
    simp [Env.phi, List.getElem?_eq_none hi, Bind.bind, Except.bind, pure, Except.pure]

example : EnvOp.elapsed [.time 0.5, .add (fun r _ => r 0), .time 0.25] = 0.75 ∧
    EnvOp.added [.time 0.5, .add (fun r _ => r 0), .time 0.25] = [fun r _ => r 0] := by
  refine ⟨?_, rfl⟩
  norm_num [EnvOp.elapsed]

/-- C108: the potentials the Hamiltonian gets are those at the atoms. -/
theorem c108_ext (e : Env) (pos : List Vec) :
    ∃ ext, e.ext pos = .ok ext ∧ ext = pos.map fun r => (e.phis.map fun f => f r e.t).sum := by
  have key : ∀ l : List ℕ, (∀ i ∈ l, i < pos.length) →
      l.mapM (fun i => e.phi pos (.atom i)) = .ok (l.map fun i => (e.phis.map fun f => f (pos.getD i 0) e.t).sum) := by
    intro l
    induction l with
    | nil => intro _; rfl
    | cons i l ih =>
      intro hl
      have hi := hl i (by simp)
      rw [List.mapM_cons, ih fun j hj => hl j (by simp [hj])]
      simp [Env.phi, List.getElem?_eq_getElem hi, Bind.bind, Except.bind, pure, Except.pure, foldl_phi]
  refine ⟨_, key _ (by simp), ?_⟩
  apply List.ext_getElem
  · simp
  · intro i h1 h2
    simp only [List.length_map, List.length_range] at h1
    simp [List.getElem?_eq_getElem h1]

/-- C108: a potential that is the same at all atoms lowers every band energy by the same amount and leaves the states as they
are: states of the Hamiltonian without it are states with it. -/
theorem c108_constant (elements : String → Option ElementData) (symbols : List String) (t : OrbTables)
    (h : orbInit elements symbols = .ok t) (eps : ℕ → ℝ) (c : ℝ) (hc : 1e-12 < |c|) (hs : symbols ≠ []) {n : ℕ} (hn : n ≤ t.norb)
    (H0 S : CMat n) (v : Fin n → ℂ) (e : ℂ) :
    (fullH H0 S (some fun i j => constructH1 t symbols.length eps (fun _ => 0) i j)).mulVec v = e • S.mulVec v ↔
    (fullH H0 S (some fun i j => constructH1 t symbols.length eps (fun _ => c) i j)).mulVec v = (e - c) • S.mulVec v := by
  have hH : ∀ i j : Fin n, constructH1 t symbols.length eps (fun _ => c) i j =
      constructH1 t symbols.length eps (fun _ => 0) i j - c := by
    intro i j
    obtain ⟨a, -, -, -, -, -, -, ha, -⟩ := (c23_orbital elements symbols t h i).1 (by omega)
    obtain ⟨b, -, -, -, -, -, -, hb, -⟩ := (c23_orbital elements symbols t h j).1 (by omega)
    have hpos : 0 < symbols.length := List.length_pos_of_ne_nil hs
    rw [(c28_element elements symbols t h eps (fun _ => c) i j a b ha hb).1 ⟨0, hpos, hc⟩,
      (c28_element elements symbols t h eps (fun _ => 0) i j a b ha hb).2 (by intro i _; norm_num)]
    ring
  have hm : (fullH H0 S (some fun i j => constructH1 t symbols.length eps (fun _ => c) i j)) =
      fullH H0 S (some fun i j => constructH1 t symbols.length eps (fun _ => 0) i j) - (c : ℂ) • S := by
    ext i j
    simp only [fullH, Matrix.of_apply, hH, Matrix.sub_apply, Matrix.smul_apply, smul_eq_mul]
    push_cast
    ring
  rw [hm, Matrix.sub_mulVec, Matrix.smul_mulVec, sub_smul]
  constructor
  · intro h; rw [h]
  · intro h; exact sub_left_injective h

/-- C108 fails for the energy: one atom with one orbital, in a uniform potential. Its band energy is lowered by the potential (as
that of an electron should), but the energy that is reported for the same state and charges stays. -/
theorem c108_energy_fails (h0 eps c dq tol : ℝ) (htol : 0 < tol) :
    let H0 : CMat 1 := fun _ _ => h0
    let S : CMat 1 := fun _ _ => 1
    let wf : CMat 1 := fun _ _ => 1
    (fullH H0 S (some fun _ _ => eps - c)).mulVec (wf 0) = ((h0 + eps - c : ℝ) : ℂ) • S.mulVec (wf 0) ∧
    ∃ E, bandEnergy (fun _ : Fin 1 => 1) (fun _ => computeRho wf fun _ => 1) (fun _ => H0) tol = .ok E ∧
      E + coulombEnergy true 1 (fun _ => dq) (fun _ => eps) = h0 + 0.5 * (dq * eps) := by
  refine ⟨?_, h0, ?_, ?_⟩
  · ext i
    simp [fullH, Matrix.mulVec, dotProduct]
    ring
  · simp [bandEnergy, rowDot, computeRho, Matrix.mul_apply, Matrix.transpose_apply]
    simp [Matrix.transpose, htol]
  · simp [coulombEnergy]

/-- C108 fails for the forces: atoms so far apart that their orbitals and charges do not interact feel no force in any external
potential, whatever their charges. -/
theorem c108_forces_fails {nk n : ℕ} (wk : Fin nk → ℝ) (rho rhoe : Fin nk → CMat n) (blocks : List (ℕ × ℕ))
    (h1 : Fin n → Fin n → ℝ) (N : ℕ) (bohr : ℝ) (dq : ℕ → ℝ) :
    (∀ f ∈ bandForces wk (fun _ => dHfull 0 0 (some h1)) (fun _ => 0) rho rhoe blocks, f = 0) ∧
    ∀ i, gammaForces true N (fun _ _ => 0) bohr (fun _ => 0) dq i = 0 := by
  constructor
  · intro f hf
    simp only [bandForces, List.mem_map] at hf
    obtain ⟨b, -, rfl⟩ := hf
    have hz : forceDiag wk (fun _ => dHfull 0 0 (some h1)) (fun _ => 0) rho rhoe = fun _ => 0 := by
      funext i
      simp [forceDiag, dHfull]
    rw [hz]
    have : sliceSum (fun _ : Fin n => (0 : ℂ)) b = 0 := by
      unfold sliceSum
      apply List.sum_eq_zero
      intro x hx
      have := List.mem_of_mem_drop (List.mem_of_mem_take hx)
      simp only [List.mem_ofFn] at this
      obtain ⟨_, rfl⟩ := this
      rfl
    rw [this]; simp
  · intro i
    simp [gammaForces]

/-- Results stored for a structure are returned again, whatever the numerics of the calculator would now give for it (`P'`: with an
external potential that was added). Before the first calculation there is no environment to add one to. -/
theorem c108_stale (P P' : Phys) (A : Atoms) (params : String → Option String) :
    (runCall P' (.forces A) none (runCalls P [(.setAtoms A, none), (.solve A, none), (.forces A, none)] (newCalc params)).1).2 =
      .ok (.vecs (forcesOf P [] A)) := by
  have h3 := getForces_stamped P A (solvedState P A params) (elSolved A)
    (wfOf P A) (geoOf A) (geoOf A) (geoOf A) rfl rfl (by simp [elSolved])
    (by simp [elSolved, elReady])
    rfl rfl rfl rfl (by simp [solvedState, readyState, initState])
  simp only [runCalls, run_setAtoms_new, run_solve P A _ _ none _ (solve_ready P A params),
    run_forces P A _ _ none _ h3]
  rw [run_forces P' A _ _ none _ (getForces_cached P' A _ _ _ rfl (by simp [elSolved]) (by simp; rfl) rfl)]
  rfl

/-- C108 fails for potentials added later: there are numerics without (`P`) and with (`P'`) a potential, with different forces, such
that the forces asked for after the potential was added are those without it. -/
theorem c108_stale_fails : ∃ (P P' : Phys) (A : Atoms) (params : String → Option String) (f : ℕ → Vec),
    (runCall P' (.forces A) none (runCalls P [(.setAtoms A, none), (.solve A, none), (.forces A, none)] (newCalc params)).1).2 =
      .ok (.vecs f) ∧ f ≠ forcesOf P' [] A := by
  refine ⟨exPhys, { exPhys with fcoul := fun _ _ _ => ![1, 0, 0] }, exH 0, fun _ => none, _, c108_stale _ _ _ _, ?_⟩
  intro h
  have := congrFun (congrFun h 0) 0
  simp [forcesOf, exPhys, exH, wfOf, geoOf, Atoms.positions, vecHead] at this

end Hotbit
