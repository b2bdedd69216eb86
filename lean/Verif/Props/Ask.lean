import Verif.Lemmas.Ask
import Verif.Props.Calculator

/-!
# C118: population analyses, charges and grids belong to the structure the calculator was last used for
-/

namespace Hotbit

open Classical

set_option linter.unusedSimpArgs false

theorem ask_ret {α β : Type} (m : CM α) (g : α → β) (s : Calc) :
    ((m >>= fun x => pure (g x)) s).2 = (m s).2.map g := by
  simp only [bind, CM.bind]
  rcases m s with ⟨s1, _ | _⟩ <;> rfl

theorem runAsk_analysis (P : Phys) (k : Kind) (fp : Option Point) (s : Calc) :
    (runAsk P (.analysis k) fp s).2 = (analyse k s).2.map .data := ask_ret (analyse k) _ s

theorem runAsk_dq (P : Phys) (A : Option Atoms) (fp : Option Point) (s : Calc) :
    (runAsk P (.dq A) fp s).2 = (askDq P fp A s).2.map .charges := ask_ret (askDq P fp A) _ s

theorem map_ok {α β : Type} {r : Except Exn α} {g : α → β} {b : β} (h : r.map g = .ok b) :
    ∃ a, r = .ok a ∧ g a = b := by
  cases r with
  | error e => simp [Except.map] at h
  | ok a => exact ⟨a, rfl, by simpa [Except.map] using h⟩

/-- **C118 (partial).** In every history of calls — with the restrictions of `Allowed`, any of the
calls possibly raising — what a Mulliken, density-of-states or bonding analysis is made from is the
converged electronic structure of the atoms the calculator currently holds. -/
theorem c118_analysis_partial (P : Phys) (D : Atoms → Prop) (sy : List String) (hD : Domain P D sy)
    (s : Calc) (h : AHist P D s) (k : Kind) (fp : Option Point) (a : Answer)
    (ha : (runAsk P (.analysis k) fp s).2 = .ok a) :
    ∃ X, D X ∧ currentAtoms s = some X ∧ a = .data (structureOf P X) := by
  obtain ⟨h1, h2⟩ := ahist_good P D sy hD s h
  rw [runAsk_analysis] at ha
  obtain ⟨d, hd, rfl⟩ := map_ok ha
  obtain ⟨X, hX, hc, -, rfl⟩ := (analyse_ok P D sy s h1 h2 k).2.2.2.2 d hd
  exact ⟨X, hX, hc, rfl⟩

/-- **C118.** Once the energy of `A` was returned and the calculator holds `A`, every analysis returns,
and is about `A`. -/
theorem c118_after_energy (P : Phys) (D : Atoms → Prop) (sy : List String) (hD : Domain P D sy)
    (s : Calc) (h : AHist P D s) (A : Atoms) (hA : D A) (fp : Option Point)
    (hf : CrashOk s A fp) (s' : Calc) (r : Result) (hr : runCall P (.energy A) fp s = (s', .ok r))
    (hcur : currentAtoms s' = some A) (k : Kind) :
    (runAsk P (.analysis k) none s').2 = .ok (.data (structureOf P A)) := by
  have h' : AHist P D s' := by
    have := AHist.call (P := P) s (.energy A) fp h ⟨hA, hf⟩
    rwa [hr] at this
  obtain ⟨hG, hO⟩ := ahist_good P D sy hD s' h'
  obtain ⟨hG0, -⟩ := ahist_good P D sy hD s h
  have he : ∃ v, getEnergy P fp A s = (s', .ok v) := by
    have hr' := hr
    simp only [runCall] at hr'
    obtain ⟨s1, v, h1, h2⟩ := cm_bind_ok hr'
    simp only [pure, CM.pure, Prod.mk.injEq] at h2
    exact ⟨v, by rw [h1, h2.1]⟩
  obtain ⟨v, hv⟩ := he
  have hreq : ∃ el, s'.el = some el ∧ el.atoms = A ∧ elRequired el el.atoms .energy = false := by
    rcases energy_marks P fp A s s' v hv with ⟨el, hel, rfl, hn⟩ | ⟨el, hel, hn⟩
    · have : el.atoms = A := by simpa [currentAtoms, hel] using hcur
      exact ⟨el, hel, this, by rw [this]; exact hn⟩
    · have hat : el.atoms = A := by simpa [currentAtoms, hel] using hcur
      refine ⟨el, hel, hat, ?_⟩
      rw [elRequired_false hD (hG.2 el hel) el.atoms (by rw [hat]; exact hA)]
      exact hn
  obtain ⟨el, hel, hat, hn⟩ := hreq
  have hGel := hG.2 el hel
  cases hg : el.solved .groundState with
  | none => simp [elRequired, hg] at hn
  | some X =>
    obtain ⟨a, b, c, d, -⟩ := hGel.gs X hg
    have hok : ∃ d, (analyse k s').2 = .ok d := by
      rw [analyse_run k s' el hel, if_neg (by simp [hn])]
      cases s'.ana k with
      | some d => exact ⟨d, rfl⟩
      | none => simp only [c, d]; exact ⟨_, rfl⟩
    obtain ⟨d0, hd0⟩ := hok
    obtain ⟨Y, -, hY, -, rfl⟩ := (analyse_ok P D sy s' hG hO k).2.2.2.2 d0 hd0
    rw [hcur, Option.some.injEq] at hY
    rw [runAsk_analysis, hd0, hY]
    rfl

/-- The state after `set_atoms(A)`, `get_potential_energy(A)` on a new calculator: everything is solved
for `A` and no timer is running. -/
theorem energy_ready (P : Phys) (A : Atoms) (params) :
    ∃ s el, runCall P (.energy A) none (readyState A params) =
        (s, .ok (.num (energyOf P [] A))) ∧ Idle s ∧ s.el = some el ∧ el.atoms = A ∧
      el.ranges = A.ranges ∧ el.solved .groundState = some A ∧ el.solved .energy = some A ∧
      s.epot.isSome := by
  have hD := domain_single P A
  have hh := hist_ready P (· = A) A rfl params
  have hv := (c25_first P A params).1
  have hidle := (c25_returns P _ _ hD _ hh (idle_ready A params) A rfl (.energy A) (Or.inl rfl)).2
  have hgood := (call_ok P _ _ hD _ (hist_good P _ _ hD _ hh) (.energy A) none
    ⟨rfl, Or.inl rfl⟩).1
  generalize ho : runCall P (.energy A) none (readyState A params) = o at hv hidle hgood
  obtain ⟨s, r⟩ := o
  dsimp only at hv hidle hgood
  subst hv
  obtain ⟨s1, v, h1, h2⟩ := cm_bind_ok (show (getEnergy P none A >>= fun x => pure (Result.num x))
    (readyState A params) = (s, .ok (.num (energyOf P [] A))) from ho)
  simp only [pure, CM.pure, Prod.mk.injEq] at h2
  rw [h2.1] at h1
  rcases energy_marks P none A _ s v h1 with ⟨el, hel, rfl, hn⟩ | ⟨el, hel, hn⟩
  · have : el = elReady A := (Option.some.inj hel).symm
    simp [this, elRequired, elReady] at hn
  · have hGel := hgood.2 el hel
    have hat : el.atoms = A := hGel.dom _ _ hn
    rw [hat] at hn
    refine ⟨s, el, rfl, hidle, hel, hat, hGel.ranges A rfl, ?_, hn, ?_⟩
    · cases hg : el.solved .groundState with
      | none => rw [hGel.gsNone hg .energy] at hn; simp at hn
      | some X => rw [show X = A from hGel.dom _ _ hg]
    · rw [hGel.energy A hn]; rfl

/-- The hypotheses of `c118_after_energy` are met after the first energy. -/
example (P : Phys) (A : Atoms) (params) (k : Kind) :
    ∃ s', (runCall P (.energy A) none (readyState A params)).1 = s' ∧
      (runAsk P (.analysis k) none s').2 = .ok (.data (structureOf P A)) := by
  obtain ⟨s, el, h1, -, h3, h4, -⟩ := energy_ready P A params
  refine ⟨s, by rw [h1], ?_⟩
  have hh : AHist P (· = A) (readyState A params) := by
    have := AHist.call (P := P) (D := (· = A)) (newCalc params) (.setAtoms A) none
      (AHist.new params) ⟨rfl, Or.inl rfl⟩
    rwa [run_setAtoms_new] at this
  exact c118_after_energy P _ _ (domain_single P A) _ hh A rfl none (Or.inl rfl) s _ h1
    (by simp [currentAtoms, h3, h4]) k

/-- The solution of `B` after the energy of `A`. -/
theorem energy_then_solve (P : Phys) (A B : Atoms) (params) (hAB : aseEq A B = false) :
    ∃ s1 s2 el w, runCall P (.energy A) none (readyState A params) =
        (s1, .ok (.num (energyOf P [] A))) ∧
      runCall P (.solve B) none s1 = (s2, .ok .unit) ∧ s2.init = true ∧ s2.el = some el ∧
      el.atoms = B ∧ el.solved .groundState = some B ∧ el.solved .energy = some A ∧
      s2.epot.isSome ∧ s2.rho = some w ∧ w.geo.1 = B ∧ s2.mats = some w.geo ∧ (∀ k, s2.ana k = none) := by
  obtain ⟨s, el, h1, hi, hel, hat, hrg, hgs, hen, hep⟩ := energy_ready P A params
  obtain ⟨w, hw, hs⟩ := solve_explicit P B s el hi hel (by simp [elRequired, hgs, hAB])
  refine ⟨s, _, _, w, h1, run_solve P B _ _ none _ hs, hi.1, rfl, rfl, ?_, ?_, hep, rfl, by rw [hw], ?_,
    fun _ => rfl⟩
  · simp
  · simpa using hen
  · simp only [hw]

/-- **C118 fails with `set_atoms`.** After the energy of `A` and the solution of `B`,
`set_atoms(A)` makes the calculator hold `A`, whose energy is marked solved: the analysis is made
without complaint, from the electronic structure of `B`. -/
theorem c118_set_atoms_fails (P : Phys) (A B : Atoms) (params) (hsy : A.symbols = B.symbols)
    (hAB : aseEq A B = false) (k : Kind) :
    ∃ s1 s2 s3, runCall P (.energy A) none (readyState A params) =
        (s1, .ok (.num (energyOf P [] A))) ∧
      runCall P (.solve B) none s1 = (s2, .ok .unit) ∧
      runCall P (.setAtoms A) none s2 = (s3, .ok .unit) ∧ currentAtoms s3 = some A ∧
      ∃ d, (runAsk P (.analysis k) none s3).2 = .ok (.data d) ∧ d.1.geo.1 = B ∧ d.2.1 = B ∧
        d ≠ structureOf P A := by
  obtain ⟨s1, s2, el, w, h1, h2, hi, hel, hat, hgs, hen, hep, hrho, hw, hm, hana⟩ :=
    energy_then_solve P A B params hAB
  have h3 : runCall P (.setAtoms A) none s2 =
      ({ s2 with el := some { el with atoms := A, ranges := A.ranges } }, .ok .unit) := by
    have e := run_bind_ret (setAtoms none A) (fun _ => Result.unit) s2
    simp only [runCall]
    rw [e]
    have : setAtoms none A s2 = initCalc none A s2 := by
      have hsy' : A.symbols = el.atoms.symbols := by rw [hat, hsy]
      simp only [setAtoms, bind, CM.bind, CM.get, hi, attr, hel, hsy', if_true, ne_eq,
        not_true_eq_false, if_false]
    rw [this, (initCalc_run none A s2).2 hi, hel]
    rfl
  have hne : A ≠ B := by rintro rfl; simp [aseEq_refl] at hAB
  refine ⟨s1, s2, _, h1, h2, h3, rfl, (w, w.geo), ?_, hw, hw, ?_⟩
  · rw [runAsk_analysis, analyse_run k _ { el with atoms := A, ranges := A.ranges } rfl,
      if_neg (by simp [elRequired, hgs, hen, aseEq_refl])]
    simp only [hana, hrho, hm]
    rfl
  · intro hd
    have := congrArg (fun d : Wf × Geo => d.2.1) hd
    simp only [structureOf, geoOf, hw] at this
    exact hne this.symm

/-- **C118: the energy being known is not enough.** After the energy of `A` and the solution of `B`, the
energy of `A` is returned at once, but an analysis then raises an `AssertionError` telling that the
electronic structure is not solved. -/
theorem c118_cached_fails (P : Phys) (A B : Atoms) (params) (hAB : aseEq A B = false) (k : Kind) :
    ∃ s1 s2 v, runCall P (.energy A) none (readyState A params) =
        (s1, .ok (.num (energyOf P [] A))) ∧
      runCall P (.solve B) none s1 = (s2, .ok .unit) ∧
      runCall P (.energy A) none s2 = (s2, .ok (.num v)) ∧
      (runAsk P (.analysis k) none s2).2 = .error .assertionError := by
  obtain ⟨s1, s2, el, w, h1, h2, hi, hel, hat, hgs, hen, hep, hrho, hw, hm, hana⟩ :=
    energy_then_solve P A B params hAB
  obtain ⟨v, hv⟩ := Option.isSome_iff_exists.1 hep
  refine ⟨s1, s2, v, h1, h2, ?_, ?_⟩
  · have e := run_bind_ret (getEnergy P none A) Result.num s2
    simp only [runCall]
    rw [e, getEnergy_run P none A s2 el hel, if_neg (by simp [elRequired, hgs, hen, aseEq_refl])]
    simp [attr, hv, Except.map]
  · rw [runAsk_analysis, analyse_run k s2 el hel, if_pos]
    · rfl
    · simp [elRequired, hgs, hen, hat, hAB]

/-- Two different structures with the same symbols, for the counterexamples. -/
example : (exH 0).symbols = (exH 1).symbols ∧ aseEq (exH 0) (exH 1) = false := by
  constructor
  · rfl
  · simp only [aseEq, exH, decide_eq_false_iff_not]
    rintro ⟨h, -, -⟩
    have h1 := congrArg (fun l : List (String × Vec) => (l.map fun p => p.2 0)) h
    simp at h1

/-- **C118: charges.** What `get_dq(A)` and `get_charges(A)` return are the charges of the converged
electronic structure of `A`, in every history. -/
theorem c118_charges (P : Phys) (D : Atoms → Prop) (sy : List String) (hD : Domain P D sy)
    (s : Calc) (h : AHist P D s) (A : Atoms) (hA : D A) (fp : Option Point) (hf : CrashOk s A fp)
    (a : Answer) (ha : (runAsk P (.dq (some A)) fp s).2 = .ok a) : a = .charges (wfOf P A) := by
  obtain ⟨hG, -⟩ := ahist_good P D sy hD s h
  rw [runAsk_dq] at ha
  obtain ⟨w, hw, rfl⟩ := map_ok ha
  unfold askDq at hw
  generalize ho : solveGroundState P fp A s = o at hw
  have hw2 : ∃ s', (do
      solveGroundState P fp A
      let s ← CM.get
      if s.params "SCC" = some "False" then CM.raise .attributeError
      else attr Calc.rho : CM Wf) s = (s', .ok w) := ⟨_, Prod.ext rfl hw⟩
  obtain ⟨s', h'⟩ := hw2
  obtain ⟨s1, u, h1, h2⟩ := cm_bind_ok h'
  obtain ⟨s2, t, h3, h4⟩ := cm_bind_ok h2
  simp only [CM.get, Prod.mk.injEq, Except.ok.injEq] at h3
  obtain ⟨rfl, rfl⟩ := h3
  obtain ⟨g1, -, -, g4⟩ := solve_good P D sy hD s hG A hA fp hf s1 _ h1
  obtain ⟨hgs, hi⟩ := g4 rfl
  obtain ⟨el, hel⟩ := Option.isSome_iff_exists.1 (g1.1 hi)
  have hgs' : el.solved .groundState = some A := by simpa [gsOf, hel] using hgs
  have hr := ((g1.2 el hel).gs A hgs').2.2.1
  split_ifs at h4 with hc
  · simp [CM.raise] at h4
  · have := (attr_ok h4).2
    rw [hr, Option.some.injEq] at this
    rw [this]

/-- A new calculator returns the charges of the first structure it is asked about. -/
example (P : Phys) (A : Atoms) (params) (hp : params "SCC" ≠ some "False") :
    (runAsk P (.dq (some A)) none (readyState A params)).2 = .ok (.charges (wfOf P A)) := by
  rw [runAsk_dq]
  simp only [askDq, bind, CM.bind, solve_ready, CM.get]
  rw [if_neg (show ¬ (solvedState P A params).params "SCC" = some "False" from hp)]
  rfl

/-- **C118: no charges without self-consistency.** With `SCC=False` charges are never returned: the
ground state is solved, and then an `AttributeError` is raised (unless the solution failed). -/
theorem c118_charges_nonscc_fails (P : Phys) (s : Calc) (A : Option Atoms) (fp : Option Point)
    (hp : s.params "SCC" = some "False") :
    (∀ a, (runAsk P (.dq A) fp s).2 ≠ .ok a) ∧
      (∀ B, A = some B → (∃ u, (solveGroundState P fp B s).2 = .ok u) →
        (runAsk P (.dq A) fp s).2 = .error .attributeError) := by
  cases A with
  | none =>
    constructor
    · intro a ha
      rw [runAsk_dq] at ha
      obtain ⟨w, hw, rfl⟩ := map_ok ha
      simp only [askDq, bind, CM.bind, CM.get] at hw
      cases hi : s.init
      · simp [hi, CM.raise, CM.bind] at hw
      · simp [hi, CM.raise, pure, CM.pure, hp, CM.bind, CM.get] at hw
    · intro B h; simp at h
  | some A =>
    have key : (runAsk P (.dq (some A)) fp s).2 = match (solveGroundState P fp A s).2 with
        | .ok _ => .error .attributeError
        | .error e => .error e := by
      rw [runAsk_dq]
      simp only [askDq, bind, CM.bind, CM.get]
      have hk := (keeps_solve P fp A s).1
      generalize solveGroundState P fp A s = o at hk
      obtain ⟨s1, _ | u⟩ := o
      · rfl
      · have : s1.params "SCC" = some "False" := by rw [show s1.params = s.params from hk]; exact hp
        simp [this, CM.raise, Except.map]
    constructor
    · intro a
      rw [key]
      generalize (solveGroundState P fp A s).2 = r
      cases r <;> simp
    · rintro B hB ⟨u, hu⟩
      rw [key]
      rw [← Option.some.inj hB] at hu
      rw [hu]

/-! ## The grid -/

/-- A call of either part of the interface. -/
noncomputable def runEither (P : Phys) (c : Call ⊕ Ask) (fp : Option Point) (s : Calc) : Calc :=
  match c with
  | .inl c => (runCall P c fp s).1
  | .inr q => (runAsk P q fp s).1

/-- **C118: the first grid.** `set_grid` on a calculator without a grid, with the energy of its atoms
known, makes the grid asked for, for the cell of these atoms; what is then drawn on it are the states of
these atoms. -/
theorem c118_first_grid (P : Phys) (D : Atoms → Prop) (sy : List String) (hD : Domain P D sy)
    (s : Calc) (hs : AHist P D s) (hi : s.init = true) (hg : s.grid = none) (h c : ℝ) (fp : Option Point)
    (s' : Calc) (hr : runAsk P (.setGrid h c) fp s = (s', .ok .unit)) :
    ∃ X, D X ∧ currentAtoms s = some X ∧
      (runAsk P .grid none s').2 = .ok (.grid ⟨h, c, X.cell⟩ (wfOf P X)) := by
  obtain ⟨hG, -⟩ := ahist_good P D sy hD s hs
  obtain ⟨el, hel⟩ := Option.isSome_iff_exists.1 (hG.1 hi)
  obtain ⟨s1, u, h1, h2⟩ := cm_bind_ok (show (setGrid h c >>= fun _ => pure Answer.unit) s =
    (s', .ok .unit) from hr)
  simp only [pure, CM.pure, Prod.mk.injEq, and_true] at h2
  subst h2
  rw [setGrid_run h c s el hel, hg] at h1
  by_cases hn : elRequired el el.atoms .energy = true
  · rw [if_pos hn] at h1; simp at h1
  rw [if_neg hn] at h1
  simp only [Prod.mk.injEq] at h1
  cases hgs : el.solved .groundState with
  | none => simp [elRequired, hgs] at hn
  | some X =>
    obtain ⟨a, -, b, -⟩ := (hG.2 el hel).gs X hgs
    refine ⟨X, (hG.2 el hel).dom _ _ hgs, by simp [currentAtoms, hel, a], ?_⟩
    have e : (runAsk P .grid none s1).2 = (askGrid s1).2.map fun r => .grid r.1 r.2 :=
      ask_ret askGrid (fun r => Answer.grid r.1 r.2) s1
    rw [e, ← h1.1, a]
    simp only [askGrid, bind, CM.bind, CM.get, hi, attr, b, pure, CM.pure]
    rfl

/-- **C118: the grid is set once.** A grid that was set is never changed by any later call of an
initialized calculator, whatever spacing, cutoff, structure or cell the call has. -/
theorem c118_grid_kept (P : Phys) (s : Calc) (hi : s.init = true) (g : GridSpec)
    (hg : s.grid = some g) (cs : List ((Call ⊕ Ask) × Option Point)) :
    (cs.foldl (fun s c => runEither P c.1 c.2 s) s).grid = some g := by
  induction cs generalizing s with
  | nil => exact hg
  | cons c cs ih =>
    simp only [List.foldl_cons]
    have step : (runEither P c.1 c.2 s).init = true ∧ (runEither P c.1 c.2 s).grid = some g := by
      obtain ⟨c, fp⟩ := c
      cases c with
      | inl c =>
        have := (tracks_call P c fp s).2 hi
        exact ⟨this.1, this.2.trans hg⟩
      | inr q =>
        simp only [runEither]
        rw [ask_state]
        cases q with
        | analysis k =>
          dsimp only
          rcases Option.eq_none_or_eq_some s.el with hel | ⟨el, hel⟩
          · have : analyse k s = (s, .error .attributeError) := by
              simp [analyse, bind, CM.bind, attr, hel]
            rw [this]; exact ⟨hi, hg⟩
          · rw [analyse_run k s el hel]
            split_ifs
            · exact ⟨hi, hg⟩
            · cases s.ana k with
              | some d => exact ⟨hi, hg⟩
              | none => cases s.rho <;> cases s.mats <;> exact ⟨hi, hg⟩
        | setGrid h c =>
          dsimp only
          rcases Option.eq_none_or_eq_some s.el with hel | ⟨el, hel⟩
          · have : setGrid h c s = (s, .error .attributeError) := by
              simp [setGrid, bind, CM.bind, attr, hel]
            rw [this]; exact ⟨hi, hg⟩
          · rw [setGrid_run h c s el hel, hg]
            split_ifs <;> exact ⟨hi, hg⟩
        | grid => exact ⟨hi, hg⟩
        | dq A =>
          cases A with
          | none => exact ⟨hi, hg⟩
          | some A =>
            have := (tracks_solve P fp A s).2 hi
            exact ⟨this.1, this.2.trans hg⟩
    exact ih _ step.1 step.2

/-- **C118 fails for the grid.** `set_grid(h)` followed by `set_grid(h')` returns without complaint, and
the grid still has spacing `h`. -/
theorem c118_grid_fails (P : Phys) (A : Atoms) (params) (h h' c c' : ℝ) (hh : h ≠ h') :
    ∃ s1 s2, (runCall P (.energy A) none (readyState A params)).1 = s1 ∧
      runAsk P (.setGrid h c) none s1 = (s2, .ok .unit) ∧
      runAsk P (.setGrid h' c') none s2 = (s2, .ok .unit) ∧
      ∃ g w, (runAsk P .grid none s2).2 = .ok (.grid g w) ∧ g.h = h ∧ g.h ≠ h' := by
  obtain ⟨s, el, h1, hi, hel, hat, hrg, hgs, hen, -⟩ := energy_ready P A params
  have hgr : s.grid = none := by
    have := (tracks_call P (.energy A) none (readyState A params)).2 rfl
    rw [h1] at this
    exact this.2
  have hret : ∀ (x y : ℝ) (t : Calc), runAsk P (.setGrid x y) none t =
      ((setGrid x y t).1, (setGrid x y t).2.map fun _ => .unit) := by
    intro x y t
    simp only [runAsk, bind, CM.bind]
    rcases setGrid x y t with ⟨t1, _ | _⟩ <;> rfl
  have hreq : ¬ elRequired el el.atoms .energy = true := by
    simp [elRequired, hgs, hen, hat, aseEq_refl]
  have hrho : s.rho = some (wfOf P A) := by
    have hD := domain_single P A
    have hgood := (call_ok P _ _ hD _ (hist_good P _ _ hD _ (hist_ready P (· = A) A rfl params))
      (.energy A) none ⟨rfl, Or.inl rfl⟩).1
    rw [h1] at hgood
    exact ((hgood.2 el hel).gs A hgs).2.2.1
  refine ⟨s, { s with grid := some ⟨h, c, A.cell⟩ }, by rw [h1], ?_, ?_, ⟨h, c, A.cell⟩, wfOf P A,
    ?_, rfl, hh⟩
  · rw [hret, setGrid_run h c s el hel, if_neg hreq, hgr, hat]
    rfl
  · rw [hret, setGrid_run h' c' { s with grid := some ⟨h, c, A.cell⟩ } el hel, if_neg hreq]
    rfl
  · rw [show (runAsk P .grid none { s with grid := some ⟨h, c, A.cell⟩ }).2 =
      (askGrid { s with grid := some ⟨h, c, A.cell⟩ }).2.map fun r => .grid r.1 r.2 from
      ask_ret askGrid (fun r => Answer.grid r.1 r.2) _]
    simp only [askGrid, bind, CM.bind, CM.get, hi.1, attr, hrho, pure, CM.pure]
    rfl

end Hotbit
