import Verif.Lemmas.CalcRuns
import Verif.Props.Containers

/-!
# C25, C26, C27: cached results, failures and parameters of the calculator
-/

namespace Hotbit

open Classical

set_option linter.unusedSimpArgs false

/-! ## C25 -/

/-- **C25 (partial).** In every history of calls over structures `D` — with the restrictions of
`Allowed`, and any of the calls possibly failing half way — whatever a call returns is the value of
the structure it was asked for. -/
theorem c25_partial (P : Phys) (D : Atoms → Prop) (sy : List String) (hD : Domain P D sy) (s : Calc)
    (h : Hist P D s) (c : Call) (fp : Option Point) (hc : Allowed D s fp c) (r : Result)
    (hr : (runCall P c fp s).2 = .ok r) : r = valueOf P (runCall P c fp s).1.pp c :=
  (call_ok P D sy hD s (hist_good P D sy hD s h) c fp hc).2 r hr

/-- Results of a list of calls, each with the point where it fails. -/
noncomputable def runCalls (P : Phys) : List (Call × Option Point) → Calc →
    Calc × List (Except Exn Result)
  | [], s => (s, [])
  | (c, fp) :: cs, s =>
    let o := runCall P c fp s
    let rest := runCalls P cs o.1
    (rest.1, o.2 :: rest.2)

/-- Structures and failure-free calls of the four queries. -/
def IsQuery (A : Atoms) (c : Call) : Prop :=
  c = .energy A ∨ c = .forces A ∨ c = .ebs A ∨ c = .ecoul A

/-- On an idle calculator every query that does not fail at run time returns a value and leaves the
calculator idle (so C25 is about calls that do return). -/
theorem c25_returns (P : Phys) (D : Atoms → Prop) (sy : List String) (hD : Domain P D sy) (s : Calc)
    (h : Hist P D s) (hi : Idle s) (A : Atoms) (hA : D A) (c : Call) (hc : IsQuery A c) :
    (∃ r, (runCall P c none s).2 = .ok r) ∧ Idle (runCall P c none s).1 := by
  have hs := hist_good P D sy hD s h
  obtain ⟨el, hel⟩ := Option.isSome_iff_exists.1 (hs.1 hi.1)
  have hG := hs.2 el hel
  have ret : ∀ {α : Type} (m : CM α) (g : α → Result),
      ((∃ x, (m s).2 = .ok x) ∧ Idle (m s).1) →
      (∃ r, ((m >>= fun x => pure (g x)) s).2 = .ok r) ∧
        Idle ((m >>= fun x => pure (g x)) s).1 := by
    intro α m g hm
    rw [run_bind_ret]
    obtain ⟨⟨x, hx⟩, h2⟩ := hm
    exact ⟨⟨g x, by simp [hx, Except.map]⟩, h2⟩
  rcases hc with rfl | rfl | rfl | rfl
  · apply ret (getEnergy P none A) Result.num
    rw [getEnergy_run P none A s el hel]
    by_cases hq : elRequired el A .energy = true
    · rw [if_pos hq]
      exact query_returns P D sy hD s hs hi A hA (fun pp => energyOf P pp A) _
        (fun s' el' h' hG' => energyTail_ok P D sy hD none s' el' A hA h' hG')
        (fun s' el' h' hG' hi' => energyTail_returns P D sy hD s' el' A hA h' hG' hi')
    · rw [if_neg hq]
      have := hG.energy A ((elRequired_false hD hG A hA .energy).1 (by simpa using hq))
      simp only [attr, this]
      exact ⟨⟨_, rfl⟩, hi⟩
  · apply ret (getForces P none A) Result.vecs
    rw [getForces_run P none A s el hel]
    by_cases hq : elRequired el A .forces = true
    · rw [if_pos hq]
      exact query_returns P D sy hD s hs hi A hA (fun pp => forcesOf P pp A) _
        (fun s' el' h' hG' => forcesTail_ok P D sy hD s' el' A hA h' hG')
        (fun s' el' h' hG' hi' => forcesTail_returns P D sy s' el' A h' hG' (hi'.2 _ (by simp)))
    · rw [if_neg hq]
      have := hG.forces A ((elRequired_false hD hG A hA .forces).1 (by simpa using hq))
      simp only [attr, this]
      exact ⟨⟨_, rfl⟩, hi⟩
  · apply ret (getEbs P none A) Result.num
    rw [getEbs_run P none A s el hel]
    by_cases hq : elRequired el A .ebs = true
    · rw [if_pos hq]
      exact query_returns P D sy hD s hs hi A hA (fun _ => P.ebs A.symbols (wfOf P A) (geoOf A)) _
        (fun s' el' h' hG' => ebsTail_ok P D sy hD none s' el' A hA h' hG')
        (fun s' el' h' hG' hi' => ebsTail_returns P D sy s' el' A h' hG' (hi'.2 _ (by simp)))
    · rw [if_neg hq]
      have := hG.ebs A ((elRequired_false hD hG A hA .ebs).1 (by simpa using hq))
      simp only [attr, this]
      exact ⟨⟨_, rfl⟩, hi⟩
  · apply ret (getEcoul P none A) Result.num
    rw [getEcoul_run P none A s el hel]
    by_cases hq : elRequired el A .ecoul = true
    · rw [if_pos hq]
      exact query_returns P D sy hD s hs hi A hA (fun _ => P.ecoul A.symbols (wfOf P A)) _
        (fun s' el' h' hG' => ecoulTail_ok P D sy hD s' el' A hA h' hG')
        (fun s' el' h' hG' hi' => ecoulTail_returns P D sy s' el' A h' hG' (hi'.2 _ (by simp)))
    · exfalso
      have := (elRequired_false hD hG A hA .ecoul).1 (by simpa using hq)
      rw [hG.ecoul] at this
      simp at this

/-- The state after `set_atoms(A)` on a new calculator. -/
noncomputable def readyState (A : Atoms) (params : String → Option String) : Calc :=
  { initState A (newCalc params) with init := true }

theorem run_setAtoms_new (P : Phys) (A : Atoms) (params) :
    runCall P (.setAtoms A) none (newCalc params) = (readyState A params, .ok .unit) := by
  have e := run_bind_ret (setAtoms none A) (fun _ => Result.unit) (newCalc params)
  simp only [runCall]
  rw [e]
  have : setAtoms none A (newCalc params) = (readyState A params, .ok ()) := by
    have h : (newCalc params).init = false := rfl
    have : setAtoms none A (newCalc params) = initCalc none A (newCalc params) := by
      simp [setAtoms, bind, CM.bind, CM.get, h]
    rw [this, (initCalc_run none A _).1 h, if_neg (by simp)]
    rfl
  rw [this]; rfl

/-- The domain of a single structure. -/
theorem domain_single (P : Phys) (A : Atoms) : Domain P (· = A) A.symbols :=
  ⟨fun B hB => by rw [hB], fun B C hB hC _ => by rw [hB, hC],
    fun B C hB hC => by rw [hB, hC]; exact ⟨rfl, rfl⟩⟩

theorem hist_ready (P : Phys) (D : Atoms → Prop) (A : Atoms) (hA : D A) (params) :
    Hist P D (readyState A params) := by
  have := Hist.call (P := P) (D := D) (newCalc params) (.setAtoms A) none (Hist.new params)
    ⟨hA, Or.inl rfl⟩
  rwa [run_setAtoms_new] at this

theorem idle_ready (A : Atoms) (params) : Idle (readyState A params) := by
  refine ⟨rfl, ?_⟩
  intro l hl
  simp only [readyState, initState, List.mem_singleton]
  rintro rfl
  simp at hl

/-- The specification describes what a calculator used for nothing else returns: after
`set_atoms(A)` the first energy and the first forces are `energyOf` and `forcesOf`. -/
theorem c25_first (P : Phys) (A : Atoms) (params : String → Option String) :
    (runCall P (.energy A) none (readyState A params)).2 = .ok (.num (energyOf P [] A)) ∧
    (runCall P (.forces A) none (readyState A params)).2 = .ok (.vecs (forcesOf P [] A)) := by
  have hD := domain_single P A
  have hh := hist_ready P (· = A) A rfl params
  constructor
  · have hpp := ((keeps_call P (.energy A) none (by simp) (by simp) (readyState A params)).2 rfl).2
    obtain ⟨r, hr⟩ := (c25_returns P _ _ hD _ hh (idle_ready A params) A rfl (.energy A)
      (Or.inl rfl)).1
    have := c25_partial P _ _ hD _ hh (.energy A) none ⟨rfl, Or.inl rfl⟩ r hr
    rw [hr, this, hpp]
    rfl
  · have hpp := ((keeps_call P (.forces A) none (by simp) (by simp) (readyState A params)).2 rfl).2
    obtain ⟨r, hr⟩ := (c25_returns P _ _ hD _ hh (idle_ready A params) A rfl (.forces A)
      (Or.inr (Or.inl rfl))).1
    have := c25_partial P _ _ hD _ hh (.forces A) none ⟨rfl, Or.inl rfl⟩ r hr
    rw [hr, this, hpp]
    rfl

/-- A structure whose type can be read off its cell: the marker of its container sits in `cell[0,0]`
(see C07), and a Bravais cell does not look like a marker. (`Slab` keeps its parameter elsewhere.) -/
def Readable (A : Atoms) : Prop :=
  A.ctype ≠ .slab ∧ A.slabX = (fun _ => 0) ∧
    (A.ctype ≠ .bravais → A.cell 0 0 = magicNumber A.ctype * magic) ∧
    (A.ctype = .bravais → ∀ c, c ≠ .bravais → A.cell 0 0 ≠ magicNumber c * magic)

theorem readable_eq (A B : Atoms) (hA : Readable A) (hB : Readable B) (h : aseEq A B = true) :
    A = B := by
  simp only [aseEq, decide_eq_true_eq] at h
  obtain ⟨h1, h2, h3⟩ := h
  have hm : magic ≠ 0 := by unfold magic; norm_num
  have ht : A.ctype = B.ctype := by
    by_cases ha : A.ctype = .bravais
    · by_cases hb : B.ctype = .bravais
      · rw [ha, hb]
      · have := hB.2.2.1 hb
        rw [← h2] at this
        exact absurd this (hA.2.2.2 ha _ hb)
    · by_cases hb : B.ctype = .bravais
      · have := hA.2.2.1 ha
        rw [h2] at this
        exact absurd this (hB.2.2.2 hb _ ha)
      · have e1 := hA.2.2.1 ha
        have e2 := hB.2.2.1 hb
        rw [h2, e2] at e1
        have e3 := mul_right_cancel₀ hm e1
        have e4 : magicNumber B.ctype = magicNumber A.ctype := by exact_mod_cast e3
        cases hA' : A.ctype <;> cases hB' : B.ctype <;> rw [hA', hB'] at e4 <;>
          simp [magicNumber] at e4 ⊢
  have hs : A.slabX = B.slabX := by rw [hA.2.1, hB.2.1]
  cases A; cases B
  simp_all

/-- **C25** for structures of one system: readable structures with the same symbols, operation ranges
and k-points (for instance the steps of a molecular dynamics run or a relaxation with fixed cell). -/
theorem c25_moving_atoms_partial (P : Phys) (sy : List String) (R : Ranges) (K : Sampling) (s : Calc)
    (D : Atoms → Prop)
    (hD : ∀ A, D A ↔ Readable A ∧ A.symbols = sy ∧ A.ranges = R ∧ P.kset A = K)
    (h : Hist P D s) (c : Call) (fp : Option Point) (hc : Allowed D s fp c) (r : Result)
    (hr : (runCall P c fp s).2 = .ok r) : r = valueOf P (runCall P c fp s).1.pp c := by
  refine c25_partial P D sy ⟨fun A hA => ((hD A).1 hA).2.1, fun A B hA hB he =>
    readable_eq A B ((hD A).1 hA).1 ((hD B).1 hB).1 he, fun A B hA hB => ?_⟩ s h c fp hc r hr
  have a := ((hD A).1 hA).2.2
  have b := ((hD B).1 hB).2.2
  exact ⟨a.1.trans b.1.symm, a.2.trans b.2.symm⟩

/-! ### Counterexamples to the unrestricted C25 -/

/-- `el` after `set_atoms(A)` and after solving `A`. -/
noncomputable def elReady (A : Atoms) : ElState :=
  { atoms := A, ranges := A.ranges, syms := A.symbols }

noncomputable def elSolved (A : Atoms) : ElState :=
  { elReady A with
    geom := some (geoOf A)
    solved := fun q => if q = .groundState then some A else none }

/-- The state after `set_atoms(A)`, `solve_ground_state(A)` on a new calculator. -/
noncomputable def solvedState (P : Phys) (A : Atoms) (params : String → Option String) : Calc :=
  { readyState A params with
    el := some (elSolved A)
    nk := some (P.kset A)
    mats := some (geoOf A)
    rho := some (wfOf P A)
    fin := some (geoOf A) }

theorem run_solve (P : Phys) (A : Atoms) (s s' : Calc) (fp : Option Point) (r : Except Exn Unit)
    (h : solveGroundState P fp A s = (s', r)) :
    runCall P (.solve A) fp s = (s', r.map fun _ => .unit) := by
  have e := run_bind_ret (solveGroundState P fp A) (fun _ => Result.unit) s
  simp only [runCall]
  rw [e, h]

theorem solve_ready (P : Phys) (A : Atoms) (params) :
    solveGroundState P none A (readyState A params) = (solvedState P A params, .ok ()) := by
  rw [solve_run_init P none A (readyState A params) (elReady A) rfl rfl,
    if_pos (by simp [elRequired, elReady])]
  simp only [CM.bind]
  rw [updateGeometry_run none A _ (elReady A) rfl,
    if_neg (by simp [readyState, initState]), if_neg (by simp)]
  dsimp only
  rw [stSolve_run P none _ { elReady A with geom := some (A, A.ranges) } (A, A.ranges) rfl rfl,
    if_neg (by simp),
    if_neg (by simp [readyState, initState]), if_neg (by simp), if_neg (by simp), if_neg (by simp)]
  simp [setSolved, setEl, CM.modify, solvedState, readyState, initState, samplingOf, geoOf, wfOf,
    elReady, elSolved]

theorem run_forces (P : Phys) (A : Atoms) (s s' : Calc) (fp : Option Point)
    (r : Except Exn (ℕ → Vec)) (h : getForces P fp A s = (s', r)) :
    runCall P (.forces A) fp s = (s', r.map .vecs) := by
  have e := run_bind_ret (getForces P fp A) Result.vecs s
  simp only [runCall]
  rw [e, h]

/-- Forces on a state whose ground state is marked solved for `A`: whatever is stored is used, and the
result is stamped with the *current* atoms. -/
theorem getForces_stamped (P : Phys) (A : Atoms) (s : Calc) (el : ElState) (w : Wf)
    (m f g : Geo) (hi : s.init = true) (hel : s.el = some el)
    (hgs : el.solved .groundState = some A) (hfs : el.solved .forces = none)
    (hw : s.rho = some w) (hm : s.mats = some m) (hf : s.fin = some f) (hg : el.geom = some g)
    (hr : "forces" ∉ s.running) :
    getForces P none A s =
      ({ s with
          f := some (fun i => P.fbs el.syms w m f i + P.frep el.syms g i + P.fcoul el.syms w i +
            P.fpp s.pp el.syms g i)
          el := some { el with
            solved := fun q => if q = .forces then some el.atoms else el.solved q } },
        .ok (fun i => P.fbs el.syms w m f i + P.frep el.syms g i + P.fcoul el.syms w i +
            P.fpp s.pp el.syms g i)) := by
  rw [getForces_run P none A s el hel, if_pos (by simp [elRequired, hgs, hfs])]
  simp only [CM.bind]
  rw [solve_noop P none ⟨hi, hel, hgs⟩]
  cases s
  simp only at hel hw hm hf
  subst hel hw hm hf
  simp [forcesTail, bind, CM.bind, startTiming, hr, CM.get, attr, hg, stopTiming, CM.modify,
    setSolved, setEl] at hr ⊢

/-- A query for which a value is stored returns the stored value. -/
theorem getForces_cached (P : Phys) (A : Atoms) (s : Calc) (el : ElState) (v : ℕ → Vec)
    (hel : s.el = some el) (hgs : (el.solved .groundState).isSome)
    (hfs : el.solved .forces = some A) (hv : s.f = some v) :
    getForces P none A s = (s, .ok v) := by
  obtain ⟨X, hX⟩ := Option.isSome_iff_exists.1 hgs
  rw [getForces_run P none A s el hel, if_neg (by simp [elRequired, hX, hfs, aseEq_refl])]
  simp [attr, hv]

/-- **Stale stamp.** After `solve_ground_state(A)`, `set_atoms(B)`, `get_forces(A)` the forces of `A`
are stored as the forces of `B`: `get_forces(B)` returns the forces of `A`. -/
theorem c25_set_atoms_stale (P : Phys) (A B : Atoms) (params : String → Option String)
    (hsy : B.symbols = A.symbols) :
    (runCalls P [(.setAtoms A, none), (.solve A, none), (.setAtoms B, none), (.forces A, none),
      (.forces B, none)] (newCalc params)).2 =
    [.ok .unit, .ok .unit, .ok .unit, .ok (.vecs (forcesOf P [] A)),
      .ok (.vecs (forcesOf P [] A))] := by
  let s2 : Calc := { solvedState P A params with
    el := some { elSolved A with atoms := B, ranges := B.ranges } }
  have h2 : runCall P (.setAtoms B) none (solvedState P A params) = (s2, .ok .unit) := by
    have e := run_bind_ret (setAtoms none B) (fun _ => Result.unit) (solvedState P A params)
    simp only [runCall]
    rw [e]
    have h : (solvedState P A params).init = true := rfl
    have : setAtoms none B (solvedState P A params) = initCalc none B (solvedState P A params) := by
      have hsy' : B.symbols = (elSolved A).atoms.symbols := hsy
      have hel : (solvedState P A params).el = some (elSolved A) := rfl
      simp only [setAtoms, bind, CM.bind, CM.get, h, attr, hel, hsy', if_true, ne_eq,
        not_true_eq_false, if_false]
    rw [this, (initCalc_run none B _).2 h]
    rfl
  have h3 := getForces_stamped P A s2 { elSolved A with atoms := B, ranges := B.ranges }
    (wfOf P A) (geoOf A) (geoOf A) (geoOf A) rfl rfl (by simp [elSolved]) (by simp [elSolved])
    rfl rfl rfl rfl (by simp [s2, solvedState, readyState, initState])
  simp only [runCalls, run_setAtoms_new, run_solve P A _ _ none _ (solve_ready P A params), h2,
    run_forces P A s2 _ none _ h3]
  rw [run_forces P B _ _ none _ (getForces_cached P B _ _ _ rfl (by simp [elSolved])
    (by simp) rfl)]
  rfl

/-- Numerics for the counterexamples: everything is zero except that band-structure energy and
forces depend on the position of the first atom, and every pair potential adds one unit of force. -/
noncomputable def exPhys : Phys where
  kset := fun _ => []
  ebs := fun _ w _ => ((w.geo.1.positions.headD 0) 0)
  ecoul := fun _ _ => 0
  erep := fun _ _ => 0
  epp := fun pp _ _ => pp.length
  efree := fun _ => 0
  fbs := fun _ w _ _ _ => w.geo.1.positions.headD 0
  frep := fun _ _ _ => 0
  fcoul := fun _ _ _ => 0
  fpp := fun pp _ _ _ => ![pp.length, 0, 0]

/-- Two positions of one hydrogen atom. -/
noncomputable def exH (x : ℝ) : Atoms :=
  { ctype := .bravais, atoms := [("H", ![x, 0, 0])], cell := 1, pbc := fun _ => false }

theorem exH_forces (x : ℝ) (pp : List ℕ) :
    forcesOf exPhys pp (exH x) = fun _ => ![x + pp.length, 0, 0] := by
  funext i
  ext k
  fin_cases k <;> simp [forcesOf, exPhys, wfOf, geoOf, exH, Atoms.positions]

/-- **C25 fails with `set_atoms`**: forces returned for `B` after any calculation of `A` can differ
from the forces of `B`. -/
theorem c25_set_atoms_fails : ∃ (P : Phys) (A B : Atoms) (params : String → Option String),
    B.symbols = A.symbols ∧ Readable A ∧ Readable B ∧ ∃ f,
      (runCalls P [(.setAtoms A, none), (.solve A, none), (.setAtoms B, none), (.forces A, none),
        (.forces B, none)] (newCalc params)).2.getLast? = some (.ok (.vecs f)) ∧
      f ≠ forcesOf P [] B := by
  have hread : ∀ x, Readable (exH x) := by
    intro x
    refine ⟨by simp [exH], rfl, by simp [exH], ?_⟩
    intro _ c hc
    have : (exH x).cell 0 0 = 1 := by simp [exH]
    rw [this]
    have hm : magic < 0 := by unfold magic; norm_num
    have : (magicNumber c : ℝ) * magic ≤ 0 :=
      mul_nonpos_of_nonneg_of_nonpos (by positivity) hm.le
    linarith
  refine ⟨exPhys, exH 0, exH 1, fun _ => none, rfl, hread 0, hread 1, forcesOf exPhys [] (exH 0),
    ?_, ?_⟩
  · rw [c25_set_atoms_stale exPhys (exH 0) (exH 1) (fun _ => none) rfl]
    rfl
  · rw [exH_forces, exH_forces]
    intro h
    have := congrFun (congrFun h 0) 0
    simp at this

/-- **C25 fails for pair potentials added later**: they do not invalidate stored forces. -/
theorem c25_pair_potential_fails : ∃ (P : Phys) (A : Atoms) (params : String → Option String), ∃ f,
      (runCalls P [(.setAtoms A, none), (.solve A, none), (.forces A, none), (.addPP 7, none),
        (.forces A, none)] (newCalc params)).2.getLast? = some (.ok (.vecs f)) ∧
      f ≠ forcesOf P [7] A := by
  let P := exPhys
  let A := exH 0
  let params : String → Option String := fun _ => none
  refine ⟨P, A, params, forcesOf P [] A, ?_, ?_⟩
  · have h3 := getForces_stamped P A (solvedState P A params) (elSolved A)
      (wfOf P A) (geoOf A) (geoOf A) (geoOf A) rfl rfl (by simp [elSolved])
      (by simp [elSolved, elReady])
      rfl rfl rfl rfl (by simp [solvedState, readyState, initState])
    simp only [runCalls, run_setAtoms_new, run_solve P A _ _ none _ (solve_ready P A params),
      run_forces P A _ _ none _ h3]
    have h4 : ∀ s : Calc, s.el.isSome → runCall P (.addPP 7) none s =
        ({ s with pp := s.pp ++ [7] }, .ok .unit) := by
      intro s hs
      obtain ⟨el, hel⟩ := Option.isSome_iff_exists.1 hs
      simp [runCall, addPP, bind, CM.bind, attr, hel, CM.modify, pure, CM.pure]
    rw [h4 _ rfl]
    dsimp only
    rw [run_forces P A _ _ none _ (getForces_cached P A _ _ _ rfl (by simp [elSolved])
      (by simp; rfl) rfl)]
    rfl
  · show forcesOf exPhys [] (exH 0) ≠ forcesOf exPhys [7] (exH 0)
    rw [exH_forces, exH_forces]
    intro h
    have := congrFun (congrFun h 0) 0
    simp at this

/-- The state after also solving a different structure `B`: the element symbols, the ranges of
symmetry operations and the k-points are still those of `A`. -/
noncomputable def secondState (P : Phys) (A B : Atoms) (params : String → Option String) : Calc :=
  { readyState A params with
    el := some { elReady A with
      atoms := B
      geom := some (B, A.ranges)
      solved := fun q => if q = .groundState then some B else none }
    nk := some (P.kset A)
    mats := some (B, A.ranges)
    rho := some ⟨(B, A.ranges), P.kset A, true⟩
    fin := some (B, A.ranges) }

theorem solve_second (P : Phys) (A B : Atoms) (params) (h : aseEq A B = false) :
    solveGroundState P none B (solvedState P A params) = (secondState P A B params, .ok ()) := by
  rw [solve_run_init P none B (solvedState P A params) (elSolved A) rfl rfl,
    if_pos (by simp [elRequired, elSolved, elReady, h])]
  simp only [CM.bind]
  rw [updateGeometry_run none B _ (elSolved A) rfl,
    if_neg (by simp [solvedState, readyState, initState]), if_neg (by simp)]
  dsimp only
  rw [stSolve_run P none _ { elSolved A with atoms := B, geom := some (B, A.ranges) } (B, A.ranges)
    rfl rfl, if_neg (by simp),
    if_neg (by simp [solvedState, readyState, initState]), if_neg (by simp), if_neg (by simp),
    if_neg (by simp)]
  simp [setSolved, setEl, CM.modify, solvedState, secondState, readyState, initState, samplingOf,
    geoOf, wfOf, elReady, elSolved]
  funext q
  split_ifs <;> rfl

/-- What the calculator returns for a second structure: symbols, operation ranges and k-points are
those of the first one. -/
theorem c25_second_structure (P : Phys) (A B : Atoms) (params : String → Option String)
    (h : aseEq A B = false) :
    (runCalls P [(.setAtoms A, none), (.solve A, none), (.ebs B, none)] (newCalc params)).2 =
      [.ok .unit, .ok .unit,
        .ok (.num (P.ebs A.symbols ⟨(B, A.ranges), P.kset A, true⟩ (B, A.ranges)))] := by
  have h3 : (getEbs P none B (solvedState P A params)).2 =
      .ok (P.ebs A.symbols ⟨(B, A.ranges), P.kset A, true⟩ (B, A.ranges)) := by
    rw [getEbs_run P none B (solvedState P A params) (elSolved A) rfl,
      if_pos (by simp [elRequired, elSolved, elReady])]
    simp only [CM.bind, solve_second P A B params h]
    simp [ebsTail, bind, CM.bind, startTiming, secondState, readyState, initState, attr, failAt,
      CM.pure, stopTiming, CM.modify, setSolved, setEl, elReady]
  have e := run_bind_ret (getEbs P none B) Result.num (solvedState P A params)
  simp only [runCalls, run_setAtoms_new, run_solve P A _ _ none _ (solve_ready P A params)]
  simp only [runCall]
  rw [e, h3]
  rfl

/-- A wedge of three instead of five sectors. -/
noncomputable def exWedge3 : Atoms :=
  { exWedge5 with cell := !![0, 0, 0; 3, 0, 0; 2 * Real.pi / (3 : ℤ), 0, 0] }

theorem exWedge3_ranges : exWedge3.ranges =
    ![(.fin (-1), .fin 1), (.fin 0, .fin 0), (.negInf, .posInf)] := by
  have : wedgeM exWedge3.wedgeAngle = 3 := by
    have := wedgeM_two_pi_div (M := 3) (by norm_num)
    simpa [Atoms.wedgeAngle, exWedge3] using this
  simp only [Atoms.ranges, exWedge3, exWedge5] at this ⊢
  rw [this]
  simp [rangeOf, angularRange, rangeZero, rangeInf, Atoms.wedgePbcz]

/-- **C25 fails when the symmetry changes**: a calculator used for a wedge of `2π/3` and then for a
wedge of `2π/5` returns for the second an energy evaluated with the three images of the first. -/
theorem c25_ranges_fails : ∃ (P : Phys) (A B : Atoms) (params : String → Option String),
    B.symbols = A.symbols ∧ ∃ x,
      (runCalls P [(.setAtoms A, none), (.solve A, none), (.ebs B, none)] (newCalc params)).2.getLast?
        = some (.ok (.num x)) ∧ x ≠ P.ebs B.symbols (wfOf P B) (geoOf B) := by
  let P : Phys := { exPhys with ebs := fun _ _ g => if g.2 0 = (.fin (-1), .fin 1) then 1 else 0 }
  have hne : aseEq exWedge3 exWedge5 = false := by
    simp only [aseEq, decide_eq_false_iff_not, not_and]
    intro _ h
    have := congrFun (congrFun h 2) 0
    simp [exWedge3, exWedge5] at this
    have hpi := Real.pi_pos
    field_simp at this
    norm_num at this
  refine ⟨P, exWedge3, exWedge5, fun _ => none, rfl, 1, ?_, ?_⟩
  · rw [c25_second_structure P _ _ _ hne]
    simp [P, exWedge3_ranges]
  · simp [P, geoOf, exWedge5_ranges]

/-- **C25 fails for other elements**: unlike `set_atoms`, `get_potential_energy` and its relatives do
not check that the elements are those the calculator was initialized with. -/
theorem c25_symbols_fails : ∃ (P : Phys) (A B : Atoms) (params : String → Option String), ∃ x,
      (runCalls P [(.setAtoms A, none), (.solve A, none), (.ebs B, none)] (newCalc params)).2.getLast?
        = some (.ok (.num x)) ∧ x ≠ P.ebs B.symbols (wfOf P B) (geoOf B) := by
  let P : Phys := { exPhys with ebs := fun sy _ _ => if sy = ["H"] then 1 else 0 }
  let B : Atoms := { exH 0 with atoms := [("C", ![0, 0, 0])] }
  have hne : aseEq (exH 0) B = false := by simp [aseEq, exH, B]
  refine ⟨P, exH 0, B, fun _ => none, 1, ?_, ?_⟩
  · rw [c25_second_structure P _ _ _ hne]
    simp [P, exH, Atoms.symbols]
  · simp [P, B, exH, Atoms.symbols]

/-- Nothing can be asked of a calculator before `set_atoms` or `solve_ground_state`:
`get_potential_energy` and its relatives raise `AttributeError`. -/
theorem c25_uninitialized (P : Phys) (A : Atoms) (params : String → Option String)
    (fp : Option Point) (c : Call) (hc : IsQuery A c) :
    runCall P c fp (newCalc params) = (newCalc params, .error .attributeError) := by
  have h := noEl_query (newCalc params) rfl P fp A
  rcases hc with rfl | rfl | rfl | rfl <;> simp only [runCall]
  · rw [run_bind_ret, h.1]; rfl
  · rw [run_bind_ret, h.2.1]; rfl
  · rw [run_bind_ret, h.2.2.1]; rfl
  · rw [run_bind_ret, h.2.2.2]; rfl

/-- The hypotheses of C25 are met by non-trivial histories: two structures, a failed first
calculation and a repeated one. -/
example : ∃ (D : Atoms → Prop) (s : Calc), Domain exPhys D ["H"] ∧ D (exH 0) ∧ D (exH 1) ∧
    exH 0 ≠ exH 1 ∧ Hist exPhys D s ∧ Idle s ∧ Allowed D s none (.energy (exH 1)) := by
  refine ⟨fun A => ∃ x, A = exH x, readyState (exH 0) (fun _ => none), ⟨?_, ?_, ?_⟩, ⟨0, rfl⟩,
    ⟨1, rfl⟩, ?_, hist_ready _ _ _ ⟨0, rfl⟩ _, idle_ready _ _, ⟨⟨1, rfl⟩, Or.inl rfl⟩⟩
  · rintro _ ⟨x, rfl⟩; rfl
  · rintro _ _ ⟨x, rfl⟩ ⟨y, rfl⟩ h
    simp only [aseEq, decide_eq_true_eq] at h
    have := h.1
    simp [exH] at this
    rw [this]
  · rintro _ _ ⟨x, rfl⟩ ⟨y, rfl⟩; exact ⟨rfl, rfl⟩
  · intro h
    have := congrArg (fun A => (A.positions.headD 0) 0) h
    simp [exH, Atoms.positions] at this

/-! ## C26 -/

/-- **C26 (partial).** A failure — at any point — of the calculations made before the first successful
one does no harm: every later returned value is right. (The same holds for failures while asking
again about the last solved structure, and for a failed band-structure energy.) -/
theorem c26_early_failure_partial (P : Phys) (D : Atoms → Prop) (sy : List String)
    (hD : Domain P D sy) (s : Calc) (h : Hist P D s) (hgs : gsOf s = none)
    (A : Atoms) (hA : D A) (c : Call) (hc : IsQuery A c) (fp : Option Point)
    (B : Atoms) (hB : D B) (c' : Call) (hc' : IsQuery B c') (r : Result)
    (hr : (runCall P c' none (runCall P c fp s).1).2 = .ok r) :
    r = valueOf P (runCall P c' none (runCall P c fp s).1).1.pp c' := by
  have ok : ∀ (s : Calc) (A : Atoms) (c : Call) (fp : Option Point), D A → IsQuery A c →
      CrashOk s A fp → Allowed D s fp c := by
    intro s A c fp hA hc hcr
    rcases hc with rfl | rfl | rfl | rfl <;> exact ⟨hA, hcr⟩
  exact c25_partial P D sy hD _ (Hist.call s c fp h (ok s A c fp hA hc (Or.inr (Or.inr (Or.inl hgs)))))
    c' none (ok _ B c' none hB hc' (Or.inl rfl)) r hr

/-- The state after `A` was solved and the self-consistency cycle for `B` failed. -/
noncomputable def failedState (P : Phys) (A B : Atoms) (params : String → Option String) : Calc :=
  { solvedState P A params with
    el := some { elSolved A with atoms := B, geom := some (B, A.ranges) }
    running := ["solve", "Hotbit"]
    mats := some (B, A.ranges)
    rho := some ⟨(B, A.ranges), P.kset A, false⟩ }

theorem solve_failed (P : Phys) (A B : Atoms) (params) (h : aseEq A B = false) :
    solveGroundState P (some .scc) B (solvedState P A params) =
      (failedState P A B params, .error .runtimeError) := by
  rw [solve_run_init P (some .scc) B (solvedState P A params) (elSolved A) rfl rfl,
    if_pos (by simp [elRequired, elSolved, elReady, h])]
  simp only [CM.bind]
  rw [updateGeometry_run _ B _ (elSolved A) rfl,
    if_neg (by simp [solvedState, readyState, initState]), if_neg (by simp)]
  dsimp only
  rw [stSolve_run P _ _ { elSolved A with atoms := B, geom := some (B, A.ranges) } (B, A.ranges)
    rfl rfl, if_neg (by simp),
    if_neg (by simp [solvedState, readyState, initState]), if_neg (by simp), if_pos rfl]
  simp [solvedState, failedState, readyState, initState, samplingOf,
    geoOf, wfOf, elReady, elSolved]

/-- **C26 fails**: after a successful calculation of `A` and a failed one of `B`, `get_forces(A)`
returns the unconverged forces of `B` — and then `get_forces(B)` returns them, too. -/
theorem c26_mixture (P : Phys) (A B : Atoms) (params : String → Option String)
    (h : aseEq A B = false) (f : ℕ → Vec)
    (hf : f = fun i => P.fbs A.symbols ⟨(B, A.ranges), P.kset A, false⟩ (B, A.ranges) (geoOf A) i +
      P.frep A.symbols (B, A.ranges) i + P.fcoul A.symbols ⟨(B, A.ranges), P.kset A, false⟩ i +
      P.fpp [] A.symbols (B, A.ranges) i) :
    (runCalls P [(.setAtoms A, none), (.solve A, none), (.solve B, some .scc), (.forces A, none),
      (.forces B, none)] (newCalc params)).2 =
    [.ok .unit, .ok .unit, .error .runtimeError, .ok (.vecs f), .ok (.vecs f)] := by
  have h3 := getForces_stamped P A (failedState P A B params)
    { elSolved A with atoms := B, geom := some (B, A.ranges) }
    ⟨(B, A.ranges), P.kset A, false⟩ (B, A.ranges) (geoOf A) (B, A.ranges) rfl rfl
    (by simp [elSolved]) (by simp [elSolved]) rfl rfl rfl rfl
    (by simp [failedState, solvedState, readyState, initState])
  simp only [runCalls, run_setAtoms_new, run_solve P A _ _ none _ (solve_ready P A params),
    run_solve P B _ _ _ _ (solve_failed P A B params h), run_forces P A _ _ none _ h3]
  rw [run_forces P B _ _ none _ (getForces_cached P B _ _ _ rfl (by simp [elSolved])
    (by simp) rfl)]
  rw [hf]
  rfl

/-- **C26 fails** (concretely): the fourth call returns wrong forces for `A`. -/
theorem c26_fails : ∃ (P : Phys) (A B : Atoms) (params : String → Option String),
    B.symbols = A.symbols ∧ ∃ f,
      (runCalls P [(.setAtoms A, none), (.solve A, none), (.solve B, some .scc), (.forces A, none),
        (.forces B, none)] (newCalc params)).2[3]? = some (.ok (.vecs f)) ∧ f ≠ forcesOf P [] A := by
  have hne : aseEq (exH 0) (exH 1) = false := by simp [aseEq, exH]
  refine ⟨exPhys, exH 0, exH 1, fun _ => none, rfl, fun _ => ![1, 0, 0], ?_, ?_⟩
  · rw [c26_mixture exPhys (exH 0) (exH 1) (fun _ => none) hne (fun _ => ![1, 0, 0]) ?_]
    · rfl
    · funext i
      ext k
      fin_cases k <;> simp [exPhys, exH, Atoms.positions]
  · rw [exH_forces]
    intro h
    have := congrFun (congrFun h 0) 0
    simp at this

/-! ### After a failure inside the ground-state calculation the calculator is stuck -/

/-- The timer of the ground-state calculation was left running (by an exception). -/
def Stuck (s : Calc) : Prop := s.init = true ∧ s.el.isSome ∧ "solve" ∈ s.running

/-- Stays stuck, with the same solved ground state. -/
def StillStuck (s s' : Calc) : Prop := Stuck s → Stuck s' ∧ gsOf s' = gsOf s

theorem StillStuck.refl (s : Calc) : StillStuck s s := fun h => ⟨h, rfl⟩

theorem StillStuck.trans {a b c : Calc} (h : StillStuck a b) (h' : StillStuck b c) :
    StillStuck a c := fun ha =>
  ⟨(h' (h ha).1).1, (h' (h ha).1).2.trans (h ha).2⟩

def KeepsStuck {α : Type} (m : CM α) : Prop := ∀ s, StillStuck s (m s).1

theorem stuck_bind {α β : Type} {m : CM α} {k : α → CM β} (h : KeepsStuck m)
    (h' : ∀ a, KeepsStuck (k a)) : KeepsStuck (m >>= k) := by
  intro s
  have h1 := h s
  simp only [bind, CM.bind]
  generalize m s = o at h1
  obtain ⟨s1, _ | a⟩ := o
  · exact h1
  · exact h1.trans (h' a s1)

theorem stuck_pure {α : Type} (a : α) : KeepsStuck (pure a : CM α) := fun s => .refl s
theorem stuck_raise {α : Type} (e : Exn) : KeepsStuck (CM.raise e : CM α) := fun s => .refl s
theorem stuck_get : KeepsStuck CM.get := fun s => .refl s

theorem stuck_attr {α : Type} (x : Calc → Option α) : KeepsStuck (attr x) := by
  intro s
  unfold attr
  cases x s <;> exact .refl s

theorem stuck_failAt (fp : Option Point) (p : Point) (e : Exn) : KeepsStuck (failAt fp p e) := by
  intro s
  unfold failAt
  split_ifs <;> exact .refl s

theorem stuck_start (l : String) : KeepsStuck (startTiming l) := by
  intro s
  unfold startTiming
  split_ifs
  · exact .refl s
  · exact fun h => ⟨⟨h.1, h.2.1, List.mem_cons_of_mem _ h.2.2⟩, rfl⟩

theorem stuck_stop (l : String) (hl : l ≠ "solve") : KeepsStuck (stopTiming l) := by
  intro s
  unfold stopTiming
  split_ifs
  · exact fun h => ⟨⟨h.1, h.2.1, (List.mem_erase_of_ne (Ne.symm hl)).2 h.2.2⟩, rfl⟩
  · exact .refl s

theorem stuck_mod (g : Calc → Calc) (h1 : ∀ s, (g s).init = s.init) (h2 : ∀ s, (g s).el = s.el)
    (h3 : ∀ s, (g s).running = s.running) : KeepsStuck (CM.modify g) := by
  intro s h
  simp only [CM.modify]
  exact ⟨⟨(h1 s).trans h.1, by rw [h2]; exact h.2.1, by rw [h3]; exact h.2.2⟩,
    by simp only [gsOf, h2]⟩

theorem stuck_setEl (g : ElState → ElState)
    (hg : ∀ el, (g el).solved .groundState = el.solved .groundState) : KeepsStuck (setEl g) := by
  intro s h
  obtain ⟨el, hel⟩ := Option.isSome_iff_exists.1 h.2.1
  simp only [setEl, CM.modify, hel, Option.map_some]
  exact ⟨⟨h.1, rfl, h.2.2⟩, by simp [gsOf, hg, hel]⟩

theorem stuck_init (fp : Option Point) (A : Atoms) : KeepsStuck (initCalc fp A) := by
  intro s h
  rw [(initCalc_run fp A s).2 h.1]
  obtain ⟨el, hel⟩ := Option.isSome_iff_exists.1 h.2.1
  exact ⟨⟨h.1, by simp [hel], h.2.2⟩, by simp [gsOf, hel]⟩

/-- On a stuck calculator a needed ground-state calculation always raises. -/
theorem solve_stuck (P : Phys) (fp : Option Point) (A : Atoms) (s : Calc) (el : ElState)
    (h : Stuck s) (hel : s.el = some el) (hreq : elRequired el A .groundState = true) :
    ∃ e, (solveGroundState P fp A s).2 = .error e ∧ Stuck (solveGroundState P fp A s).1 ∧
      gsOf (solveGroundState P fp A s).1 = gsOf s := by
  rw [solve_run_init P fp A s el h.1 hel, if_pos hreq]
  simp only [CM.bind]
  rw [updateGeometry_run fp A s el hel]
  split_ifs with h1 h2
  · exact ⟨_, rfl, h, rfl⟩
  · exact ⟨_, rfl, ⟨h.1, rfl, List.mem_cons_of_mem _ h.2.2⟩, by simp [gsOf, hel]⟩
  · dsimp only
    rw [stSolve_run P fp _ { el with atoms := A, geom := some (A, el.ranges) } (A, el.ranges) rfl
      rfl]
    by_cases h3 : s.nk = none ∧ fp = some .kpoints
    · rw [if_pos h3]
      exact ⟨_, rfl, ⟨h.1, rfl, h.2.2⟩, by simp [gsOf, hel]⟩
    · rw [if_neg h3, if_pos h.2.2]
      exact ⟨_, rfl, ⟨h.1, rfl, h.2.2⟩, by simp [gsOf, hel]⟩

theorem stuck_solve (P : Phys) (fp : Option Point) (A : Atoms) :
    KeepsStuck (solveGroundState P fp A) := by
  intro s h
  obtain ⟨el, hel⟩ := Option.isSome_iff_exists.1 h.2.1
  by_cases hreq : elRequired el A .groundState = true
  · obtain ⟨e, -, h1, h2⟩ := solve_stuck P fp A s el h hel hreq
    exact ⟨h1, h2⟩
  · rw [solve_run_init P fp A s el h.1 hel, if_neg hreq]
    exact ⟨h, rfl⟩

theorem stuck_required (A : Atoms) (q : Quantity) : KeepsStuck (calcRequired A q) :=
  stuck_bind (stuck_attr _) fun _ => stuck_pure _

theorem stuck_setSolved (q : Quantity) (hq : q ≠ .groundState) : KeepsStuck (setSolved q) :=
  stuck_setEl _ fun el => by dsimp only; rw [if_neg (Ne.symm hq)]

theorem stuck_ebs (P : Phys) (fp : Option Point) (A : Atoms) : KeepsStuck (getEbs P fp A) := by
  unfold getEbs
  refine stuck_bind (stuck_required _ _) fun b => ?_
  split_ifs
  · exact stuck_bind (stuck_solve _ _ _) fun _ => stuck_bind (stuck_start _) fun _ =>
      stuck_bind (stuck_attr _) fun _ => stuck_bind (stuck_attr _) fun _ =>
      stuck_bind (stuck_attr _) fun _ => stuck_bind (stuck_failAt _ _ _) fun _ =>
      stuck_bind (stuck_stop _ (by decide)) fun _ =>
      stuck_bind (stuck_mod _ (fun _ => rfl) (fun _ => rfl) (fun _ => rfl)) fun _ =>
      stuck_bind (stuck_setSolved _ (by decide)) fun _ => stuck_attr _
  · exact stuck_attr _

theorem stuck_ecoul (P : Phys) (fp : Option Point) (A : Atoms) : KeepsStuck (getEcoul P fp A) := by
  unfold getEcoul
  refine stuck_bind (stuck_required _ _) fun b => ?_
  split_ifs
  · exact stuck_bind (stuck_solve _ _ _) fun _ => stuck_bind (stuck_start _) fun _ =>
      stuck_bind (stuck_attr _) fun _ => stuck_bind (stuck_attr _) fun _ =>
      stuck_bind (stuck_stop _ (by decide)) fun _ =>
      stuck_bind (stuck_mod _ (fun _ => rfl) (fun _ => rfl) (fun _ => rfl)) fun _ => stuck_attr _
  · exact stuck_attr _

theorem stuck_energy (P : Phys) (fp : Option Point) (A : Atoms) :
    KeepsStuck (getEnergy P fp A) := by
  unfold getEnergy
  refine stuck_bind (stuck_required _ _) fun b => ?_
  split_ifs
  · exact stuck_bind (stuck_solve _ _ _) fun _ => stuck_bind (stuck_start _) fun _ =>
      stuck_bind (stuck_ebs _ _ _) fun _ => stuck_bind (stuck_ecoul _ _ _) fun _ =>
      stuck_bind stuck_get fun _ => stuck_bind (stuck_attr _) fun _ =>
      stuck_bind (stuck_attr _) fun _ =>
      stuck_bind (stuck_mod _ (fun _ => rfl) (fun _ => rfl) (fun _ => rfl)) fun _ =>
      stuck_bind (stuck_stop _ (by decide)) fun _ =>
      stuck_bind (stuck_setSolved _ (by decide)) fun _ => stuck_attr _
  · exact stuck_attr _

theorem stuck_forces (P : Phys) (fp : Option Point) (A : Atoms) :
    KeepsStuck (getForces P fp A) := by
  unfold getForces
  refine stuck_bind (stuck_required _ _) fun b => ?_
  split_ifs
  · exact stuck_bind (stuck_solve _ _ _) fun _ => stuck_bind (stuck_start _) fun _ =>
      stuck_bind stuck_get fun _ => stuck_bind (stuck_attr _) fun _ =>
      stuck_bind (stuck_attr _) fun _ => stuck_bind (stuck_attr _) fun _ =>
      stuck_bind (stuck_attr _) fun _ => stuck_bind (stuck_attr _) fun _ =>
      stuck_bind (stuck_stop _ (by decide)) fun _ =>
      stuck_bind (stuck_mod _ (fun _ => rfl) (fun _ => rfl) (fun _ => rfl)) fun _ =>
      stuck_bind (stuck_setSolved _ (by decide)) fun _ => stuck_attr _
  · exact stuck_attr _

theorem stuck_setAtoms (fp : Option Point) (A : Atoms) : KeepsStuck (setAtoms fp A) := by
  unfold setAtoms
  refine stuck_bind stuck_get fun s => ?_
  split_ifs
  · refine stuck_bind (stuck_attr _) fun el => ?_
    split_ifs
    · exact stuck_raise _
    · exact stuck_init fp A
  · exact stuck_init fp A

theorem stuck_setParam (k v : String) : KeepsStuck (setParam k v) := by
  unfold setParam
  refine stuck_bind stuck_get fun s => ?_
  split_ifs
  · exact stuck_mod _ (fun _ => rfl) (fun _ => rfl) (fun _ => rfl)
  · exact stuck_raise _
  · exact stuck_mod _ (fun _ => rfl) (fun _ => rfl) (fun _ => rfl)

theorem stuck_call (P : Phys) (c : Call) (fp : Option Point) : KeepsStuck (runCall P c fp) := by
  cases c with
  | energy A => exact stuck_bind (stuck_energy _ _ _) fun _ => stuck_pure _
  | forces A => exact stuck_bind (stuck_forces _ _ _) fun _ => stuck_pure _
  | ebs A => exact stuck_bind (stuck_ebs _ _ _) fun _ => stuck_pure _
  | ecoul A => exact stuck_bind (stuck_ecoul _ _ _) fun _ => stuck_pure _
  | solve A => exact stuck_bind (stuck_solve _ _ _) fun _ => stuck_pure _
  | setAtoms A => exact stuck_bind (stuck_setAtoms _ _) fun _ => stuck_pure _
  | set k v => exact stuck_bind (stuck_setParam _ _) fun _ => stuck_pure _
  | addPP v => exact stuck_bind (stuck_bind (stuck_attr _) fun _ =>
      stuck_mod _ (fun _ => rfl) (fun _ => rfl) (fun _ => rfl)) fun _ => stuck_pure _

/-- **C26**: once a calculation raised inside the ground-state solver (matrices, SCC cycle, charge
check), no later call of any history ever solves a ground state again: the solved structure stays what
it was, and `solve_ground_state` raises for every structure that differs from it. -/
theorem c26_never_recovers (P : Phys) (s : Calc) (h : Stuck s) (cs : List (Call × Option Point)) :
    Stuck (runCalls P cs s).1 ∧ gsOf (runCalls P cs s).1 = gsOf s ∧
    ∀ (A : Atoms) (fp : Option Point), (∀ X, gsOf s = some X → aseEq X A = false) →
      ∃ e, (runCall P (.solve A) fp (runCalls P cs s).1).2 = .error e := by
  have key : Stuck (runCalls P cs s).1 ∧ gsOf (runCalls P cs s).1 = gsOf s := by
    induction cs generalizing s with
    | nil => exact ⟨h, rfl⟩
    | cons p cs ih =>
      obtain ⟨c, fp⟩ := p
      have h1 := stuck_call P c fp s h
      have h2 := ih _ h1.1
      exact ⟨h2.1, h2.2.trans h1.2⟩
  refine ⟨key.1, key.2, ?_⟩
  intro A fp hA
  generalize (runCalls P cs s).1 = s' at key ⊢
  obtain ⟨el, hel⟩ := Option.isSome_iff_exists.1 key.1.2.1
  have hreq : elRequired el A .groundState = true := by
    unfold elRequired
    cases hg : el.solved .groundState with
    | none => rfl
    | some X =>
      have : gsOf s = some X := by rw [← key.2]; simp [gsOf, hel, hg]
      simp [hA X this]
  obtain ⟨e, he, -⟩ := solve_stuck P fp A s' el key.1 hel hreq
  refine ⟨e, ?_⟩
  simp only [runCall]
  rw [run_bind_ret, he]
  rfl

/-- Such states are reached by an SCC cycle that fails to converge. -/
example (params) : Stuck (failedState exPhys (exH 0) (exH 1) params) ∧
    (runCall exPhys (.solve (exH 1)) (some .scc) (solvedState exPhys (exH 0) params)).1 =
      failedState exPhys (exH 0) (exH 1) params := by
  have hne : aseEq (exH 0) (exH 1) = false := by simp [aseEq, exH]
  refine ⟨⟨rfl, rfl, by simp [failedState]⟩, ?_⟩
  rw [run_solve exPhys (exH 1) _ _ _ _ (solve_failed exPhys (exH 0) (exH 1) params hne)]

/-! ## C27 -/

/-- **C27**: before initialization every parameter can be set; afterwards only `txt` and `charge` — for
any other key the call raises `AssertionError` and changes nothing. -/
theorem c27_set (P : Phys) (s : Calc) (key value : String) (fp : Option Point) :
    runCall P (.set key value) fp s =
      if s.init = true ∧ key ≠ "txt" ∧ key ≠ "charge" then (s, .error .assertionError)
      else ({ s with params := fun k => if k = key then some value else s.params k }, .ok .unit) := by
  have hupd : ∀ k v, Function.update s.params k (some v) =
      fun k' => if k' = k then some v else s.params k' := by
    intro k v; funext k'; simp [Function.update_apply]
  simp only [runCall]
  have e := run_bind_ret (setParam key value) (fun _ => Result.unit) s
  rw [e]
  unfold setParam
  simp only [bind, CM.bind, CM.get]
  by_cases h1 : key = "txt"
  · subst h1
    simp [CM.modify, hupd, Except.map]
  · by_cases h2 : s.init = true ∧ key ≠ "charge"
    · simp [h1, h2.1, h2.2, CM.raise, Except.map]
    · simp only [h1, h2, if_false, CM.modify, hupd, not_false_eq_true, true_and, ne_eq]
      simp only [ne_eq] at h2
      simp [h2, Except.map]

/-- What `get` returns after a successful `set`. -/
theorem c27_get (s : Calc) (key value key' : String) :
    (getParam key' { s with params := fun k => if k = key then some value else s.params k }).2 =
      if key' = key then .ok value else (getParam key' s).2 := by
  unfold getParam
  by_cases h : key' = key
  · simp [h]
  · simp only [h, if_false]
    cases s.params key' <;> rfl

/-- **C27** over histories: once the calculator is initialized, no sequence of calls — failing or not —
changes a parameter other than `txt` and `charge`. -/
theorem c27_frozen (P : Phys) (s : Calc) (h : s.init = true) (cs : List (Call × Option Point))
    (key : String) (h1 : key ≠ "txt") (h2 : key ≠ "charge") :
    (runCalls P cs s).1.init = true ∧ (runCalls P cs s).1.params key = s.params key := by
  induction cs generalizing s with
  | nil => exact ⟨h, rfl⟩
  | cons p cs ih =>
    obtain ⟨c, fp⟩ := p
    have step : (runCall P c fp s).1.init = true ∧ (runCall P c fp s).1.params key = s.params key := by
      by_cases hs : ∃ k v, c = .set k v
      · obtain ⟨k, v, rfl⟩ := hs
        rw [c27_set]
        split_ifs with hk
        · exact ⟨h, rfl⟩
        · refine ⟨h, ?_⟩
          dsimp only
          rw [if_neg]
          rintro rfl
          exact hk ⟨h, h1, h2⟩
      · by_cases hp : ∃ v, c = .addPP v
        · obtain ⟨v, rfl⟩ := hp
          simp only [runCall]
          rw [run_bind_ret]
          simp only [addPP, bind, CM.bind, attr]
          cases s.el <;> simp [CM.modify, h]
        · have := keeps_call P c fp (fun k v e => hs ⟨k, v, e⟩) (fun v e => hp ⟨v, e⟩) s
          exact ⟨(this.2 h).1, by rw [this.1]⟩
    obtain ⟨a, b⟩ := ih _ step.1
    exact ⟨a, b.trans step.2⟩

example (params) : (readyState (exH 0) params).init = true ∧ "SCC" ≠ "txt" ∧ "SCC" ≠ "charge" := by
  refine ⟨rfl, by decide, by decide⟩

/-- The charge can be changed at any time, but results already stored are not recomputed: forces of
the same structure stay what they were. -/
theorem c27_charge_keeps_results (P : Phys) (A : Atoms) (s : Calc) (el : ElState) (v : ℕ → Vec)
    (value : String)
    (hel : s.el = some el) (hgs : (el.solved .groundState).isSome)
    (hfs : el.solved .forces = some A) (hv : s.f = some v) :
    (runCalls P [(.set "charge" value, none), (.forces A, none)] s).2 =
      [.ok .unit, .ok (.vecs v)] := by
  simp only [runCalls]
  rw [c27_set, if_neg (by simp)]
  dsimp only
  rw [run_forces P A _ _ none _ (getForces_cached P A
    { s with params := fun k => if k = "charge" then some value else s.params k }
    el v hel hgs hfs hv)]
  rfl

end Hotbit
