import Verif.Model.Calculator

/-! Explicit results of the calculator's building blocks. -/

namespace Hotbit

open Classical

set_option linter.unusedSimpArgs false

theorem updateGeometry_run (fp : Option Point) (A : Atoms) (s : Calc) (el : ElState)
    (hel : s.el = some el) : updateGeometry fp A s =
      if "geometry" ∈ s.running then (s, .error .assertionError)
      else if fp = some .geometry then
        ({ s with running := "geometry" :: s.running, el := some { el with atoms := A } },
          .error .exception)
      else ({ s with el := some { el with atoms := A, geom := some (A, el.ranges) } }, .ok ()) := by
  unfold updateGeometry
  simp only [bind, CM.bind, startTiming]
  by_cases h1 : "geometry" ∈ s.running
  · simp [h1]
  · by_cases h2 : fp = some .geometry
    · simp [h1, h2, setEl, CM.modify, failAt, CM.raise, hel]
    · simp [h1, h2, setEl, CM.modify, failAt, CM.pure, hel, stopTiming]

/-- The sampling `st.solve` works with. -/
def samplingOf (P : Phys) (s : Calc) (el : ElState) : Sampling := s.nk.getD (P.kset el.atoms)

theorem kSetup_run (P : Phys) (fp : Option Point) (s : Calc) (el : ElState) (hel : s.el = some el) :
    kSetup P fp s =
      if s.nk = none ∧ fp = some .kpoints then (s, .error .assertionError)
      else ({ s with nk := some (samplingOf P s el) }, .ok (samplingOf P s el)) := by
  unfold kSetup samplingOf
  cases s
  simp only at hel
  subst hel
  rename_i nk _ _ _ _ _ _ _ _ _ _
  cases nk with
  | none =>
    by_cases h0 : fp = some .kpoints
    · simp [bind, CM.bind, CM.get, h0, failAt, CM.raise]
    · simp [bind, CM.bind, CM.get, h0, failAt, CM.pure, attr, CM.modify, pure]
  | some k => simp [bind, CM.bind, CM.get, pure, CM.pure]

/-- State after `st.solve()` reached a given point. -/
theorem stSolve_run (P : Phys) (fp : Option Point) (s : Calc) (el : ElState) (geo : Geo)
    (hel : s.el = some el) (hgeo : el.geom = some geo) :
    stSolve P fp s =
      if s.nk = none ∧ fp = some .kpoints then (s, .error .assertionError)
      else if "solve" ∈ s.running then
        ({ s with nk := some (samplingOf P s el) }, .error .assertionError)
      else if fp = some .matrices then
        ({ s with nk := some (samplingOf P s el), running := "solve" :: s.running },
          .error .exception)
      else if fp = some .scc then
        ({ s with nk := some (samplingOf P s el), running := "solve" :: s.running, mats := some geo,
                  rho := some ⟨geo, samplingOf P s el, false⟩ }, .error .runtimeError)
      else if fp = some .mulliken then
        ({ s with nk := some (samplingOf P s el), running := "solve" :: s.running, mats := some geo,
                  rho := some ⟨geo, samplingOf P s el, true⟩ }, .error .exception)
      else ({ s with nk := some (samplingOf P s el), mats := some geo,
                     rho := some ⟨geo, samplingOf P s el, true⟩, fin := some geo }, .ok ()) := by
  unfold stSolve
  simp only [bind, CM.bind, kSetup_run P fp s el hel]
  by_cases h0 : s.nk = none ∧ fp = some .kpoints
  · simp only [if_pos h0]
  · rw [if_neg h0, if_neg h0]
    generalize samplingOf P s el = k
    cases s
    simp only at hel
    subst hel
    rename_i running _ _
    by_cases h1 : "solve" ∈ running
    · simp [startTiming, h1]
    · by_cases h2 : fp = some .matrices
      · simp [failAt, CM.pure, CM.modify, startTiming, h1, h2,
          CM.raise]
      · by_cases h3 : fp = some .scc
        · simp [failAt, CM.pure, CM.modify, startTiming, h1, h2,
            CM.raise, attr, h3, hgeo]
        · by_cases h4 : fp = some .mulliken
          · simp [failAt, CM.pure, CM.modify, startTiming, h1, h2,
              CM.raise, attr, h3, h4, hgeo]
          · simp [failAt, CM.pure, CM.modify, startTiming, h1, h2,
              CM.raise, attr, h3, h4, stopTiming, hgeo]

/-- The state a first initialization leaves behind. -/
noncomputable def initState (A : Atoms) (s : Calc) : Calc :=
  { s with
    running := ["Hotbit"], el := some { atoms := A, ranges := A.ranges, syms := A.symbols },
    ana := fun _ => none, grid := none,
    nk := none, rho := none, mats := none, fin := none, pp := [] }

theorem initCalc_run (fp : Option Point) (A : Atoms) (s : Calc) :
    (s.init = false → initCalc fp A s =
      if fp = some .init then (initState A s, .error .assertionError)
      else ({ initState A s with init := true }, .ok ())) ∧
    (s.init = true → initCalc fp A s =
      ({ s with el := s.el.map fun el => { el with atoms := A, ranges := A.ranges } }, .ok ())) := by
  constructor
  · intro h
    unfold initCalc
    by_cases h1 : fp = some .init
    · simp [bind, CM.bind, CM.get, h, failAt, CM.modify, CM.raise, h1, initState]
    · simp [bind, CM.bind, CM.get, h, failAt, CM.modify, CM.pure, h1, initState, setEl]
  · intro h
    unfold initCalc
    simp [bind, CM.bind, CM.get, h, CM.modify, setEl]

/-- The part of `solve_ground_state` after the initialization. -/
theorem solve_run_init (P : Phys) (fp : Option Point) (A : Atoms) (s : Calc) (el : ElState)
    (hi : s.init = true) (hel : s.el = some el) :
    solveGroundState P fp A s =
      if elRequired el A .groundState = true then
        (CM.bind (updateGeometry fp A) fun _ => CM.bind (stSolve P fp) fun _ =>
          CM.bind (setSolved .groundState) fun _ =>
            CM.modify fun s => { s with ana := fun _ => none }) s
      else (s, .ok ()) := by
  unfold solveGroundState
  by_cases h : elRequired el A .groundState = true
  · simp only [bind, CM.bind, CM.get, hi, calcRequired, attr, hel, h, pure, CM.pure, if_true,
      Bool.not_true, if_false, Bool.false_eq_true]
  · simp only [bind, CM.bind, CM.get, hi, calcRequired, attr, hel, h, pure, CM.pure, if_true,
      Bool.not_true, if_false, Bool.false_eq_true]

theorem solve_run_noinit (P : Phys) (fp : Option Point) (A : Atoms) (s : Calc) (hi : s.init = false) :
    solveGroundState P fp A s =
      if fp = some .init then (initState A s, .error .assertionError)
      else solveGroundState P fp A { initState A s with init := true } := by
  rw [solve_run_init P fp A { initState A s with init := true } { atoms := A, ranges := A.ranges, syms := A.symbols }
    rfl rfl]
  unfold solveGroundState
  simp only [bind, CM.bind, CM.get, hi, Bool.not_false, if_true, (initCalc_run fp A s).1 hi]
  by_cases h1 : fp = some .init
  · simp [h1]
  · simp [h1, calcRequired, bind, CM.bind, attr, initState, pure, CM.pure, elRequired]

end Hotbit
