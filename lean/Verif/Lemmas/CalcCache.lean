import Verif.Lemmas.Calculator
import Verif.Spec.Calculator

/-! The caching invariant of the calculator (used by `Props/Calculator`). -/

namespace Hotbit

open Classical

set_option linter.unusedSimpArgs false

/-- The invariant behind C25: whatever is marked solved for `X` holds the value for `X`. `D` is the
set of structures used, `sy` their symbols. -/
structure Good (P : Phys) (D : Atoms → Prop) (sy : List String) (s : Calc) (el : ElState) : Prop where
  syms : el.syms = sy
  fresh : s.init = false → ∀ q, el.solved q = none
  dom : ∀ q X, el.solved q = some X → D X
  gsNone : el.solved .groundState = none → ∀ q, el.solved q = none
  ranges : ∀ Y, D Y → el.ranges = Y.ranges
  nk : ∀ k, s.nk = some k → ∀ Y, D Y → k = P.kset Y
  gs : ∀ X, el.solved .groundState = some X → el.atoms = X ∧ el.geom = some (geoOf X) ∧
    s.rho = some (wfOf P X) ∧ s.mats = some (geoOf X) ∧ s.fin = some (geoOf X) ∧ "solve" ∉ s.running ∧
    "geometry" ∉ s.running
  energy : ∀ X, el.solved .energy = some X → s.epot = some (energyOf P s.pp X)
  forces : ∀ X, el.solved .forces = some X → s.f = some (forcesOf P s.pp X)
  ebs : ∀ X, el.solved .ebs = some X → s.ebs = some (P.ebs X.symbols (wfOf P X) (geoOf X))
  ecoul : el.solved .ecoul = none

/-- The invariant of the whole calculator (nothing to say before the first initialization). -/
def GoodC (P : Phys) (D : Atoms → Prop) (sy : List String) (s : Calc) : Prop :=
  (s.init = true → s.el.isSome) ∧ ∀ el, s.el = some el → Good P D sy s el

theorem aseEq_refl (A : Atoms) : aseEq A A = true := by simp [aseEq]

theorem elRequired_false {P : Phys} {D : Atoms → Prop} {sy : List String} {s : Calc} {el : ElState}
    (hD : Domain P D sy) (h : Good P D sy s el) (A : Atoms) (hA : D A) (q : Quantity) :
    elRequired el A q = false ↔ el.solved q = some A := by
  unfold elRequired
  cases hg : el.solved .groundState with
  | none => simp [h.gsNone hg q]
  | some X =>
    cases hq : el.solved q with
    | none => simp
    | some Y =>
      simp only [Bool.not_eq_eq_eq_not, Bool.not_false, Option.some.injEq]
      constructor
      · exact fun he => hD.2.1 Y A (h.dom q Y hq) hA he
      · rintro rfl; exact aseEq_refl _

/-- Marking the current ground-state structure as solved for `q`. -/
theorem good_ext {P : Phys} {D : Atoms → Prop} {sy : List String} {s s' : Calc} {el : ElState}
    (h : Good P D sy s el) (h1 : s'.init = s.init) (h0 : s'.nk = s.nk) (h2 : s'.rho = s.rho) (h3 : s'.mats = s.mats)
    (h4 : s'.fin = s.fin) (h5 : s'.epot = s.epot) (h6 : s'.f = s.f) (h7 : s'.ebs = s.ebs)
    (h8 : s'.pp = s.pp) (h9 : "solve" ∈ s'.running → "solve" ∈ s.running)
    (h10 : "geometry" ∈ s'.running → "geometry" ∈ s.running) : Good P D sy s' el where
  syms := h.syms
  fresh := by rw [h1]; exact h.fresh
  dom := h.dom
  gsNone := h.gsNone
  ranges := h.ranges
  nk := by rw [h0]; exact h.nk
  gs := by
    intro X hX
    obtain ⟨a, b, c, d, e, f, g⟩ := h.gs X hX
    exact ⟨a, b, by rw [h2, c], by rw [h3, d], by rw [h4, e], fun hh => f (h9 hh),
      fun hh => g (h10 hh)⟩
  energy := by rw [h5, h8]; exact h.energy
  forces := by rw [h6, h8]; exact h.forces
  ebs := by rw [h7]; exact h.ebs
  ecoul := h.ecoul

/-- `solve_ground_state` keeps the invariant; when it returns, the ground state is solved for the
structure asked for. -/
theorem solve_good_init (P : Phys) (D : Atoms → Prop) (sy : List String) (hD : Domain P D sy)
    (s : Calc) (hs : GoodC P D sy s) (A : Atoms) (hA : D A) (fp : Option Point)
    (hc : CrashOk s A fp) (hi : s.init = true) (s' : Calc) (r : Except Exn Unit)
    (hr : solveGroundState P fp A s = (s', r)) :
    GoodC P D sy s' ∧ s'.init = true ∧ s'.pp = s.pp ∧ s'.params = s.params ∧
      (∀ l, l ≠ "solve" → l ≠ "geometry" → (l ∈ s'.running ↔ l ∈ s.running)) ∧
      (r = .ok () → gsOf s' = some A ∧ s'.running = s.running) := by
  obtain ⟨el, hel⟩ := Option.isSome_iff_exists.1 (hs.1 hi)
  have hG := hs.2 el hel
  rw [solve_run_init P fp A s el hi hel] at hr
  by_cases hreq : elRequired el A .groundState = true
  · rw [if_pos hreq] at hr
    have hne : gsOf s ≠ some A := by
      intro h
      simp only [gsOf, hel, Option.bind_some] at h
      rw [(elRequired_false hD hG A hA _).2 h] at hreq
      simp at hreq
    have hnone : ¬ (fp = none ∨ fp = some .ebs) → el.solved .groundState = none := by
      intro hf
      rcases hc with h | h | h | h
      · exact absurd (Or.inl h) hf
      · exact absurd (Or.inr h) hf
      · simpa [gsOf, hel] using h
      · exact absurd h hne
    simp only [CM.bind, updateGeometry_run fp A s el hel] at hr
    by_cases hgeo : "geometry" ∈ s.running
    · simp only [hgeo, if_true, Prod.mk.injEq] at hr
      obtain ⟨rfl, rfl⟩ := hr
      exact ⟨hs, hi, rfl, rfl, fun _ _ _ => Iff.rfl, fun h => by simp at h⟩
    · by_cases hfg : fp = some .geometry
      · simp only [hgeo, if_false, hfg, if_true, Prod.mk.injEq] at hr
        obtain ⟨rfl, rfl⟩ := hr
        have hgn := hnone (by simp [hfg])
        have hall := hG.gsNone hgn
        refine ⟨⟨fun _ => rfl, ?_⟩, hi, rfl, rfl, ?_, fun h => by simp at h⟩
        · intro el' hel'
          simp only [Option.some.injEq] at hel'
          subst hel'
          exact ⟨hG.syms, fun _ => hall, hG.dom, fun _ => hall, hG.ranges, hG.nk,
            by intro X hX; simp [hgn] at hX, by intro X hX; simp [hall] at hX,
            by intro X hX; simp [hall] at hX, by intro X hX; simp [hall] at hX, hall _⟩
        · intro l h1 h2; simp [h2]
      · simp only [hgeo, if_false, hfg] at hr
        have hrg : el.ranges = A.ranges := hG.ranges A hA
        have hsam : samplingOf P
            { s with el := some { el with atoms := A, geom := some (A, el.ranges) } }
            { el with atoms := A, geom := some (A, el.ranges) } = P.kset A := by
          unfold samplingOf
          dsimp only
          cases hnk : s.nk with
          | none => rfl
          | some k => exact hG.nk k hnk A hA
        rw [stSolve_run P fp _ { el with atoms := A, geom := some (A, el.ranges) } (A, el.ranges) rfl
          rfl, hsam] at hr
        have hkk : ∀ k, some (P.kset A) = some k → ∀ Y, D Y → k = P.kset Y := by
          intro k hk Y hY
          rw [← Option.some.inj hk]
          exact (hD.2.2 A Y hA hY).2
        -- failures in `solve` happen only when no ground state was solved
        have good_none : ∀ s1 : Calc, el.solved .groundState = none → s1.init = true →
            s1.el = some { el with atoms := A, geom := some (A, el.ranges) } →
            (∀ k, s1.nk = some k → ∀ Y, D Y → k = P.kset Y) → GoodC P D sy s1 := by
          intro s1 hgn h1 h2 hnk1
          have hall := hG.gsNone hgn
          refine ⟨fun _ => by rw [h2]; rfl, ?_⟩
          intro el' hel'
          rw [h2] at hel'
          simp only [Option.some.injEq] at hel'
          subst hel'
          exact ⟨hG.syms, fun _ => hall, hG.dom, fun _ => hall, hG.ranges, hnk1,
            by intro X hX; simp [hgn] at hX, by intro X hX; simp [hall] at hX,
            by intro X hX; simp [hall] at hX, by intro X hX; simp [hall] at hX, hall _⟩
        by_cases hk : s.nk = none ∧ fp = some .kpoints
        · rw [if_pos hk] at hr
          simp only [Prod.mk.injEq] at hr
          obtain ⟨rfl, rfl⟩ := hr
          refine ⟨good_none _ (hnone (by simp [hk.2])) hi rfl hG.nk, hi, rfl, rfl, fun _ _ _ => Iff.rfl,
            fun h => by simp at h⟩
        rw [if_neg hk] at hr
        by_cases hsol : "solve" ∈ s.running
        · simp only [hsol, if_true, Prod.mk.injEq] at hr
          obtain ⟨rfl, rfl⟩ := hr
          have hgn : el.solved .groundState = none := by
            cases hg : el.solved .groundState with
            | none => rfl
            | some X => exact absurd hsol (hG.gs X hg).2.2.2.2.2.1
          exact ⟨good_none _ hgn hi rfl hkk, hi, rfl, rfl, fun _ _ _ => Iff.rfl, fun h => by simp at h⟩
        · simp only [hsol, if_false] at hr
          by_cases hm : fp = some .matrices
          · simp only [hm, if_true, Prod.mk.injEq] at hr
            obtain ⟨rfl, rfl⟩ := hr
            exact ⟨good_none _ (hnone (by simp [hm])) hi rfl hkk, hi, rfl, rfl,
              fun l h1 h2 => by simp [h1], fun h => by simp at h⟩
          by_cases hsc : fp = some .scc
          · simp only [hsc, if_true, Prod.mk.injEq, reduceCtorEq, if_false, Option.some.injEq] at hr
            obtain ⟨rfl, rfl⟩ := hr
            exact ⟨good_none _ (hnone (by simp [hsc])) hi rfl hkk, hi, rfl, rfl,
              fun l h1 h2 => by simp [h1], fun h => by simp at h⟩
          by_cases hmu : fp = some .mulliken
          · simp only [hmu, if_true, Prod.mk.injEq, reduceCtorEq, if_false, Option.some.injEq] at hr
            obtain ⟨rfl, rfl⟩ := hr
            exact ⟨good_none _ (hnone (by simp [hmu])) hi rfl hkk, hi, rfl, rfl,
              fun l h1 h2 => by simp [h1], fun h => by simp at h⟩
          simp only [hm, hsc, hmu, if_false, setSolved, setEl, CM.modify, Option.map_some,
            Prod.mk.injEq] at hr
          obtain ⟨rfl, rfl⟩ := hr
          refine ⟨⟨fun _ => rfl, ?_⟩, hi, rfl, rfl, fun _ _ _ => Iff.rfl, fun _ => ⟨?_, rfl⟩⟩
          · intro el' hel'
            simp only [Option.some.injEq] at hel'
            subst hel'
            refine ⟨hG.syms, fun h => by simp [hi] at h, ?_, fun h => by simp at h, hG.ranges, hkk, ?_, ?_, ?_, ?_,
              by simpa using hG.ecoul⟩
            · intro q X hX
              dsimp only at hX
              by_cases hq : q = .groundState
              · simp only [hq, if_true, Option.some.injEq] at hX
                rw [← hX]; exact hA
              · rw [if_neg hq] at hX; exact hG.dom q X hX
            · intro X hX
              simp only [if_true, Option.some.injEq] at hX
              subst hX
              simp only [hrg]
              exact ⟨trivial, rfl, rfl, rfl, rfl, hsol, hgeo⟩
            · intro X hX; exact hG.energy X (by simpa using hX)
            · intro X hX; exact hG.forces X (by simpa using hX)
            · intro X hX; exact hG.ebs X (by simpa using hX)
          · simp [gsOf]
  · rw [if_neg hreq] at hr
    simp only [Prod.mk.injEq] at hr
    obtain ⟨rfl, rfl⟩ := hr
    refine ⟨hs, hi, rfl, rfl, fun _ _ _ => Iff.rfl, fun _ => ⟨?_, rfl⟩⟩
    simp only [gsOf, hel, Option.bind_some]
    exact (elRequired_false hD hG A hA _).1 (by simpa using hreq)

theorem initState_good (P : Phys) (D : Atoms → Prop) (sy : List String) (hD : Domain P D sy)
    (s : Calc) (A : Atoms) (hA : D A) (b : Bool) :
    GoodC P D sy { initState A s with init := b } := by
  refine ⟨fun _ => rfl, ?_⟩
  intro el hel
  simp only [initState, Option.some.injEq] at hel
  subst hel
  exact ⟨hD.1 A hA, fun _ _ => rfl, fun _ _ h => by simp at h, fun _ _ => rfl,
    fun Y hY => (hD.2.2 A Y hA hY).1, fun _ h => by simp [initState] at h, fun _ h => by simp at h, fun _ h => by simp at h, fun _ h => by simp at h,
    fun _ h => by simp at h, rfl⟩

/-- The same from any state. -/
theorem solve_good (P : Phys) (D : Atoms → Prop) (sy : List String) (hD : Domain P D sy)
    (s : Calc) (hs : GoodC P D sy s) (A : Atoms) (hA : D A) (fp : Option Point)
    (hc : CrashOk s A fp) (s' : Calc) (r : Except Exn Unit)
    (hr : solveGroundState P fp A s = (s', r)) :
    GoodC P D sy s' ∧ (s.init = true → s'.init = true ∧ s'.pp = s.pp) ∧ s'.params = s.params ∧
      (r = .ok () → gsOf s' = some A ∧ s'.init = true) := by
  cases hi : s.init
  · rw [solve_run_noinit P fp A s hi] at hr
    by_cases hf : fp = some .init
    · rw [if_pos hf] at hr
      simp only [Prod.mk.injEq] at hr
      obtain ⟨rfl, rfl⟩ := hr
      refine ⟨?_, by simp, rfl, fun h => by simp at h⟩
      have := initState_good P D sy hD s A hA s.init
      exact this
    · rw [if_neg hf] at hr
      obtain ⟨h1, h2, h3, h4, -, h6⟩ := solve_good_init P D sy hD _
        (initState_good P D sy hD s A hA true) A hA fp
        (Or.inr (Or.inr (Or.inl rfl))) rfl s' r hr
      exact ⟨h1, by simp, h4, fun h => ⟨(h6 h).1, h2⟩⟩
  · obtain ⟨h1, h2, h3, h4, -, h6⟩ := solve_good_init P D sy hD s hs A hA fp hc hi s' r hr
    exact ⟨h1, fun _ => ⟨h2, h3⟩, h4, fun h => ⟨(h6 h).1, h2⟩⟩

/-! ## The four queries -/

/-- `get_band_structure_energy` after the ground state was solved. -/
noncomputable def ebsTail (P : Phys) (fp : Option Point) : CM ℝ := do
  startTiming "e_bs"
  let el ← attr Calc.el
  let rho ← attr Calc.rho
  let mats ← attr Calc.mats
  failAt fp .ebs .assertionError
  stopTiming "e_bs"
  CM.modify fun s => { s with ebs := some (P.ebs el.syms rho mats) }
  setSolved .ebs
  attr Calc.ebs

/-- `get_coulomb_energy` after the ground state was solved. -/
noncomputable def ecoulTail (P : Phys) : CM ℝ := do
  startTiming "ecoul"
  let el ← attr Calc.el
  let rho ← attr Calc.rho
  stopTiming "ecoul"
  CM.modify fun s => { s with ecoul := some (P.ecoul el.syms rho) }
  attr Calc.ecoul

/-- `get_potential_energy` after the ground state was solved. -/
noncomputable def energyTail (P : Phys) (fp : Option Point) (A : Atoms) : CM ℝ := do
  startTiming "energy"
  let ebs ← getEbs P fp A
  let ecoul ← getEcoul P fp A
  let s ← CM.get
  let el ← attr Calc.el
  let geom ← attr fun s => s.el.bind ElState.geom
  CM.modify fun s' => { s' with epot := some (ebs + ecoul + P.erep el.syms geom +
    P.epp s.pp el.syms geom - P.efree el.syms) }
  stopTiming "energy"
  setSolved .energy
  attr Calc.epot

/-- `get_forces` after the ground state was solved. -/
noncomputable def forcesTail (P : Phys) : CM (ℕ → Vec) := do
  startTiming "forces"
  let s ← CM.get
  let el ← attr Calc.el
  let rho ← attr Calc.rho
  let mats ← attr Calc.mats
  let fin ← attr Calc.fin
  let geom ← attr fun s => s.el.bind ElState.geom
  stopTiming "forces"
  CM.modify fun s' => { s' with f := some (fun i => P.fbs el.syms rho mats fin i +
    P.frep el.syms geom i + P.fcoul el.syms rho i + P.fpp s.pp el.syms geom i) }
  setSolved .forces
  attr Calc.f

theorem getEbs_run (P : Phys) (fp : Option Point) (A : Atoms) (s : Calc) (el : ElState)
    (hel : s.el = some el) :
    getEbs P fp A s = if elRequired el A .ebs = true then
          (CM.bind (solveGroundState P fp A) fun _ => ebsTail P fp) s
        else attr Calc.ebs s := by
  unfold getEbs
  by_cases h : elRequired el A .ebs = true
  · simp only [bind, CM.bind, calcRequired, attr, hel, pure, CM.pure, h, if_true, ebsTail]
  · simp only [bind, CM.bind, calcRequired, attr, hel, pure, CM.pure, h, if_false,
      Bool.false_eq_true]

theorem getEcoul_run (P : Phys) (fp : Option Point) (A : Atoms) (s : Calc) (el : ElState)
    (hel : s.el = some el) :
    getEcoul P fp A s = if elRequired el A .ecoul = true then
          (CM.bind (solveGroundState P fp A) fun _ => ecoulTail P) s
        else attr Calc.ecoul s := by
  unfold getEcoul
  by_cases h : elRequired el A .ecoul = true
  · simp only [bind, CM.bind, calcRequired, attr, hel, pure, CM.pure, h, if_true, ecoulTail]
  · simp only [bind, CM.bind, calcRequired, attr, hel, pure, CM.pure, h, if_false,
      Bool.false_eq_true]

theorem getEnergy_run (P : Phys) (fp : Option Point) (A : Atoms) (s : Calc) (el : ElState)
    (hel : s.el = some el) :
    getEnergy P fp A s = if elRequired el A .energy = true then
          (CM.bind (solveGroundState P fp A) fun _ => energyTail P fp A) s
        else attr Calc.epot s := by
  unfold getEnergy
  by_cases h : elRequired el A .energy = true
  · simp only [bind, CM.bind, calcRequired, attr, hel, pure, CM.pure, h, if_true, energyTail]
  · simp only [bind, CM.bind, calcRequired, attr, hel, pure, CM.pure, h, if_false,
      Bool.false_eq_true]

theorem getForces_run (P : Phys) (fp : Option Point) (A : Atoms) (s : Calc) (el : ElState)
    (hel : s.el = some el) :
    getForces P fp A s = if elRequired el A .forces = true then
          (CM.bind (solveGroundState P fp A) fun _ => forcesTail P) s
        else attr Calc.f s := by
  unfold getForces
  by_cases h : elRequired el A .forces = true
  · simp only [bind, CM.bind, calcRequired, attr, hel, pure, CM.pure, h, if_true, forcesTail]
  · simp only [bind, CM.bind, calcRequired, attr, hel, pure, CM.pure, h, if_false,
      Bool.false_eq_true]

/-- A state whose ground state is solved for `A`. -/
structure SolvedFor (s : Calc) (el : ElState) (A : Atoms) : Prop where
  init : s.init = true
  elems : s.el = some el
  gs : el.solved .groundState = some A

theorem solve_noop (P : Phys) (fp : Option Point) {s : Calc} {el : ElState} {A : Atoms}
    (h : SolvedFor s el A) : solveGroundState P fp A s = (s, .ok ()) := by
  rw [solve_run_init P fp A s el h.init h.elems, if_neg]
  simp [elRequired, h.gs, aseEq_refl]

/-- Marking the ground-state structure as solved for a quantity whose value was just stored. -/
theorem good_mark {P : Phys} {D : Atoms → Prop} {sy : List String} {s s' : Calc} {el : ElState}
    {A : Atoms} (h : Good P D sy s el) (hA : el.solved .groundState = some A) (q : Quantity)
    (hq : q ≠ .groundState) (hqc : q ≠ .ecoul)
    (h1 : s'.init = s.init) (h0 : s'.nk = s.nk) (h2 : s'.rho = s.rho) (h3 : s'.mats = s.mats)
    (h4 : s'.fin = s.fin)
    (h5 : if q = .energy then s'.epot = some (energyOf P s.pp A) else s'.epot = s.epot)
    (h6 : if q = .forces then s'.f = some (forcesOf P s.pp A) else s'.f = s.f)
    (h7 : if q = .ebs then s'.ebs = some (P.ebs A.symbols (wfOf P A) (geoOf A)) else s'.ebs = s.ebs)
    (h8 : s'.pp = s.pp) (h9 : s'.running = s.running) {el' : ElState} (hel' : el' =
      { el with solved := fun q' => if q' = q then some el.atoms else el.solved q' }) :
    Good P D sy s' el' := by
  subst hel'
  have hat : el.atoms = A := (h.gs A hA).1
  refine ⟨h.syms, ?_, ?_, ?_, h.ranges, by rw [h0]; exact h.nk, ?_, ?_, ?_, ?_, by
    dsimp only; rw [if_neg (Ne.symm hqc)]; exact h.ecoul⟩
  · intro hi
    rw [h1] at hi
    have := h.fresh hi .groundState
    rw [this] at hA; simp at hA
  · intro q' X hX
    dsimp only at hX
    by_cases hq' : q' = q
    · rw [if_pos hq', Option.some.injEq, hat] at hX
      rw [← hX]; exact h.dom _ _ hA
    · rw [if_neg hq'] at hX; exact h.dom _ _ hX
  · intro hg
    dsimp only at hg
    rw [if_neg (Ne.symm hq), hA] at hg
    simp at hg
  · intro X hX
    dsimp only at hX
    rw [if_neg (Ne.symm hq)] at hX
    obtain ⟨a, b, c, d, e, f, g⟩ := h.gs X hX
    exact ⟨a, b, by rw [h2, c], by rw [h3, d], by rw [h4, e], by rw [h9]; exact f,
      by rw [h9]; exact g⟩
  · intro X hX
    dsimp only at hX
    by_cases hq' : q = .energy
    · rw [if_pos hq'.symm, Option.some.injEq, hat] at hX
      rw [if_pos hq'] at h5
      rw [h5, h8, hX]
    · rw [if_neg (Ne.symm hq')] at hX
      rw [if_neg hq'] at h5
      rw [h5, h8]; exact h.energy X hX
  · intro X hX
    dsimp only at hX
    by_cases hq' : q = .forces
    · rw [if_pos hq'.symm, Option.some.injEq, hat] at hX
      rw [if_pos hq'] at h6
      rw [h6, h8, hX]
    · rw [if_neg (Ne.symm hq')] at hX
      rw [if_neg hq'] at h6
      rw [h6, h8]; exact h.forces X hX
  · intro X hX
    dsimp only at hX
    by_cases hq' : q = .ebs
    · rw [if_pos hq'.symm, Option.some.injEq, hat] at hX
      rw [if_pos hq'] at h7
      rw [h7, hX]
    · rw [if_neg (Ne.symm hq')] at hX
      rw [if_neg hq'] at h7
      rw [h7]; exact h.ebs X hX

/-- What a query run after the ground state was solved for `A` does: it keeps the invariant, the
ground-state structure, parameters and pair potentials; if it returns, the value is `v`. -/
def TailOk (P : Phys) (D : Atoms → Prop) (sy : List String) {α : Type} (A : Atoms) (s : Calc)
    (v : α) (out : Calc × Except Exn α) : Prop :=
  (∃ el', SolvedFor out.1 el' A ∧ Good P D sy out.1 el') ∧ out.1.params = s.params ∧
    out.1.pp = s.pp ∧ ∀ x, out.2 = .ok x → x = v ∧ out.1.running = s.running

theorem ebsTail_ok (P : Phys) (D : Atoms → Prop) (sy : List String) (hD : Domain P D sy)
    (fp : Option Point) (s : Calc) (el : ElState) (A : Atoms) (hA : D A) (h : SolvedFor s el A)
    (hG : Good P D sy s el) :
    TailOk P D sy A s (P.ebs A.symbols (wfOf P A) (geoOf A)) (ebsTail P fp s) := by
  obtain ⟨hi, hel, hgs⟩ := h
  obtain ⟨a, b, c, d, e, f, g⟩ := hG.gs A hgs
  have hsy : el.syms = A.symbols := by rw [hG.syms, hD.1 A hA]
  unfold ebsTail
  simp only [bind, CM.bind, startTiming]
  by_cases h1 : "e_bs" ∈ s.running
  · simp only [h1, if_true]
    exact ⟨⟨el, ⟨hi, hel, hgs⟩, hG⟩, rfl, rfl, fun x hx => by simp at hx⟩
  · simp only [h1, if_false, attr, hel, c, d, failAt]
    by_cases h2 : fp = some .ebs
    · simp only [h2, if_true, CM.raise]
      exact ⟨⟨el, ⟨hi, rfl, hgs⟩, good_ext hG rfl rfl c.symm d.symm rfl rfl rfl rfl rfl
        (by simp) (by simp)⟩, rfl, rfl, fun x hx => by simp at hx⟩
    · simp only [h2, if_false, CM.pure, stopTiming, List.mem_cons_self, if_true, CM.modify, setSolved,
        setEl, List.erase_cons_head, hel, Option.map_some, hsy]
      refine ⟨⟨_, ⟨hi, rfl, by simpa using hgs⟩, ?_⟩, rfl, rfl, fun x hx => ?_⟩
      · dsimp only
        apply good_mark hG hgs .ebs (by simp) (by simp) <;> simp [c, d, hsy, b]
      simp only [Except.ok.injEq] at hx
      exact ⟨hx.symm, rfl⟩

theorem ecoulTail_ok (P : Phys) (D : Atoms → Prop) (sy : List String) (hD : Domain P D sy)
    (s : Calc) (el : ElState) (A : Atoms) (hA : D A) (h : SolvedFor s el A)
    (hG : Good P D sy s el) :
    TailOk P D sy A s (P.ecoul A.symbols (wfOf P A)) (ecoulTail P s) := by
  obtain ⟨hi, hel, hgs⟩ := h
  obtain ⟨a, b, c, d, e, f, g⟩ := hG.gs A hgs
  have hsy : el.syms = A.symbols := by rw [hG.syms, hD.1 A hA]
  unfold ecoulTail
  simp only [bind, CM.bind, startTiming]
  by_cases h1 : "ecoul" ∈ s.running
  · simp only [h1, if_true]
    exact ⟨⟨el, ⟨hi, hel, hgs⟩, hG⟩, rfl, rfl, fun x hx => by simp at hx⟩
  · simp only [h1, if_false, attr, hel, c, d, stopTiming, List.mem_cons_self, if_true, CM.modify,
      List.erase_cons_head, Option.map_some, hsy]
    refine ⟨⟨el, ⟨hi, rfl, hgs⟩, good_ext hG rfl rfl c.symm d.symm rfl rfl rfl rfl rfl
      (by simp) (by simp)⟩, rfl, rfl, fun x hx => ?_⟩
    simp only [Except.ok.injEq] at hx
    exact ⟨hx.symm, rfl⟩

theorem forcesTail_ok (P : Phys) (D : Atoms → Prop) (sy : List String) (hD : Domain P D sy)
    (s : Calc) (el : ElState) (A : Atoms) (hA : D A) (h : SolvedFor s el A)
    (hG : Good P D sy s el) :
    TailOk P D sy A s (forcesOf P s.pp A) (forcesTail P s) := by
  obtain ⟨hi, hel, hgs⟩ := h
  obtain ⟨a, b, c, d, e, f, g⟩ := hG.gs A hgs
  have hsy : el.syms = A.symbols := by rw [hG.syms, hD.1 A hA]
  unfold forcesTail
  simp only [bind, CM.bind, startTiming]
  by_cases h1 : "forces" ∈ s.running
  · simp only [h1, if_true]
    exact ⟨⟨el, ⟨hi, hel, hgs⟩, hG⟩, rfl, rfl, fun x hx => by simp at hx⟩
  · simp only [h1, if_false, CM.get, attr, hel, c, d, e, b, Option.bind_some, stopTiming,
      List.mem_cons_self, if_true, CM.modify,
      List.erase_cons_head, Option.map_some, setSolved, setEl, hsy]
    refine ⟨⟨_, ⟨hi, rfl, by simpa using hgs⟩, ?_⟩, rfl, rfl, fun x hx => ?_⟩
    · dsimp only
      apply good_mark hG hgs .forces (by simp) (by simp) <;> simp [c, d, e, hsy, b]
      rfl
    simp only [Except.ok.injEq] at hx
    exact ⟨hx.symm, rfl⟩

/-- A whole query started with the ground state solved for `A`. -/
theorem getEbs_ok (P : Phys) (D : Atoms → Prop) (sy : List String) (hD : Domain P D sy)
    (fp : Option Point) (s : Calc) (el : ElState) (A : Atoms) (hA : D A) (h : SolvedFor s el A)
    (hG : Good P D sy s el) :
    TailOk P D sy A s (P.ebs A.symbols (wfOf P A) (geoOf A)) (getEbs P fp A s) := by
  rw [getEbs_run P fp A s el h.elems]
  by_cases hr : elRequired el A .ebs = true
  · rw [if_pos hr]
    simp only [CM.bind, solve_noop P fp h]
    exact ebsTail_ok P D sy hD fp s el A hA h hG
  · rw [if_neg hr]
    have := hG.ebs A ((elRequired_false hD hG A hA .ebs).1 (by simpa using hr))
    simp only [attr, this]
    exact ⟨⟨el, h, hG⟩, rfl, rfl, fun x hx => by
      simp only [Except.ok.injEq] at hx; exact ⟨hx.symm, rfl⟩⟩

theorem getEcoul_ok (P : Phys) (D : Atoms → Prop) (sy : List String) (hD : Domain P D sy)
    (fp : Option Point) (s : Calc) (el : ElState) (A : Atoms) (hA : D A) (h : SolvedFor s el A)
    (hG : Good P D sy s el) :
    TailOk P D sy A s (P.ecoul A.symbols (wfOf P A)) (getEcoul P fp A s) := by
  rw [getEcoul_run P fp A s el h.elems, if_pos]
  · simp only [CM.bind, solve_noop P fp h]
    exact ecoulTail_ok P D sy hD s el A hA h hG
  · simp [elRequired, hG.ecoul, h.gs]

theorem energyTail_ok (P : Phys) (D : Atoms → Prop) (sy : List String) (hD : Domain P D sy)
    (fp : Option Point) (s : Calc) (el : ElState) (A : Atoms) (hA : D A) (h : SolvedFor s el A)
    (hG : Good P D sy s el) :
    TailOk P D sy A s (energyOf P s.pp A) (energyTail P fp A s) := by
  unfold energyTail
  simp only [bind, CM.bind, startTiming]
  by_cases h1 : "energy" ∈ s.running
  · simp only [h1, if_true]
    exact ⟨⟨el, h, hG⟩, rfl, rfl, fun x hx => by simp at hx⟩
  simp only [h1, if_false]
  have hG1 : Good P D sy { s with running := "energy" :: s.running } el :=
    good_ext hG rfl rfl rfl rfl rfl rfl rfl rfl rfl (by simp) (by simp)
  have h1' : SolvedFor { s with running := "energy" :: s.running } el A := ⟨h.init, h.elems, h.gs⟩
  have hb := getEbs_ok P D sy hD fp _ el A hA h1' hG1
  generalize hs1 : getEbs P fp A { s with running := "energy" :: s.running } = o1 at hb ⊢
  obtain ⟨s1, r1⟩ := o1
  obtain ⟨⟨el1, hS1, hGG1⟩, hp1, hpp1, hv1⟩ := hb
  cases r1 with
  | error e1 => exact ⟨⟨el1, hS1, hGG1⟩, hp1, hpp1, fun x hx => by simp at hx⟩
  | ok v1 =>
    obtain ⟨rfl, hrun1⟩ := hv1 v1 rfl
    dsimp only
    have hc := getEcoul_ok P D sy hD fp s1 el1 A hA hS1 hGG1
    generalize hs2 : getEcoul P fp A s1 = o2 at hc ⊢
    obtain ⟨s2, r2⟩ := o2
    obtain ⟨⟨el2, hS2, hGG2⟩, hp2, hpp2, hv2⟩ := hc
    cases r2 with
    | error e2 => exact ⟨⟨el2, hS2, hGG2⟩, hp2.trans hp1, hpp2.trans hpp1, fun x hx => by simp at hx⟩
    | ok v2 =>
      obtain ⟨rfl, hrun2⟩ := hv2 v2 rfl
      obtain ⟨a, b, c, d, e, f, g⟩ := hGG2.gs A hS2.gs
      have hsy : el2.syms = A.symbols := by rw [hGG2.syms, hD.1 A hA]
      have hrun : s2.running = "energy" :: s.running := by
        dsimp only at hrun1 hrun2
        rw [hrun2, hrun1]
      have hpp : s2.pp = s.pp := hpp2.trans hpp1
      have hval : P.ebs A.symbols (wfOf P A) (geoOf A) + P.ecoul A.symbols (wfOf P A) + P.erep A.symbols (geoOf A) +
          P.epp s2.pp A.symbols (geoOf A) - P.efree A.symbols = energyOf P s.pp A := by
        rw [hpp]; rfl
      have hfs : s2.el = some el2 := hS2.elems
      have hG3 : Good P D sy { s2 with running := s.running } el2 := by
        refine good_ext hGG2 rfl rfl rfl rfl rfl rfl rfl rfl rfl ?_ ?_ <;>
        · intro hh; rw [hrun]; exact List.mem_cons_of_mem _ hh
      have hG4 := good_mark (s' := { s2 with running := s.running, epot := some (energyOf P s.pp A), el := some (
          { el2 with solved := fun q' => if q' = .energy then some el2.atoms else el2.solved q' }) })
        hG3 hS2.gs .energy (by simp) (by simp) rfl rfl rfl
        rfl rfl (by simp [hpp]) (by simp) (by simp) rfl rfl rfl
      dsimp only
      simp only [CM.get, attr, hfs, Option.bind_some, b, CM.modify, hsy, hval, stopTiming, hrun,
        List.mem_cons_self, if_true, List.erase_cons_head, setSolved, setEl, Option.map_some]
      rw [b, hsy] at hG4
      refine ⟨⟨_, ⟨hS2.init, rfl, by simpa using hS2.gs⟩, hG4⟩, hp2.trans hp1, hpp, fun x hx => ?_⟩
      simp only [Except.ok.injEq] at hx
      exact ⟨hx.symm, rfl⟩

/-- What every query does from a good state. -/
def QueryOk (P : Phys) (D : Atoms → Prop) (sy : List String) {α : Type} (s : Calc)
    (v : List ℕ → α) (out : Calc × Except Exn α) : Prop :=
  GoodC P D sy out.1 ∧ out.1.params = s.params ∧ ∀ x, out.2 = .ok x → x = v out.1.pp

theorem query_ok (P : Phys) (D : Atoms → Prop) (sy : List String) (hD : Domain P D sy) {α : Type}
    (s : Calc) (hs : GoodC P D sy s) (A : Atoms) (hA : D A) (fp : Option Point)
    (hc : CrashOk s A fp) (v : List ℕ → α) (tail : CM α)
    (ht : ∀ s el, SolvedFor s el A → Good P D sy s el → TailOk P D sy A s (v s.pp) (tail s)) :
    QueryOk P D sy s v ((CM.bind (solveGroundState P fp A) fun _ => tail) s) := by
  simp only [CM.bind]
  generalize hr : solveGroundState P fp A s = o
  obtain ⟨s1, r1⟩ := o
  obtain ⟨h1, -, h3, h4⟩ := solve_good P D sy hD s hs A hA fp hc s1 r1 hr
  cases r1 with
  | error e => exact ⟨h1, h3, fun x hx => by simp at hx⟩
  | ok u =>
    obtain ⟨hg, hi⟩ := h4 rfl
    obtain ⟨el, hel⟩ := Option.isSome_iff_exists.1 (h1.1 hi)
    have hS : SolvedFor s1 el A := ⟨hi, hel, by simpa [gsOf, hel] using hg⟩
    have hT := ht s1 el hS (h1.2 el hel)
    dsimp only
    generalize tail s1 = o2 at hT
    obtain ⟨s2, r2⟩ := o2
    obtain ⟨⟨el2, hS2, hG2⟩, hp2, hpp2, hv2⟩ := hT
    refine ⟨⟨fun _ => by rw [hS2.elems]; rfl, ?_⟩, hp2.trans h3, ?_⟩
    · intro el' hel'
      rw [hS2.elems, Option.some.injEq] at hel'
      rw [← hel']; exact hG2
    · intro x hx
      rw [(hv2 x hx).1, hpp2]

theorem run_bind_ret {α β : Type} (m : CM α) (g : α → β) (s : Calc) :
    (m >>= fun x => pure (g x)) s = ((m s).1, (m s).2.map g) := by
  simp only [bind, CM.bind]
  rcases m s with ⟨s1, _ | _⟩ <;> rfl

theorem query_ret {P : Phys} {D : Atoms → Prop} {sy : List String} {α : Type} {s : Calc}
    {v : List ℕ → α} {m : CM α} (h : QueryOk P D sy s v (m s)) (g : α → Result) (r : Result)
    (pp : List ℕ) (hpp : (m s).1.pp = pp) (hr : (m s).2.map g = .ok r) : r = g (v pp) := by
  generalize m s = o at *
  obtain ⟨s1, r1⟩ := o
  cases r1 with
  | error e => simp [Except.map] at hr
  | ok x =>
    simp only [Except.map, Except.ok.injEq] at hr
    rw [← hr, h.2.2 x rfl, ← hpp]

theorem noEl_query (s : Calc) (hel : s.el = none) (P : Phys) (fp : Option Point) (A : Atoms) :
    getEnergy P fp A s = (s, .error .attributeError) ∧
    getForces P fp A s = (s, .error .attributeError) ∧
    getEbs P fp A s = (s, .error .attributeError) ∧
    getEcoul P fp A s = (s, .error .attributeError) := by
  refine ⟨?_, ?_, ?_, ?_⟩
  · simp [getEnergy, calcRequired, bind, CM.bind, attr, hel]
  · simp [getForces, calcRequired, bind, CM.bind, attr, hel]
  · simp [getEbs, calcRequired, bind, CM.bind, attr, hel]
  · simp [getEcoul, calcRequired, bind, CM.bind, attr, hel]

theorem energy_query (P : Phys) (D : Atoms → Prop) (sy : List String) (hD : Domain P D sy)
    (s : Calc) (hs : GoodC P D sy s) (A : Atoms) (hA : D A) (fp : Option Point)
    (hc : CrashOk s A fp) :
    QueryOk P D sy s (fun pp => energyOf P pp A) (getEnergy P fp A s) := by
  cases hel : s.el with
  | none => rw [(noEl_query s hel P fp A).1]; exact ⟨hs, rfl, fun x hx => by simp at hx⟩
  | some el =>
    rw [getEnergy_run P fp A s el hel]
    by_cases hr : elRequired el A .energy = true
    · rw [if_pos hr]
      exact query_ok P D sy hD s hs A hA fp hc _ _ fun s' el' h' hG' =>
        energyTail_ok P D sy hD fp s' el' A hA h' hG'
    · rw [if_neg hr]
      have := (hs.2 el hel).energy A
        ((elRequired_false hD (hs.2 el hel) A hA .energy).1 (by simpa using hr))
      simp only [attr, this]
      exact ⟨hs, rfl, fun x hx => by simp only [Except.ok.injEq] at hx; exact hx.symm⟩

theorem forces_query (P : Phys) (D : Atoms → Prop) (sy : List String) (hD : Domain P D sy)
    (s : Calc) (hs : GoodC P D sy s) (A : Atoms) (hA : D A) (fp : Option Point)
    (hc : CrashOk s A fp) :
    QueryOk P D sy s (fun pp => forcesOf P pp A) (getForces P fp A s) := by
  cases hel : s.el with
  | none => rw [(noEl_query s hel P fp A).2.1]; exact ⟨hs, rfl, fun x hx => by simp at hx⟩
  | some el =>
    rw [getForces_run P fp A s el hel]
    by_cases hr : elRequired el A .forces = true
    · rw [if_pos hr]
      exact query_ok P D sy hD s hs A hA fp hc _ _ fun s' el' h' hG' =>
        forcesTail_ok P D sy hD s' el' A hA h' hG'
    · rw [if_neg hr]
      have := (hs.2 el hel).forces A
        ((elRequired_false hD (hs.2 el hel) A hA .forces).1 (by simpa using hr))
      simp only [attr, this]
      exact ⟨hs, rfl, fun x hx => by simp only [Except.ok.injEq] at hx; exact hx.symm⟩

theorem ebs_query (P : Phys) (D : Atoms → Prop) (sy : List String) (hD : Domain P D sy)
    (s : Calc) (hs : GoodC P D sy s) (A : Atoms) (hA : D A) (fp : Option Point)
    (hc : CrashOk s A fp) :
    QueryOk P D sy s (fun _ => P.ebs A.symbols (wfOf P A) (geoOf A)) (getEbs P fp A s) := by
  cases hel : s.el with
  | none => rw [(noEl_query s hel P fp A).2.2.1]; exact ⟨hs, rfl, fun x hx => by simp at hx⟩
  | some el =>
    rw [getEbs_run P fp A s el hel]
    by_cases hr : elRequired el A .ebs = true
    · rw [if_pos hr]
      exact query_ok P D sy hD s hs A hA fp hc _ _ fun s' el' h' hG' =>
        ebsTail_ok P D sy hD fp s' el' A hA h' hG'
    · rw [if_neg hr]
      have := (hs.2 el hel).ebs A
        ((elRequired_false hD (hs.2 el hel) A hA .ebs).1 (by simpa using hr))
      simp only [attr, this]
      exact ⟨hs, rfl, fun x hx => by simp only [Except.ok.injEq] at hx; exact hx.symm⟩

theorem ecoul_query (P : Phys) (D : Atoms → Prop) (sy : List String) (hD : Domain P D sy)
    (s : Calc) (hs : GoodC P D sy s) (A : Atoms) (hA : D A) (fp : Option Point)
    (hc : CrashOk s A fp) :
    QueryOk P D sy s (fun _ => P.ecoul A.symbols (wfOf P A)) (getEcoul P fp A s) := by
  cases hel : s.el with
  | none => rw [(noEl_query s hel P fp A).2.2.2]; exact ⟨hs, rfl, fun x hx => by simp at hx⟩
  | some el =>
    rw [getEcoul_run P fp A s el hel]
    by_cases hr : elRequired el A .ecoul = true
    · rw [if_pos hr]
      exact query_ok P D sy hD s hs A hA fp hc _ _ fun s' el' h' hG' =>
        ecoulTail_ok P D sy hD s' el' A hA h' hG'
    · exfalso
      have := (elRequired_false hD (hs.2 el hel) A hA .ecoul).1 (by simpa using hr)
      rw [(hs.2 el hel).ecoul] at this
      simp at this

theorem setAtoms_good (P : Phys) (D : Atoms → Prop) (sy : List String) (hD : Domain P D sy)
    (s : Calc) (hs : GoodC P D sy s) (A : Atoms) (hA : D A) (fp : Option Point)
    (hc : gsOf s = none ∨ gsOf s = some A) : GoodC P D sy (setAtoms fp A s).1 := by
  cases hi : s.init
  · have hrun : setAtoms fp A s = initCalc fp A s := by
      simp [setAtoms, bind, CM.bind, CM.get, hi]
    rw [hrun, (initCalc_run fp A s).1 hi]
    by_cases hf : fp = some .init
    · rw [if_pos hf]; exact initState_good P D sy hD s A hA s.init
    · rw [if_neg hf]; exact initState_good P D sy hD s A hA true
  · obtain ⟨el, hel⟩ := Option.isSome_iff_exists.1 (hs.1 hi)
    have hG := hs.2 el hel
    by_cases hsy : A.symbols = el.atoms.symbols
    · have hrun : setAtoms fp A s = initCalc fp A s := by
        simp [setAtoms, bind, CM.bind, CM.get, hi, attr, hel, hsy]
      rw [hrun, (initCalc_run fp A s).2 hi]
      refine ⟨fun _ => by simp [hel], ?_⟩
      intro el' hel'
      simp only [hel, Option.map_some, Option.some.injEq] at hel'
      subst hel'
      refine ⟨hG.syms, hG.fresh, hG.dom, hG.gsNone, fun Y hY => (hD.2.2 A Y hA hY).1, hG.nk, ?_, hG.energy, hG.forces, hG.ebs, hG.ecoul⟩
      intro X hX
      obtain ⟨a, b⟩ := hG.gs X hX
      refine ⟨?_, b⟩
      rcases hc with h | h
      · simp [gsOf, hel] at h; rw [h] at hX; simp at hX
      · simp [gsOf, hel] at h; rw [h] at hX; simpa using hX
    · have hrun : setAtoms fp A s = (s, .error .runtimeError) := by
        simp [setAtoms, bind, CM.bind, CM.get, hi, attr, hel, hsy, CM.raise]
      rw [hrun]; exact hs

theorem setParam_good (P : Phys) (D : Atoms → Prop) (sy : List String)
    (s : Calc) (hs : GoodC P D sy s) (k v : String) : GoodC P D sy (setParam k v s).1 := by
  have key : ∀ p, GoodC P D sy { s with params := p } := by
    intro p
    exact ⟨hs.1, fun el hel => good_ext (hs.2 el hel) rfl rfl rfl rfl rfl rfl rfl rfl rfl id id⟩
  unfold setParam
  simp only [bind, CM.bind, CM.get]
  split_ifs
  · exact key _
  · exact hs
  · exact key _

theorem addPP_good (P : Phys) (D : Atoms → Prop) (sy : List String)
    (s : Calc) (hs : GoodC P D sy s) (v : ℕ) (hc : gsOf s = none) :
    GoodC P D sy (addPP v s).1 := by
  unfold addPP
  simp only [bind, CM.bind, attr]
  cases hel : s.el with
  | none => exact hs
  | some el =>
    have hG := hs.2 el hel
    have hgn : el.solved .groundState = none := by simpa [gsOf, hel] using hc
    have hall := hG.gsNone hgn
    simp only [CM.modify]
    refine ⟨fun _ => by simp [hel], ?_⟩
    intro el' hel'
    simp only [hel, Option.some.injEq] at hel'
    subst hel'
    exact ⟨hG.syms, fun _ => hall, hG.dom, fun _ => hall, hG.ranges, hG.nk,
            by intro X hX; simp [hgn] at hX, by intro X hX; simp [hall] at hX,
            by intro X hX; simp [hall] at hX, by intro X hX; simp [hall] at hX, hall _⟩

/-- One allowed call keeps the invariant, and what it returns is right. -/
theorem call_ok (P : Phys) (D : Atoms → Prop) (sy : List String) (hD : Domain P D sy) (s : Calc)
    (hs : GoodC P D sy s) (c : Call) (fp : Option Point) (hc : Allowed D s fp c) :
    GoodC P D sy (runCall P c fp s).1 ∧
      ∀ r, (runCall P c fp s).2 = .ok r → r = valueOf P (runCall P c fp s).1.pp c := by
  cases c with
  | energy A =>
    have h := energy_query P D sy hD s hs A hc.1 fp hc.2
    have e := run_bind_ret (getEnergy P fp A) Result.num s
    simp only [runCall]
    rw [e]
    exact ⟨h.1, fun r hr => query_ret (m := getEnergy P fp A) h Result.num r _ rfl hr⟩
  | forces A =>
    have h := forces_query P D sy hD s hs A hc.1 fp hc.2
    have e := run_bind_ret (getForces P fp A) Result.vecs s
    simp only [runCall]
    rw [e]
    exact ⟨h.1, fun r hr => query_ret (m := getForces P fp A) h Result.vecs r _ rfl hr⟩
  | ebs A =>
    have h := ebs_query P D sy hD s hs A hc.1 fp hc.2
    have e := run_bind_ret (getEbs P fp A) Result.num s
    simp only [runCall]
    rw [e]
    exact ⟨h.1, fun r hr => query_ret (m := getEbs P fp A) h Result.num r _ rfl hr⟩
  | ecoul A =>
    have h := ecoul_query P D sy hD s hs A hc.1 fp hc.2
    have e := run_bind_ret (getEcoul P fp A) Result.num s
    simp only [runCall]
    rw [e]
    exact ⟨h.1, fun r hr => query_ret (m := getEcoul P fp A) h Result.num r _ rfl hr⟩
  | solve A =>
    have e := run_bind_ret (solveGroundState P fp A) (fun _ => Result.unit) s
    simp only [runCall]
    rw [e]
    refine ⟨(solve_good P D sy hD s hs A hc.1 fp hc.2 _ _ rfl).1, fun r hr => ?_⟩
    cases h : (solveGroundState P fp A s).2 <;> rw [h] at hr <;> simp [Except.map] at hr
    exact hr.symm
  | setAtoms A =>
    have e := run_bind_ret (setAtoms fp A) (fun _ => Result.unit) s
    simp only [runCall]
    rw [e]
    refine ⟨setAtoms_good P D sy hD s hs A hc.1 fp hc.2, fun r hr => ?_⟩
    cases h : (setAtoms fp A s).2 <;> rw [h] at hr <;> simp [Except.map] at hr
    exact hr.symm
  | set k v =>
    have e := run_bind_ret (setParam k v) (fun _ => Result.unit) s
    simp only [runCall]
    rw [e]
    refine ⟨setParam_good P D sy s hs k v, fun r hr => ?_⟩
    cases h : (setParam k v s).2 <;> rw [h] at hr <;> simp [Except.map] at hr
    exact hr.symm
  | addPP v =>
    have e := run_bind_ret (addPP v) (fun _ => Result.unit) s
    simp only [runCall]
    rw [e]
    refine ⟨addPP_good P D sy s hs v hc, fun r hr => ?_⟩
    cases h : (addPP v s).2 <;> rw [h] at hr <;> simp [Except.map] at hr
    exact hr.symm

theorem hist_good (P : Phys) (D : Atoms → Prop) (sy : List String) (hD : Domain P D sy) (s : Calc)
    (h : Hist P D s) : GoodC P D sy s := by
  induction h with
  | new params => exact ⟨fun h => by simp [newCalc] at h, fun el hel => by simp [newCalc] at hel⟩
  | call s c fp _ hc ih => exact (call_ok P D sy hD s ih c fp hc).1

end Hotbit
