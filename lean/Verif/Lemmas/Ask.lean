import Verif.Lemmas.CalcRuns
import Verif.Spec.Ask

/-! Analysis objects never outlive the ground state they were made from (used by `Props/Ask`). -/

namespace Hotbit

open Classical

set_option linter.unusedSimpArgs false

/-- Either neither the solved structure nor the analysis objects change, or no object is left; the
grid of an initialized calculator does not change. -/
def Track (s s' : Calc) : Prop :=
  ((gsOf s' = gsOf s ∧ s'.ana = s.ana) ∨ s'.ana = fun _ => none) ∧
    (s.init = true → s'.init = true ∧ s'.grid = s.grid)

theorem Track.refl (s : Calc) : Track s s := ⟨Or.inl ⟨rfl, rfl⟩, fun h => ⟨h, rfl⟩⟩

theorem Track.trans {a b c : Calc} (h : Track a b) (h' : Track b c) : Track a c := by
  refine ⟨?_, fun hi => ⟨(h'.2 (h.2 hi).1).1, (h'.2 (h.2 hi).1).2.trans (h.2 hi).2⟩⟩
  replace h := h.1
  replace h' := h'.1
  rcases h' with ⟨h1, h2⟩ | h'
  · rcases h with ⟨h3, h4⟩ | h
    · exact Or.inl ⟨h1.trans h3, h2.trans h4⟩
    · exact Or.inr (h2.trans h)
  · exact Or.inr h'

def Tracks {α : Type} (m : CM α) : Prop := ∀ s, Track s (m s).1

theorem tracks_bind {α β : Type} {m : CM α} {k : α → CM β} (h : Tracks m) (h' : ∀ a, Tracks (k a)) :
    Tracks (m >>= k) := by
  intro s
  have h1 := h s
  simp only [bind, CM.bind]
  generalize m s = o at h1
  obtain ⟨s1, _ | a⟩ := o
  · exact h1
  · exact h1.trans (h' a s1)

theorem tracks_pure {α : Type} (a : α) : Tracks (pure a : CM α) := fun s => Track.refl s
theorem tracks_raise {α : Type} (e : Exn) : Tracks (CM.raise e : CM α) := fun s => Track.refl s
theorem tracks_get : Tracks CM.get := fun s => Track.refl s

theorem tracks_attr {α : Type} (x : Calc → Option α) : Tracks (attr x) := by
  intro s
  unfold attr
  cases x s <;> exact Track.refl s

theorem tracks_failAt (fp : Option Point) (p : Point) (e : Exn) : Tracks (failAt fp p e) := by
  intro s
  unfold failAt
  split_ifs <;> exact Track.refl s

theorem tracks_modify (g : Calc → Calc) (h : ∀ s, Track s (g s)) : Tracks (CM.modify g) := h

theorem tracks_start (l : String) : Tracks (startTiming l) := by
  intro s
  unfold startTiming
  split_ifs <;> exact ⟨Or.inl ⟨rfl, rfl⟩, fun h => ⟨h, rfl⟩⟩

theorem tracks_stop (l : String) : Tracks (stopTiming l) := by
  intro s
  unfold stopTiming
  split_ifs <;> exact ⟨Or.inl ⟨rfl, rfl⟩, fun h => ⟨h, rfl⟩⟩

theorem tracks_setEl (g : ElState → ElState)
    (hg : ∀ el, (g el).solved .groundState = el.solved .groundState) : Tracks (setEl g) := by
  refine tracks_modify _ fun s => ⟨Or.inl ⟨?_, rfl⟩, fun h => ⟨h, rfl⟩⟩
  simp only [gsOf]
  cases s.el with
  | none => rfl
  | some el => exact hg el

theorem tracks_setSolved (q : Quantity) (hq : q ≠ .groundState) : Tracks (setSolved q) :=
  tracks_setEl _ fun _ => if_neg (Ne.symm hq)

theorem tracks_calcRequired (A : Atoms) (q : Quantity) : Tracks (calcRequired A q) :=
  tracks_bind (tracks_attr _) fun _ => tracks_pure _

theorem tracks_init (fp : Option Point) (A : Atoms) : Tracks (initCalc fp A) := by
  intro s
  cases hi : s.init
  · rw [(initCalc_run fp A s).1 hi]
    split_ifs <;> exact ⟨Or.inr rfl, fun h => by simp [hi] at h⟩
  · rw [(initCalc_run fp A s).2 hi]
    refine ⟨Or.inl ⟨?_, rfl⟩, fun h => ⟨h, rfl⟩⟩
    simp only [gsOf]
    cases s.el <;> rfl

theorem tracks_kSetup (P : Phys) (fp : Option Point) : Tracks (kSetup P fp) := by
  unfold kSetup
  refine tracks_bind tracks_get fun s => ?_
  cases s.nk with
  | some k => exact tracks_pure k
  | none =>
    exact tracks_bind (tracks_failAt _ _ _) fun _ => tracks_bind (tracks_attr _) fun _ =>
      tracks_bind (tracks_modify _ fun _ => ⟨Or.inl ⟨rfl, rfl⟩, fun h => ⟨h, rfl⟩⟩) fun _ => tracks_pure _

theorem tracks_geometry (fp : Option Point) (A : Atoms) : Tracks (updateGeometry fp A) := by
  unfold updateGeometry
  exact tracks_bind (tracks_start _) fun _ => tracks_bind (tracks_setEl _ fun _ => rfl) fun _ =>
    tracks_bind (tracks_failAt _ _ _) fun _ => tracks_bind (tracks_setEl _ fun _ => rfl) fun _ =>
    tracks_stop _

theorem tracks_stSolve (P : Phys) (fp : Option Point) : Tracks (stSolve P fp) := by
  unfold stSolve
  exact tracks_bind (tracks_kSetup _ _) fun _ => tracks_bind (tracks_start _) fun _ =>
    tracks_bind (tracks_failAt _ _ _) fun _ => tracks_bind (tracks_attr _) fun _ =>
    tracks_bind (tracks_modify _ fun _ => ⟨Or.inl ⟨rfl, rfl⟩, fun h => ⟨h, rfl⟩⟩) fun _ =>
    tracks_bind (tracks_failAt _ _ _) fun _ =>
    tracks_bind (tracks_modify _ fun _ => ⟨Or.inl ⟨rfl, rfl⟩, fun h => ⟨h, rfl⟩⟩) fun _ =>
    tracks_bind (tracks_failAt _ _ _) fun _ =>
    tracks_bind (tracks_modify _ fun _ => ⟨Or.inl ⟨rfl, rfl⟩, fun h => ⟨h, rfl⟩⟩) fun _ => tracks_stop _

theorem tracks_mark : Tracks (do
    setSolved .groundState
    CM.modify fun s => { s with ana := fun _ => none }) := fun _ =>
  ⟨Or.inr rfl, fun h => ⟨h, rfl⟩⟩

theorem tracks_solve (P : Phys) (fp : Option Point) (A : Atoms) :
    Tracks (solveGroundState P fp A) := by
  unfold solveGroundState
  refine tracks_bind tracks_get fun s => ?_
  have rest : Tracks (do
      if ← calcRequired A .groundState then
        updateGeometry fp A
        stSolve P fp
        setSolved .groundState
        CM.modify fun s => { s with ana := fun _ => none }) := by
    refine tracks_bind (tracks_calcRequired _ _) fun b => ?_
    split_ifs
    · exact tracks_bind (tracks_geometry _ _) fun _ => tracks_bind (tracks_stSolve _ _) fun _ =>
        tracks_mark
    · exact tracks_pure _
  split_ifs
  · exact tracks_bind (tracks_init fp A) fun _ => rest
  · exact rest

theorem tracks_ebs (P : Phys) (fp : Option Point) (A : Atoms) : Tracks (getEbs P fp A) := by
  unfold getEbs
  refine tracks_bind (tracks_calcRequired _ _) fun b => ?_
  split_ifs
  · exact tracks_bind (tracks_solve _ _ _) fun _ => tracks_bind (tracks_start _) fun _ =>
      tracks_bind (tracks_attr _) fun _ => tracks_bind (tracks_attr _) fun _ =>
      tracks_bind (tracks_attr _) fun _ => tracks_bind (tracks_failAt _ _ _) fun _ =>
      tracks_bind (tracks_stop _) fun _ =>
      tracks_bind (tracks_modify _ fun _ => ⟨Or.inl ⟨rfl, rfl⟩, fun h => ⟨h, rfl⟩⟩) fun _ =>
      tracks_bind (tracks_setSolved _ (by simp)) fun _ => tracks_attr _
  · exact tracks_attr _

theorem tracks_ecoul (P : Phys) (fp : Option Point) (A : Atoms) : Tracks (getEcoul P fp A) := by
  unfold getEcoul
  refine tracks_bind (tracks_calcRequired _ _) fun b => ?_
  split_ifs
  · exact tracks_bind (tracks_solve _ _ _) fun _ => tracks_bind (tracks_start _) fun _ =>
      tracks_bind (tracks_attr _) fun _ => tracks_bind (tracks_attr _) fun _ =>
      tracks_bind (tracks_stop _) fun _ =>
      tracks_bind (tracks_modify _ fun _ => ⟨Or.inl ⟨rfl, rfl⟩, fun h => ⟨h, rfl⟩⟩) fun _ => tracks_attr _
  · exact tracks_attr _

theorem tracks_energy (P : Phys) (fp : Option Point) (A : Atoms) : Tracks (getEnergy P fp A) := by
  unfold getEnergy
  refine tracks_bind (tracks_calcRequired _ _) fun b => ?_
  split_ifs
  · exact tracks_bind (tracks_solve _ _ _) fun _ => tracks_bind (tracks_start _) fun _ =>
      tracks_bind (tracks_ebs _ _ _) fun _ => tracks_bind (tracks_ecoul _ _ _) fun _ =>
      tracks_bind tracks_get fun _ => tracks_bind (tracks_attr _) fun _ =>
      tracks_bind (tracks_attr _) fun _ =>
      tracks_bind (tracks_modify _ fun _ => ⟨Or.inl ⟨rfl, rfl⟩, fun h => ⟨h, rfl⟩⟩) fun _ =>
      tracks_bind (tracks_stop _) fun _ => tracks_bind (tracks_setSolved _ (by simp)) fun _ =>
      tracks_attr _
  · exact tracks_attr _

theorem tracks_forces (P : Phys) (fp : Option Point) (A : Atoms) : Tracks (getForces P fp A) := by
  unfold getForces
  refine tracks_bind (tracks_calcRequired _ _) fun b => ?_
  split_ifs
  · exact tracks_bind (tracks_solve _ _ _) fun _ => tracks_bind (tracks_start _) fun _ =>
      tracks_bind tracks_get fun _ => tracks_bind (tracks_attr _) fun _ =>
      tracks_bind (tracks_attr _) fun _ => tracks_bind (tracks_attr _) fun _ =>
      tracks_bind (tracks_attr _) fun _ => tracks_bind (tracks_attr _) fun _ =>
      tracks_bind (tracks_stop _) fun _ =>
      tracks_bind (tracks_modify _ fun _ => ⟨Or.inl ⟨rfl, rfl⟩, fun h => ⟨h, rfl⟩⟩) fun _ =>
      tracks_bind (tracks_setSolved _ (by simp)) fun _ => tracks_attr _
  · exact tracks_attr _

theorem tracks_setAtoms (fp : Option Point) (A : Atoms) : Tracks (setAtoms fp A) := by
  unfold setAtoms
  refine tracks_bind tracks_get fun s => ?_
  split_ifs
  · refine tracks_bind (tracks_attr _) fun el => ?_
    split_ifs
    · exact tracks_raise _
    · exact tracks_init fp A
  · exact tracks_init fp A

theorem tracks_setParam (k v : String) : Tracks (setParam k v) := by
  unfold setParam
  refine tracks_bind tracks_get fun s => ?_
  split_ifs
  · exact tracks_modify _ fun _ => ⟨Or.inl ⟨rfl, rfl⟩, fun h => ⟨h, rfl⟩⟩
  · exact tracks_raise _
  · exact tracks_modify _ fun _ => ⟨Or.inl ⟨rfl, rfl⟩, fun h => ⟨h, rfl⟩⟩

theorem tracks_call (P : Phys) (c : Call) (fp : Option Point) : Tracks (runCall P c fp) := by
  cases c with
  | energy A => exact tracks_bind (tracks_energy _ _ _) fun _ => tracks_pure _
  | forces A => exact tracks_bind (tracks_forces _ _ _) fun _ => tracks_pure _
  | ebs A => exact tracks_bind (tracks_ebs _ _ _) fun _ => tracks_pure _
  | ecoul A => exact tracks_bind (tracks_ecoul _ _ _) fun _ => tracks_pure _
  | solve A => exact tracks_bind (tracks_solve _ _ _) fun _ => tracks_pure _
  | setAtoms A => exact tracks_bind (tracks_setAtoms _ _) fun _ => tracks_pure _
  | set k v => exact tracks_bind (tracks_setParam _ _) fun _ => tracks_pure _
  | addPP v => exact tracks_bind (tracks_bind (tracks_attr _) fun _ =>
      tracks_modify _ fun _ => ⟨Or.inl ⟨rfl, rfl⟩, fun h => ⟨h, rfl⟩⟩) fun _ => tracks_pure _

/-- Every analysis object was made from the electronic structure of the solved structure. -/
def AnaOk (P : Phys) (s : Calc) : Prop :=
  ∀ k d, s.ana k = some d → ∃ X, gsOf s = some X ∧ d = structureOf P X

theorem anaOk_track {P : Phys} {s s' : Calc} (h : AnaOk P s) (ht : Track s s') : AnaOk P s' := by
  intro k d hd
  rcases ht.1 with ⟨h1, h2⟩ | h1
  · rw [h2] at hd
    rw [h1]
    exact h k d hd
  · rw [h1] at hd; simp at hd

theorem goodC_ext {P : Phys} {D : Atoms → Prop} {sy : List String} {s s' : Calc} (h : GoodC P D sy s)
    (he : s'.el = s.el) (h1 : s'.init = s.init) (h0 : s'.nk = s.nk) (h2 : s'.rho = s.rho)
    (h3 : s'.mats = s.mats) (h4 : s'.fin = s.fin) (h5 : s'.epot = s.epot) (h6 : s'.f = s.f)
    (h7 : s'.ebs = s.ebs) (h8 : s'.pp = s.pp) (h9 : s'.running = s.running) : GoodC P D sy s' := by
  refine ⟨by rw [he, h1]; exact h.1, fun el hel => ?_⟩
  rw [he] at hel
  exact good_ext (h.2 el hel) h1 h0 h2 h3 h4 h5 h6 h7 h8 (by rw [h9]; exact id)
    (by rw [h9]; exact id)

/-- What an analysis query does. -/
theorem analyse_run (k : Kind) (s : Calc) (el : ElState) (hel : s.el = some el) :
    analyse k s = if elRequired el el.atoms .energy = true then (s, .error .assertionError)
      else match s.ana k with
        | some d => (s, .ok d)
        | none => match s.rho, s.mats with
          | some rho, some mats =>
            ({ s with ana := fun k' => if k' = k then some (rho, mats) else s.ana k' },
              .ok (rho, mats))
          | _, _ => (s, .error .attributeError) := by
  unfold analyse
  by_cases h : elRequired el el.atoms .energy = true
  · simp only [bind, CM.bind, calcRequired, attr, hel, pure, CM.pure, h, if_true, CM.raise]
  · simp only [bind, CM.bind, calcRequired, attr, hel, pure, CM.pure, h, if_false,
      Bool.false_eq_true, CM.get]
    cases hk : s.ana k with
    | some d => rfl
    | none =>
      cases hr : s.rho with
      | none => simp only [CM.bind, attr, hr]
      | some rho =>
        cases hm : s.mats with
        | none => simp only [CM.bind, attr, hr, hm]
        | some mats => simp only [CM.bind, attr, hr, hm, hel, CM.modify, CM.pure]

/-- With the energy of the current atoms solved, an analysis object is about their structure. -/
theorem analyse_ok (P : Phys) (D : Atoms → Prop) (sy : List String)
    (s : Calc) (hs : GoodC P D sy s) (ha : AnaOk P s) (k : Kind) :
    GoodC P D sy (analyse k s).1 ∧ AnaOk P (analyse k s).1 ∧ gsOf (analyse k s).1 = gsOf s ∧
      (analyse k s).1.el = s.el ∧
      ∀ d, (analyse k s).2 = .ok d → ∃ X, D X ∧ currentAtoms s = some X ∧ gsOf s = some X ∧
        d = structureOf P X := by
  cases hel : s.el with
  | none =>
    have : analyse k s = (s, .error .attributeError) := by
      simp [analyse, bind, CM.bind, attr, hel]
    rw [this]
    exact ⟨hs, ha, rfl, hel, fun d hd => by simp at hd⟩
  | some el =>
    have hG := hs.2 el hel
    rw [analyse_run k s el hel]
    by_cases h : elRequired el el.atoms .energy = true
    · rw [if_pos h]
      exact ⟨hs, ha, rfl, hel, fun d hd => by simp at hd⟩
    rw [if_neg h]
    cases hg : el.solved .groundState with
    | none => simp [elRequired, hg] at h
    | some X =>
      obtain ⟨a, b, c, d, -, -, -⟩ := hG.gs X hg
      have hX : D X := hG.dom _ X hg
      have hgs : gsOf s = some X := by simp [gsOf, hel, hg]
      have hcur : currentAtoms s = some X := by simp [currentAtoms, hel, a]
      cases hk : s.ana k with
      | some d0 =>
        obtain ⟨Y, hY, hd0⟩ := ha k d0 hk
        rw [hgs, Option.some.injEq] at hY
        subst hY
        refine ⟨hs, ha, rfl, hel, fun d1 hd1 => ⟨X, hX, hcur, hgs, ?_⟩⟩
        simp only [Except.ok.injEq] at hd1
        rw [← hd1, hd0]
      | none =>
        simp only [c, d]
        refine ⟨goodC_ext hs rfl rfl rfl c.symm d.symm rfl rfl rfl rfl rfl rfl, ?_, ?_, hel,
          fun d1 hd1 => ⟨X, hX, hcur, hgs, ?_⟩⟩
        · intro k' d' hd'
          refine ⟨X, by simpa [gsOf, hel] using hg, ?_⟩
          dsimp only at hd'
          by_cases hkk : k' = k
          · rw [if_pos hkk, Option.some.injEq] at hd'
            rw [← hd']; rfl
          · rw [if_neg hkk] at hd'
            obtain ⟨Y, hY, hd0⟩ := ha k' d' hd'
            rw [hgs, Option.some.injEq] at hY
            rw [hd0, hY]
        · simp [gsOf, hel]
        · simp only [Except.ok.injEq] at hd1
          rw [← hd1]; rfl

theorem setGrid_run (h c : ℝ) (s : Calc) (el : ElState) (hel : s.el = some el) :
    setGrid h c s = if elRequired el el.atoms .energy = true then (s, .error .assertionError)
      else match s.grid with
        | some _ => (s, .ok ())
        | none => ({ s with grid := some ⟨h, c, el.atoms.cell⟩ }, .ok ()) := by
  unfold setGrid
  by_cases h : elRequired el el.atoms .energy = true
  · simp only [bind, CM.bind, calcRequired, attr, hel, pure, CM.pure, h, if_true, CM.raise]
  · simp only [bind, CM.bind, calcRequired, attr, hel, pure, CM.pure, h, if_false,
      Bool.false_eq_true, CM.get]
    cases s.grid with
    | some g => rfl
    | none => simp only [CM.modify, hel]

theorem setGrid_keeps (h c : ℝ) (s : Calc) :
    ∃ g, (setGrid h c s).1 = { s with grid := g } := by
  rcases Option.eq_none_or_eq_some s.el with hel | ⟨el, hel⟩
  · have : setGrid h c s = (s, .error .attributeError) := by
      simp [setGrid, bind, CM.bind, attr, hel]
    rw [this]
    exact ⟨s.grid, rfl⟩
  · rw [setGrid_run h c s el hel]
    split_ifs
    · exact ⟨s.grid, rfl⟩
    · rcases Option.eq_none_or_eq_some s.grid with hg | ⟨g, hg⟩
      · exact ⟨some ⟨h, c, el.atoms.cell⟩, by rw [hg]⟩
      · exact ⟨s.grid, by rw [hg]; dsimp only; rw [← hg]⟩

theorem askGrid_keeps (s : Calc) : (askGrid s).1 = s := by
  unfold askGrid
  simp only [bind, CM.bind, CM.get]
  cases s.init
  · rfl
  · simp only [Bool.not_true, Bool.false_eq_true, if_false]
    cases s.grid with
    | none => rfl
    | some g =>
      cases hr : s.rho <;> simp [CM.bind, attr, hr, pure, CM.pure]

theorem askDq_state (P : Phys) (fp : Option Point) (A : Option Atoms) (s : Calc) :
    (askDq P fp A s).1 = match A with
      | some A => (solveGroundState P fp A s).1
      | none => s := by
  unfold askDq
  cases A with
  | some A =>
    simp only [bind, CM.bind]
    generalize solveGroundState P fp A s = o
    obtain ⟨s1, _ | _⟩ := o
    · rfl
    · simp only [CM.get]
      split_ifs
      · rfl
      · simp only [attr]; cases s1.rho <;> rfl
  | none =>
    simp only [bind, CM.bind, CM.get]
    cases s.init
    · rfl
    · simp only [Bool.not_true, Bool.false_eq_true, if_false, pure, CM.pure, CM.bind, CM.get]
      split_ifs
      · rfl
      · simp only [attr]; cases s.rho <;> rfl

/-- The state an analysis call leaves behind. -/
theorem ask_state (P : Phys) (q : Ask) (fp : Option Point) (s : Calc) :
    (runAsk P q fp s).1 = match q with
      | .analysis k => (analyse k s).1
      | .setGrid h c => (setGrid h c s).1
      | .grid => s
      | .dq (some A) => (solveGroundState P fp A s).1
      | .dq none => s := by
  have e : ∀ {α β : Type} (m : CM α) (g : α → β), ((m >>= fun x => pure (g x)) s).1 = (m s).1 := by
    intro α β m g
    simp only [bind, CM.bind]
    rcases m s with ⟨s1, _ | _⟩ <;> rfl
  cases q with
  | analysis k => exact e (analyse k) _
  | setGrid h c => exact e (setGrid h c) _
  | grid => exact (e askGrid _).trans (askGrid_keeps s)
  | dq A =>
    refine (e (askDq P fp A) _).trans ?_
    rw [askDq_state]
    cases A <;> rfl

theorem ask_ok (P : Phys) (D : Atoms → Prop) (sy : List String) (hD : Domain P D sy)
    (s : Calc) (hs : GoodC P D sy s) (ha : AnaOk P s) (q : Ask) (fp : Option Point)
    (hq : AllowedAsk D s fp q) :
    GoodC P D sy (runAsk P q fp s).1 ∧ AnaOk P (runAsk P q fp s).1 := by
  rw [ask_state]
  cases q with
  | analysis k =>
    obtain ⟨h1, h2, -⟩ := analyse_ok P D sy s hs ha k
    exact ⟨h1, h2⟩
  | setGrid h c =>
    obtain ⟨g, hg⟩ := setGrid_keeps h c s
    dsimp only
    rw [hg]
    exact ⟨goodC_ext hs rfl rfl rfl rfl rfl rfl rfl rfl rfl rfl rfl, ha⟩
  | grid => exact ⟨hs, ha⟩
  | dq A =>
    cases A with
    | none => exact ⟨hs, ha⟩
    | some A =>
      exact ⟨(solve_good P D sy hD s hs A hq.1 fp hq.2 _ _ rfl).1,
        anaOk_track ha (tracks_solve P fp A s)⟩

theorem ahist_good (P : Phys) (D : Atoms → Prop) (sy : List String) (hD : Domain P D sy) (s : Calc)
    (h : AHist P D s) : GoodC P D sy s ∧ AnaOk P s := by
  induction h with
  | new params =>
    exact ⟨⟨fun hi => by simp [newCalc] at hi, fun el hel => by simp [newCalc] at hel⟩,
      fun k d hd => by simp [newCalc] at hd⟩
  | call s c fp _ hc ih =>
    exact ⟨(call_ok P D sy hD s ih.1 c fp hc).1, anaOk_track ih.2 (tracks_call P c fp s)⟩
  | ask s q fp _ hq ih => exact ask_ok P D sy hD s ih.1 ih.2 q fp hq

/-! ### What a returned energy and an explicit solution leave behind -/

theorem cm_bind_ok {α β : Type} {m : CM α} {k : α → CM β} {s s' : Calc} {b : β}
    (h : (m >>= k) s = (s', .ok b)) : ∃ s1 a, m s = (s1, .ok a) ∧ k a s1 = (s', .ok b) := by
  simp only [bind, CM.bind] at h
  generalize m s = o at h
  obtain ⟨s1, _ | a⟩ := o
  · simp at h
  · exact ⟨s1, a, rfl, h⟩

theorem attr_ok {α : Type} {x : Calc → Option α} {s s' : Calc} {a : α}
    (h : attr x s = (s', .ok a)) : s' = s ∧ x s = some a := by
  unfold attr at h
  rcases Option.eq_none_or_eq_some (x s) with hx | ⟨b, hx⟩
  · rw [hx] at h; simp at h
  · rw [hx] at h
    simp only [Prod.mk.injEq, Except.ok.injEq] at h
    exact ⟨h.1.symm, by rw [hx, h.2]⟩

/-- After an energy was returned it is marked solved, for the atoms asked about or the current ones. -/
theorem energy_marks (P : Phys) (fp : Option Point) (A : Atoms) (s s' : Calc) (v : ℝ)
    (h : getEnergy P fp A s = (s', .ok v)) :
    (∃ el, s.el = some el ∧ s' = s ∧ elRequired el A .energy = false) ∨
      ∃ el', s'.el = some el' ∧ el'.solved .energy = some el'.atoms := by
  unfold getEnergy at h
  obtain ⟨s0, b, hb, h⟩ := cm_bind_ok h
  have hs0 : s0 = s ∧ ∃ el, s.el = some el ∧ elRequired el A .energy = b := by
    simp only [calcRequired, bind, CM.bind, attr] at hb
    cases hel : s.el with
    | none => simp [hel] at hb
    | some el =>
      simp only [hel, pure, CM.pure, Prod.mk.injEq, Except.ok.injEq] at hb
      exact ⟨hb.1.symm, el, rfl, hb.2⟩
  obtain ⟨rfl, el, hel, hreq⟩ := hs0
  cases b
  · left
    simp only [Bool.false_eq_true, if_false] at h
    exact ⟨el, hel, (attr_ok h).1, hreq⟩
  · right
    simp only [if_true] at h
    obtain ⟨s1, _, _, h⟩ := cm_bind_ok h
    obtain ⟨s2, _, _, h⟩ := cm_bind_ok h
    obtain ⟨s3, _, _, h⟩ := cm_bind_ok h
    obtain ⟨s4, _, _, h⟩ := cm_bind_ok h
    obtain ⟨s5, _, _, h⟩ := cm_bind_ok h
    obtain ⟨s6, el6, h6, h⟩ := cm_bind_ok h
    obtain ⟨s7, _, h7, h⟩ := cm_bind_ok h
    obtain ⟨s8, _, h8, h⟩ := cm_bind_ok h
    obtain ⟨s9, _, h9, h⟩ := cm_bind_ok h
    obtain ⟨s10, _, h10, h⟩ := cm_bind_ok h
    have e6 : s5.el = some el6 ∧ s6 = s5 := ⟨(attr_ok h6).2, (attr_ok h6).1⟩
    have e7 : s7 = s6 := (attr_ok h7).1
    have e8 : s8.el = s7.el := by
      simp only [CM.modify, Prod.mk.injEq] at h8
      rw [← h8.1]
    have e9 : s9.el = s8.el := by
      unfold stopTiming at h9
      split_ifs at h9 <;> simp only [Prod.mk.injEq, reduceCtorEq, and_false] at h9
      rw [← h9.1]
    have hel9 : s9.el = some el6 := by rw [e9, e8, e7, e6.2, e6.1]
    simp only [setSolved, setEl, CM.modify, hel9, Option.map_some, Prod.mk.injEq] at h10
    have e11 : s' = s10 := (attr_ok h).1
    refine ⟨_, by rw [e11, ← h10.1], by simp⟩

/-- Solving a structure on an idle calculator, explicitly. -/
theorem solve_explicit (P : Phys) (B : Atoms) (s : Calc) (el : ElState) (hi : Idle s)
    (hel : s.el = some el) (hreq : elRequired el B .groundState = true) :
    ∃ w : Wf, w.geo = (B, el.ranges) ∧
      solveGroundState P none B s =
        ({ s with
            el := some { el with
              atoms := B, geom := some (B, el.ranges),
              solved := fun q => if q = .groundState then some B else el.solved q }
            nk := some w.kpts, mats := some (B, el.ranges), rho := some w
            fin := some (B, el.ranges), ana := fun _ => none }, .ok ()) := by
  refine ⟨⟨(B, el.ranges), samplingOf P { s with el := some { el with atoms := B, geom := some (B, el.ranges) } }
    { el with atoms := B, geom := some (B, el.ranges) }, true⟩, rfl, ?_⟩
  rw [solve_run_init P none B s el hi.1 hel, if_pos hreq]
  simp only [CM.bind]
  rw [updateGeometry_run none B s el hel, if_neg (hi.2 _ (by simp)), if_neg (by simp)]
  dsimp only
  rw [stSolve_run P none _ { el with atoms := B, geom := some (B, el.ranges) } (B, el.ranges) rfl
    rfl, if_neg (by simp), if_neg (hi.2 _ (by simp)), if_neg (by simp), if_neg (by simp),
    if_neg (by simp)]
  rfl

end Hotbit
