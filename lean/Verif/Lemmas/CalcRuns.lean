import Verif.Lemmas.CalcCache

/-! Queries return on an idle calculator; what calls never change. -/

namespace Hotbit

open Classical

set_option linter.unusedSimpArgs false

theorem solve_returns (P : Phys) (D : Atoms → Prop) (sy : List String)
    (s : Calc) (hs : GoodC P D sy s) (hi : Idle s) (A : Atoms) :
    (solveGroundState P none A s).2 = .ok () := by
  obtain ⟨el, hel⟩ := Option.isSome_iff_exists.1 (hs.1 hi.1)
  rw [solve_run_init P none A s el hi.1 hel]
  by_cases hreq : elRequired el A .groundState = true
  · have h1 : "geometry" ∉ s.running := hi.2 _ (by simp)
    have h2 : "solve" ∉ s.running := hi.2 _ (by simp)
    simp only [hreq, if_true, CM.bind, updateGeometry_run none A s el hel, h1, if_false,
      reduceCtorEq]
    rw [stSolve_run P none _ { el with atoms := A, geom := some (A, el.ranges) } (A, el.ranges) rfl
      rfl]
    simp only [reduceCtorEq, and_false, if_false, h2]
    rfl
  · simp only [hreq, if_false, Bool.false_eq_true]

theorem ebsTail_returns (P : Phys) (D : Atoms → Prop) (sy : List String)
    (s : Calc) (el : ElState) (A : Atoms) (h : SolvedFor s el A)
    (hG : Good P D sy s el) (hr : "e_bs" ∉ s.running) : ∃ v, (ebsTail P none s).2 = .ok v := by
  obtain ⟨a, b, c, d, e, f, g⟩ := hG.gs A h.gs
  simp [ebsTail, bind, CM.bind, startTiming, hr, attr, h.elems, c, d, failAt, CM.pure, stopTiming,
    CM.modify, setSolved, setEl]

theorem ecoulTail_returns (P : Phys) (D : Atoms → Prop) (sy : List String)
    (s : Calc) (el : ElState) (A : Atoms) (h : SolvedFor s el A)
    (hG : Good P D sy s el) (hr : "ecoul" ∉ s.running) : ∃ v, (ecoulTail P s).2 = .ok v := by
  obtain ⟨a, b, c, d, e, f, g⟩ := hG.gs A h.gs
  simp [ecoulTail, bind, CM.bind, startTiming, hr, attr, h.elems, c, d, failAt, CM.pure, stopTiming,
    CM.modify, setSolved, setEl]

theorem forcesTail_returns (P : Phys) (D : Atoms → Prop) (sy : List String)
    (s : Calc) (el : ElState) (A : Atoms) (h : SolvedFor s el A)
    (hG : Good P D sy s el) (hr : "forces" ∉ s.running) : ∃ v, (forcesTail P s).2 = .ok v := by
  obtain ⟨a, b, c, d, e, f, g⟩ := hG.gs A h.gs
  simp [forcesTail, bind, CM.bind, startTiming, hr, attr, h.elems, b, c, d, e, failAt, CM.pure,
    stopTiming, CM.modify, setSolved, setEl, CM.get]

theorem getEbs_returns (P : Phys) (D : Atoms → Prop) (sy : List String) (hD : Domain P D sy)
    (s : Calc) (el : ElState) (A : Atoms) (hA : D A) (h : SolvedFor s el A)
    (hG : Good P D sy s el) (hr : "e_bs" ∉ s.running) : ∃ v, (getEbs P none A s).2 = .ok v := by
  rw [getEbs_run P none A s el h.elems]
  by_cases hq : elRequired el A .ebs = true
  · rw [if_pos hq]
    simp only [CM.bind, solve_noop P none h]
    exact ebsTail_returns P D sy s el A h hG hr
  · rw [if_neg hq]
    have := hG.ebs A ((elRequired_false hD hG A hA .ebs).1 (by simpa using hq))
    simp only [attr, this]
    exact ⟨_, rfl⟩

theorem getEcoul_returns (P : Phys) (D : Atoms → Prop) (sy : List String)
    (s : Calc) (el : ElState) (A : Atoms) (h : SolvedFor s el A)
    (hG : Good P D sy s el) (hr : "ecoul" ∉ s.running) : ∃ v, (getEcoul P none A s).2 = .ok v := by
  rw [getEcoul_run P none A s el h.elems, if_pos]
  · simp only [CM.bind, solve_noop P none h]
    exact ecoulTail_returns P D sy s el A h hG hr
  · simp [elRequired, hG.ecoul, h.gs]

theorem energyTail_returns (P : Phys) (D : Atoms → Prop) (sy : List String) (hD : Domain P D sy)
    (s : Calc) (el : ElState) (A : Atoms) (hA : D A) (h : SolvedFor s el A)
    (hG : Good P D sy s el) (hr : Idle s) : ∃ v, (energyTail P none A s).2 = .ok v := by
  have hr1 : "energy" ∉ s.running := hr.2 _ (by simp)
  have hr2 : "e_bs" ∉ s.running := hr.2 _ (by simp)
  have hr3 : "ecoul" ∉ s.running := hr.2 _ (by simp)
  unfold energyTail
  simp only [bind, CM.bind, startTiming, hr1, if_false]
  have hG1 : Good P D sy { s with running := "energy" :: s.running } el :=
    good_ext hG rfl rfl rfl rfl rfl rfl rfl rfl rfl (by simp) (by simp)
  have h1' : SolvedFor { s with running := "energy" :: s.running } el A := ⟨h.init, h.elems, h.gs⟩
  have hb := getEbs_ok P D sy hD none _ el A hA h1' hG1
  have hb' := getEbs_returns P D sy hD _ el A hA h1' hG1 (by simp [hr2])
  generalize getEbs P none A { s with running := "energy" :: s.running } = o1 at hb hb' ⊢
  obtain ⟨s1, r1⟩ := o1
  obtain ⟨v1, hv⟩ := hb'
  dsimp only at hv
  subst hv
  obtain ⟨⟨el1, hS1, hGG1⟩, hp1, hpp1, hv1⟩ := hb
  have hrun1 : s1.running = "energy" :: s.running := (hv1 v1 rfl).2
  dsimp only
  have hc := getEcoul_ok P D sy hD none s1 el1 A hA hS1 hGG1
  have hc' := getEcoul_returns P D sy s1 el1 A hS1 hGG1 (by rw [hrun1]; simp [hr3])
  generalize getEcoul P none A s1 = o2 at hc hc' ⊢
  obtain ⟨s2, r2⟩ := o2
  obtain ⟨v2, hv⟩ := hc'
  dsimp only at hv
  subst hv
  obtain ⟨⟨el2, hS2, hGG2⟩, hp2, hpp2, hv2⟩ := hc
  have hrun2 : s2.running = "energy" :: s.running := ((hv2 v2 rfl).2).trans hrun1
  obtain ⟨a, b, c, d, e, f, g⟩ := hGG2.gs A hS2.gs
  have hfs : s2.el = some el2 := hS2.elems
  simp [CM.get, attr, hfs, b, CM.modify, stopTiming, hrun2, setSolved, setEl]

/-- A query after `solve` on an idle calculator returns and leaves it idle. -/
theorem query_returns (P : Phys) (D : Atoms → Prop) (sy : List String) (hD : Domain P D sy)
    {α : Type} (s : Calc) (hs : GoodC P D sy s) (hi : Idle s) (A : Atoms) (hA : D A)
    (v : List ℕ → α) (tail : CM α)
    (ht : ∀ s el, SolvedFor s el A → Good P D sy s el → TailOk P D sy A s (v s.pp) (tail s))
    (ht' : ∀ s el, SolvedFor s el A → Good P D sy s el → Idle s → ∃ x, (tail s).2 = .ok x) :
    (∃ x, ((CM.bind (solveGroundState P none A) fun _ => tail) s).2 = .ok x) ∧
      Idle ((CM.bind (solveGroundState P none A) fun _ => tail) s).1 := by
  simp only [CM.bind]
  have hret := solve_returns P D sy s hs hi A
  generalize hr : solveGroundState P none A s = o at hret ⊢
  obtain ⟨s1, r1⟩ := o
  dsimp only at hret
  subst hret
  obtain ⟨h1, h2, h3, h4, h5, h6⟩ :=
    solve_good_init P D sy hD s hs A hA none (Or.inl rfl) hi.1 s1 _ hr
  obtain ⟨hg, hrun⟩ := h6 rfl
  obtain ⟨el, hel⟩ := Option.isSome_iff_exists.1 (h1.1 h2)
  have hS : SolvedFor s1 el A := ⟨h2, hel, by simpa [gsOf, hel] using hg⟩
  have hi1 : Idle s1 := ⟨h2, by rw [hrun]; exact hi.2⟩
  have hT := ht s1 el hS (h1.2 el hel)
  obtain ⟨x, hx⟩ := ht' s1 el hS (h1.2 el hel) hi1
  dsimp only
  refine ⟨⟨x, hx⟩, ?_⟩
  obtain ⟨⟨el2, hS2, -⟩, -, -, hv2⟩ := hT
  exact ⟨hS2.init, by rw [(hv2 x hx).2]; exact hi1.2⟩

/-! ### What calls never change -/

/-- Parameters are kept; once initialized, so are the initialization and the pair potentials. -/
def Keep (s s' : Calc) : Prop :=
  s'.params = s.params ∧ (s.init = true → s'.init = true ∧ s'.pp = s.pp)

theorem Keep.refl (s : Calc) : Keep s s := ⟨rfl, fun h => ⟨h, rfl⟩⟩

theorem Keep.trans {a b c : Calc} (h : Keep a b) (h' : Keep b c) : Keep a c :=
  ⟨h'.1.trans h.1, fun hi => ⟨(h'.2 (h.2 hi).1).1, (h'.2 (h.2 hi).1).2.trans (h.2 hi).2⟩⟩

def Keeps {α : Type} (m : CM α) : Prop := ∀ s, Keep s (m s).1

theorem keeps_bind {α β : Type} {m : CM α} {k : α → CM β} (h : Keeps m) (h' : ∀ a, Keeps (k a)) :
    Keeps (m >>= k) := by
  intro s
  have h1 := h s
  simp only [bind, CM.bind]
  generalize m s = o at h1
  obtain ⟨s1, _ | a⟩ := o
  · exact h1
  · exact h1.trans (h' a s1)

theorem keeps_pure {α : Type} (a : α) : Keeps (pure a : CM α) := fun s => Keep.refl s
theorem keeps_raise {α : Type} (e : Exn) : Keeps (CM.raise e : CM α) := fun s => Keep.refl s
theorem keeps_get : Keeps CM.get := fun s => Keep.refl s

theorem keeps_attr {α : Type} (x : Calc → Option α) : Keeps (attr x) := by
  intro s
  unfold attr
  cases x s <;> exact Keep.refl s

theorem keeps_failAt (fp : Option Point) (p : Point) (e : Exn) : Keeps (failAt fp p e) := by
  intro s
  unfold failAt
  split_ifs <;> exact Keep.refl s

theorem keeps_modify (g : Calc → Calc) (h : ∀ s, Keep s (g s)) : Keeps (CM.modify g) := h

theorem keeps_start (l : String) : Keeps (startTiming l) := by
  intro s
  unfold startTiming
  split_ifs
  · exact Keep.refl s
  · exact ⟨rfl, fun h => ⟨h, rfl⟩⟩

theorem keeps_stop (l : String) : Keeps (stopTiming l) := by
  intro s
  unfold stopTiming
  split_ifs
  · exact ⟨rfl, fun h => ⟨h, rfl⟩⟩
  · exact Keep.refl s

theorem keeps_setEl (g : ElState → ElState) : Keeps (setEl g) :=
  keeps_modify _ fun _ => ⟨rfl, fun h => ⟨h, rfl⟩⟩

theorem keeps_calcRequired (A : Atoms) (q : Quantity) : Keeps (calcRequired A q) :=
  keeps_bind (keeps_attr _) fun _ => keeps_pure _

theorem keeps_init (fp : Option Point) (A : Atoms) : Keeps (initCalc fp A) := by
  intro s
  cases hi : s.init
  · rw [(initCalc_run fp A s).1 hi]
    split_ifs
    · exact ⟨rfl, fun h => by simp [hi] at h⟩
    · exact ⟨rfl, fun h => by simp [hi] at h⟩
  · rw [(initCalc_run fp A s).2 hi]
    exact ⟨rfl, fun h => ⟨h, rfl⟩⟩

theorem keeps_kSetup (P : Phys) (fp : Option Point) : Keeps (kSetup P fp) := by
  unfold kSetup
  refine keeps_bind keeps_get fun s => ?_
  cases s.nk with
  | some k => exact keeps_pure k
  | none =>
    refine keeps_bind (keeps_failAt _ _ _) fun _ => keeps_bind (keeps_attr _) fun _ =>
      keeps_bind (keeps_modify _ fun _ => ⟨rfl, fun h => ⟨h, rfl⟩⟩) fun _ => keeps_pure _

theorem keeps_solve (P : Phys) (fp : Option Point) (A : Atoms) :
    Keeps (solveGroundState P fp A) := by
  unfold solveGroundState updateGeometry stSolve setSolved
  refine keeps_bind keeps_get fun s => ?_
  have rest : Keeps (do
      if ← calcRequired A .groundState then
        (do
          startTiming "geometry"
          setEl fun el => { el with atoms := A }
          failAt fp .geometry .exception
          setEl fun el => { el with geom := some (A, el.ranges) }
          stopTiming "geometry")
        (do
          let k ← kSetup P fp
          startTiming "solve"
          failAt fp .matrices .exception
          let geo ← attr fun s => s.el.bind ElState.geom
          CM.modify fun s => { s with mats := some geo, rho := some ⟨geo, k, false⟩ }
          failAt fp .scc .runtimeError
          CM.modify fun s => { s with rho := some ⟨geo, k, true⟩ }
          failAt fp .mulliken .exception
          CM.modify fun s => { s with fin := some geo }
          stopTiming "solve")
        setEl fun el => { el with solved :=
          fun q' => if q' = .groundState then some el.atoms else el.solved q' }
        CM.modify fun s => { s with ana := fun _ => none }) := by
    refine keeps_bind (keeps_calcRequired _ _) fun b => ?_
    split_ifs
    · refine keeps_bind (keeps_bind (keeps_start _) fun _ => keeps_bind (keeps_setEl _) fun _ =>
        keeps_bind (keeps_failAt _ _ _) fun _ => keeps_bind (keeps_setEl _) fun _ =>
        keeps_stop _) fun _ => keeps_bind (keeps_bind (keeps_kSetup _ _) fun _ =>
        keeps_bind (keeps_start _) fun _ => keeps_bind (keeps_failAt _ _ _) fun _ =>
        keeps_bind (keeps_attr _) fun _ =>
        keeps_bind (keeps_modify _ fun _ => ⟨rfl, fun h => ⟨h, rfl⟩⟩) fun _ =>
        keeps_bind (keeps_failAt _ _ _) fun _ =>
        keeps_bind (keeps_modify _ fun _ => ⟨rfl, fun h => ⟨h, rfl⟩⟩) fun _ =>
        keeps_bind (keeps_failAt _ _ _) fun _ =>
        keeps_bind (keeps_modify _ fun _ => ⟨rfl, fun h => ⟨h, rfl⟩⟩) fun _ =>
        keeps_stop _) fun _ => keeps_bind (keeps_setEl _) fun _ =>
        keeps_modify _ fun _ => ⟨rfl, fun h => ⟨h, rfl⟩⟩
    · exact keeps_pure _
  split_ifs
  · exact keeps_bind (keeps_init fp A) fun _ => rest
  · exact rest

theorem keeps_ebs (P : Phys) (fp : Option Point) (A : Atoms) : Keeps (getEbs P fp A) := by
  unfold getEbs setSolved
  refine keeps_bind (keeps_calcRequired _ _) fun b => ?_
  split_ifs
  · exact keeps_bind (keeps_solve _ _ _) fun _ => keeps_bind (keeps_start _) fun _ =>
      keeps_bind (keeps_attr _) fun _ => keeps_bind (keeps_attr _) fun _ =>
      keeps_bind (keeps_attr _) fun _ => keeps_bind (keeps_failAt _ _ _) fun _ =>
      keeps_bind (keeps_stop _) fun _ =>
      keeps_bind (keeps_modify _ fun _ => ⟨rfl, fun h => ⟨h, rfl⟩⟩) fun _ =>
      keeps_bind (keeps_setEl _) fun _ => keeps_attr _
  · exact keeps_attr _

theorem keeps_ecoul (P : Phys) (fp : Option Point) (A : Atoms) : Keeps (getEcoul P fp A) := by
  unfold getEcoul
  refine keeps_bind (keeps_calcRequired _ _) fun b => ?_
  split_ifs
  · exact keeps_bind (keeps_solve _ _ _) fun _ => keeps_bind (keeps_start _) fun _ =>
      keeps_bind (keeps_attr _) fun _ => keeps_bind (keeps_attr _) fun _ =>
      keeps_bind (keeps_stop _) fun _ =>
      keeps_bind (keeps_modify _ fun _ => ⟨rfl, fun h => ⟨h, rfl⟩⟩) fun _ => keeps_attr _
  · exact keeps_attr _

theorem keeps_energy (P : Phys) (fp : Option Point) (A : Atoms) : Keeps (getEnergy P fp A) := by
  unfold getEnergy setSolved
  refine keeps_bind (keeps_calcRequired _ _) fun b => ?_
  split_ifs
  · exact keeps_bind (keeps_solve _ _ _) fun _ => keeps_bind (keeps_start _) fun _ =>
      keeps_bind (keeps_ebs _ _ _) fun _ => keeps_bind (keeps_ecoul _ _ _) fun _ =>
      keeps_bind keeps_get fun _ => keeps_bind (keeps_attr _) fun _ =>
      keeps_bind (keeps_attr _) fun _ =>
      keeps_bind (keeps_modify _ fun _ => ⟨rfl, fun h => ⟨h, rfl⟩⟩) fun _ =>
      keeps_bind (keeps_stop _) fun _ => keeps_bind (keeps_setEl _) fun _ => keeps_attr _
  · exact keeps_attr _

theorem keeps_forces (P : Phys) (fp : Option Point) (A : Atoms) : Keeps (getForces P fp A) := by
  unfold getForces setSolved
  refine keeps_bind (keeps_calcRequired _ _) fun b => ?_
  split_ifs
  · exact keeps_bind (keeps_solve _ _ _) fun _ => keeps_bind (keeps_start _) fun _ =>
      keeps_bind keeps_get fun _ => keeps_bind (keeps_attr _) fun _ =>
      keeps_bind (keeps_attr _) fun _ => keeps_bind (keeps_attr _) fun _ =>
      keeps_bind (keeps_attr _) fun _ => keeps_bind (keeps_attr _) fun _ =>
      keeps_bind (keeps_stop _) fun _ =>
      keeps_bind (keeps_modify _ fun _ => ⟨rfl, fun h => ⟨h, rfl⟩⟩) fun _ =>
      keeps_bind (keeps_setEl _) fun _ => keeps_attr _
  · exact keeps_attr _

theorem keeps_setAtoms (fp : Option Point) (A : Atoms) : Keeps (setAtoms fp A) := by
  unfold setAtoms
  refine keeps_bind keeps_get fun s => ?_
  split_ifs
  · refine keeps_bind (keeps_attr _) fun el => ?_
    split_ifs
    · exact keeps_raise _
    · exact keeps_init fp A
  · exact keeps_init fp A

/-- Every call except `set` and `add_pair_potential` keeps the parameters. -/
theorem keeps_call (P : Phys) (c : Call) (fp : Option Point) (h1 : ∀ k v, c ≠ .set k v)
    (h2 : ∀ v, c ≠ .addPP v) : Keeps (runCall P c fp) := by
  cases c with
  | energy A => exact keeps_bind (keeps_energy _ _ _) fun _ => keeps_pure _
  | forces A => exact keeps_bind (keeps_forces _ _ _) fun _ => keeps_pure _
  | ebs A => exact keeps_bind (keeps_ebs _ _ _) fun _ => keeps_pure _
  | ecoul A => exact keeps_bind (keeps_ecoul _ _ _) fun _ => keeps_pure _
  | solve A => exact keeps_bind (keeps_solve _ _ _) fun _ => keeps_pure _
  | setAtoms A => exact keeps_bind (keeps_setAtoms _ _) fun _ => keeps_pure _
  | set k v => exact absurd rfl (h1 k v)
  | addPP v => exact absurd rfl (h2 v)

end Hotbit
