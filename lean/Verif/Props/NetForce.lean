import Verif.Lemmas.NetForce
import Verif.Props.Invariance
import Verif.Props.TotalForcesSmearing

/-!
# C129: the forces on all atoms add up to zero

* `c129_net_force` – the components along a direction that is the same in all images add up to zero,
  whenever the forces could be calculated (at any stage of self-consistency).
* `c129_crystal` – in molecules and crystals the forces add up to zero.
* `c129_axis`, `c129_yaxis` – wedges and chiral structures have one such direction, their axis.
-/

namespace Hotbit

open Matrix
open scoped ComplexOrder

variable {P : ScfIn} {Mx : Type} {T : ScfTools P Mx} {A : Atoms}
  {elements : String → Option ElementData} {σ : Op → Op}

theorem sum_range_getD (l : List ℝ) : ∑ i ∈ Finset.range l.length, l.getD i 0 = l.sum := by
  induction l with
  | nil => simp
  | cons a l ih =>
    rw [List.length_cons, Finset.sum_range_succ', List.sum_cons, ← ih, add_comm]
    rfl

/-- **C129.** Along a direction that is the same in all images, the forces on the atoms add up to zero. -/
theorem c129_net_force (hfit : Fits P A elements) (hsm : Smooth P A σ) {c : Fin 3}
    (hc : SameInImages A c) {F : List Vec} (h : atomForces T A = .ok F) :
    (F.map fun f => f c).sum = 0 := by
  unfold atomForces at h
  simp only [Bind.bind, Except.bind] at h
  rcases hg : groundState T A with e | ⟨x, p⟩
  · rw [hg] at h; cases h
  rw [hg] at h
  simp only [Pure.pure, Except.pure, Except.ok.injEq] at h
  subst h
  obtain ⟨hx, dq, -, hp⟩ := groundState_pass hg
  obtain ⟨hm, hnb⟩ := setupOf_ok hx
  rw [List.map_map, list_range_sum]
  simp only [Function.comp, ← Finset.sum_mul, Finset.sum_add_distrib]
  have h1 := onePass_h1 hp
  have hb : ∑ i ∈ Finset.range A.positions.length,
      (bandForces P.wk (fun k => dHfull (x.dH0 c k) (x.dS c k) p.h1) (x.dS c) p.rho p.rhoe
        P.t.blocks).getD i 0 = 0 := by
    have hlen : A.positions.length = (bandForces P.wk (fun k => dHfull (x.dH0 c k) (x.dS c k) p.h1)
        (x.dS c) p.rho p.rhoe P.t.blocks).length := by
      unfold bandForces
      rw [List.length_map, blocks_length elements A.symbols P.t hfit.orbitals]
      simp [Atoms.symbols, Atoms.positions]
    rw [hlen, sum_range_getD]
    refine c65_total_force elements A.symbols P.t hfit.orbitals P.wk p.wf (fun k => x.dH0 c k) (x.dS c)
      p.f p.e p.h1 ?_ (fun k => (flat_antihermitian hfit hsm hc (hm k)).1)
      (fun k => (flat_antihermitian hfit hsm hc (hm k)).2)
    intro g hg i j
    rw [h1] at hg
    cases dq with
    | none => cases hg
    | some q =>
      cases hg
      exact c28_symmetric P.t _ _ _ _ _
  have hcl : ∑ i ∈ Finset.range A.positions.length, gammaForces P.scc A.positions.length
      (corrDMatrix P.cd P.bohr P.w x.nb) P.bohr (dcField P.gcut p.dq (some x.nb)) (chg p.dq) i c = 0 := by
    by_cases hscc : P.scc = true
    · rw [hnb hscc]
      exact gammaForces_net hsm.closed hc P.gcut P.scc P.cd P.bohr P.w p.dq
    · simp [gammaForces, hscc]
  rw [hb, repForces_net hsm hc, hcl]
  simp

/-- **C129 (molecules and crystals).** The forces add up to zero. -/
theorem c129_crystal (hfit : Fits P A elements) (hsm : Smooth P A σ) (hA : A.ctype = .bravais)
    {F : List Vec} (h : atomForces T A = .ok F) : F.sum = 0 := by
  have hc : ∀ c, SameInImages A c := fun c n => by
    simp only [Atoms.rawRotation, hA, Matrix.one_mulVec]
  funext c
  have e : ∀ l : List Vec, l.sum c = (l.map fun f => f c).sum := by
    intro l
    induction l with
    | nil => rfl
    | cons v l ih => rw [List.sum_cons, Pi.add_apply, ih, List.map_cons, List.sum_cons]
  rw [e, c129_net_force hfit hsm (hc c) h]
  rfl

/-- **C129 (structures with an axis).** In wedges and chiral structures the forces along the axis add up
to zero. -/
theorem c129_axis (hfit : Fits P A elements) (hsm : Smooth P A σ) (hA : A.ctype = .wedge ∨
    A.ctype = .chiral ∨ A.ctype = .doubleChiral ∨ A.ctype = .chiralWedge ∨ A.ctype = .chiralGeneral)
    {F : List Vec} (h : atomForces T A = .ok F) : (F.map fun f => f 2).sum = 0 := by
  have hz : ∀ a : ℝ, rotZ a *ᵥ Pi.single 2 1 = Pi.single 2 1 := by
    intro a
    rw [Matrix.mulVec_single_one]
    ext d
    fin_cases d <;> simp [rotZ, Matrix.col]
  refine c129_net_force hfit hsm (fun n => ?_) h
  rcases hA with h | h | h | h | h <;> simp only [Atoms.rawRotation, h, hz]

/-- The same for wedges about the y axis. -/
theorem c129_yaxis (hfit : Fits P A elements) (hsm : Smooth P A σ) (hA : A.ctype = .wedgeYAxis)
    {F : List Vec} (h : atomForces T A = .ok F) : (F.map fun f => f 1).sum = 0 := by
  refine c129_net_force hfit hsm (fun n => ?_) h
  simp only [Atoms.rawRotation, hA]
  rw [Matrix.mulVec_single_one]
  ext d
  fin_cases d <;> simp [rotY, Matrix.col]

/-! ### An example -/

/-- A LAPACK that does what it promises and finds the bonding and antibonding state of the dimer. -/
theorem exDimer_lapack (d : ℝ) (hd : 0 ≤ d) : ∃ L : Lapack 2, L.Ok ∧
    L.run !![0, (d : ℂ); (d : ℂ), 0] 1 = some (![-d, d], exDimerWfᵀ) := by
  classical
  obtain ⟨L, hL⟩ := c121_lapack 2
  refine ⟨⟨fun H S => if H = !![0, (d : ℂ); (d : ℂ), 0] ∧ S = 1 then some (![-d, d], exDimerWfᵀ)
    else L.run H S, L.junk⟩, ⟨fun H S hH hS => ?_, fun H S hH hS hp => ?_⟩, by simp⟩
  · dsimp only
    by_cases hc : H = !![0, (d : ℂ); (d : ℂ), 0] ∧ S = 1
    · obtain ⟨rfl, rfl⟩ := hc
      have hz := exWf_sq
      refine ⟨_, _, by rw [if_pos ⟨rfl, rfl⟩], (exWf_states d hd).ascending, ?_, ?_⟩
      · ext a b
        fin_cases a <;> fin_cases b <;>
          simp [Matrix.mul_apply, Fin.sum_univ_two, exDimerWf] <;> push_cast at hz <;>
          linear_combination 2 * hz
      · ext a b
        fin_cases a <;> fin_cases b <;>
          simp [Matrix.mul_apply, Fin.sum_univ_two, exDimerWf, Matrix.diagonal] <;> ring
    · rw [if_neg hc]
      exact hL.solves H S hH hS
  · dsimp only
    rw [if_neg]
    · exact hL.refuses H S hH hS hp
    · rintro ⟨-, rfl⟩
      exact hp Matrix.PosDef.one

theorem exDimer_solve {L : Lapack 2} (hrun : L.run !![0, ((1 : ℝ) : ℂ); ((1 : ℝ) : ℂ), 0] 1
    = some (![-1, 1], exDimerWfᵀ)) (h1 : Option (Fin 2 → Fin 2 → ℝ)) (H0 : CMat 2)
    (h : scfHamiltonian h1 H0 1 = !![0, ((1 : ℝ) : ℂ); ((1 : ℝ) : ℂ), 0]) :
    solveAll L 1 h1 [(H0, 1)] = .ok [(![-1, 1], exDimerWf)] := by
  have hst := exWf_states 1 zero_le_one
  have hg : geig L (scfHamiltonian h1 H0 1) 1 = ((![-1, 1], exDimerWfᵀ), 1) := by
    rw [geig_some L _ _ _ (h ▸ hrun), if_neg (by omega)]
  have hd : (diagonalize L 1 (scfHamiltonian h1 H0 1) 1).1 = .ok (![-1, 1], exDimerWf) := by
    unfold diagonalize
    rw [hg]
    dsimp only
    rw [if_neg (by norm_num), if_neg]
    · rw [Matrix.transpose_transpose]
    · rintro ⟨a, ha⟩
      have hz := exWf_sq
      have : stateNorm exDimerWfᵀᵀ 1 a = 1 := by
        rw [Matrix.transpose_transpose]
        unfold stateNorm
        fin_cases a <;> simp [Fin.sum_univ_two, exDimerWf, Matrix.one_apply] <;> push_cast at hz <;>
          linear_combination 2 * hz
      rw [this] at ha
      norm_num at ha
  simp only [solveAll, hd, Bind.bind, Except.bind]

theorem exDimer_occupy : Occ.occupy (⟨2, 1, fun _ => 1, fun _ => ![-1, 1]⟩ : Occ 1 2)
    (fun _ _ _ => .ok 0) = .ok (0, fun _ a => fermi 1 0 ((![-1, 1] : Fin 2 → ℝ) a)) := by
  set o : Occ 1 2 := ⟨2, 1, fun _ => 1, fun _ => ![-1, 1]⟩ with ho
  have hlen : o.sorted.length = 2 := by
    unfold Occ.sorted
    rw [List.length_mergeSort]
    rfl
  have hne : o.sorted ≠ [] := by
    intro h
    rw [h] at hlen
    simp at hlen
  have h0 : o.root 0 = 0 := by
    have := exDimer_two (d := 1) (by norm_num)
    unfold Occ.root
    simp only [Fin.sum_univ_one, Fin.sum_univ_two, ho, one_mul]
    simp only [Matrix.cons_val_zero, Matrix.cons_val_one]
    linarith
  unfold Occ.occupy
  rw [List.head?_eq_some_head hne, List.getLast?_eq_some_getLast hne]
  dsimp only
  rw [h0, if_neg (by norm_num)]

/-- The dimer can be calculated. -/
theorem exDimer_runs (J : SkJunk) : ∃ T : ScfTools (exScf J 1) Unit, T.L.Ok ∧ 0 ≤ T.tolNorm ∧
    ∃ F, atomForces T (exDimer 1) = .ok F := by
  obtain ⟨L, hL, hrun⟩ := exDimer_lapack 1 zero_le_one
  refine ⟨⟨L, 1, fun _ _ _ => .ok 0, fun m q _ => (true, q, m), (), 1, [0, 0], [6, 6]⟩, hL, zero_le_one, ?_⟩
  obtain ⟨st, hst, hH, hS⟩ := exDimer_mats J 1 (d := 1) (by norm_num) (by norm_num)
  have hset : ∃ x : Setup (exScf J 1), setupOf (exScf J 1) (exDimer 1) = .ok x ∧
      ∀ k, x.H0 k = (!![0, ((1 : ℝ) : ℂ); ((1 : ℝ) : ℂ), 0] : CMat 2) ∧ x.S k = (1 : CMat 2) := by
    have hn := getNeighbors_eq (exDimer 1) none (Or.inr (exDimer_cluster 1))
    have hl : (List.finRange (exScf J 1).nk).mapM
        (fun k => getMatrices ((exScf J 1).mat (exDimer 1)) ((exScf J 1).kpt k)) = .ok [st] := by
      have key : ∀ f : Fin 1 → Except Exn MatSt, f 0 = .ok st →
          (List.finRange 1).mapM f = .ok [st] := by
        intro f hf
        have e : List.finRange 1 = [(0 : Fin 1)] := rfl
        rw [e, List.mapM_cons, List.mapM_nil, hf]
        rfl
      exact key _ hst
    refine ⟨⟨fun k => [st].getD k.val MatSt.zero,
      (if (nbList (exDimer 1) none).isEmpty then none else some (nbList (exDimer 1) none)).getD []⟩, ?_, ?_⟩
    · unfold setupOf
      rw [hl]
      simp only [Bind.bind, Except.bind]
      rw [if_pos (show (exScf J 1).scc = true from rfl), show (exScf J 1).gcut = none from rfl, hn]
      rfl
    · intro k
      have hk : k = (0 : Fin 1) := Subsingleton.elim (α := Fin 1) k 0
      subst hk
      refine ⟨?_, hS⟩
      have : (1 * 1 : ℝ) = 1 := one_mul 1
      rw [this] at hH
      exact hH
  obtain ⟨x, hx, hmat⟩ := hset
  have hp : ∃ p, onePass (P := exScf J 1)
      ⟨L, 1, fun _ _ _ => .ok 0, fun m q _ => (true, q, m), (), 1, [0, 0], [6, 6]⟩ x 2 (some [0, 0]) = .ok p ∧
      mulliken (exScf J 1).wk p.rho x.S (exScf J 1).t.blocks (exScf J 1).val (exScf J 1).charge
        (exScf J 1).tol = .ok [0, 0] := by
    have hchg : ∀ i, chg [0, 0] i = 0 := by
      intro i
      match i with
      | 0 => rfl
      | 1 => rfl
      | n + 2 => rfl
    have heps : x.epsilon 2 [0, 0] = fun _ => 0 := by
      funext i
      simp [Setup.epsilon, epsilonOf, dcPhi, hchg]
    have hh1 : ∀ a b : Fin 2, constructH1 (exScf J 1).t 2 (x.epsilon 2 [0, 0]) (fun _ => 0) a b = 0 := by
      intro a b
      unfold constructH1
      dsimp only
      rw [if_neg (by simp; norm_num), heps]
      have haux : ∀ a : Fin 2, auxFill (fun _ => 0) (exScf J 1).t.blocks 0 (fun _ => 0) a = 0 := by
        intro a
        have hb : (exScf J 1).t.blocks = [(0, 1), (1, 1)] := rfl
        rw [hb]
        rcases fin2_cases a with rfl | rfl <;> simp [auxFill]
      rw [haux, haux]
      norm_num
    have hham : scfHamiltonian (some fun a b : Fin 2 =>
        constructH1 (exScf J 1).t 2 (x.epsilon 2 [0, 0]) (fun _ => 0) a b)
        (!![0, ((1 : ℝ) : ℂ); ((1 : ℝ) : ℂ), 0] : CMat 2) 1 = !![0, ((1 : ℝ) : ℂ); ((1 : ℝ) : ℂ), 0] := by
      have e : (fun a b : Fin 2 => constructH1 (exScf J 1).t 2 (x.epsilon 2 [0, 0]) (fun _ => 0) a b)
          = fun _ _ => 0 := by
        funext a b
        exact hh1 a b
      rw [e]
      unfold scfHamiltonian
      ext a b
      simp
    have hlist : (List.ofFn fun k => (x.H0 k, x.S k))
        = [((!![0, ((1 : ℝ) : ℂ); ((1 : ℝ) : ℂ), 0] : CMat 2), (1 : CMat 2))] := by
      have key : ∀ f : Fin 1 → CMat 2 × CMat 2, List.ofFn f = [f 0] := fun f => by simp
      refine (key _).trans ?_
      exact congrArg (fun z => [z]) (Prod.ext (hmat (0 : Fin 1)).1 (hmat (0 : Fin 1)).2)
    have hsol := exDimer_solve hrun _ _ hham
    have hm : mulliken (exScf J 1).wk (fun _ => computeRho exDimerWf
        (fun a => fermi 1 0 ((![-1, 1] : Fin 2 → ℝ) a))) x.S (exScf J 1).t.blocks (exScf J 1).val
        (exScf J 1).charge (exScf J 1).tol = .ok [0, 0] := by
      have hS : x.S = fun _ => (1 : CMat 2) := funext fun k => (hmat k).2
      have hv : mullikenDiag (exScf J 1).wk (fun _ => computeRho exDimerWf
          (fun a => fermi 1 0 ((![-1, 1] : Fin 2 → ℝ) a))) x.S = (fun _ : Fin 2 => (1 : ℝ)) := by
        funext a
        rw [hS]
        have : ∑ k : Fin 1, (1 : ℝ) * (rowDot (computeRho exDimerWf
            (fun a => fermi 1 0 ((![-1, 1] : Fin 2 → ℝ) a))) (1 : CMat 2) a).re = 1 := by
          rw [Fin.sum_univ_one, one_mul]
          exact exWf_rho _ (exDimer_two (d := 1) (by norm_num)) a
        exact this
      unfold mulliken
      have hb : (exScf J 1).t.blocks = [(0, 1), (1, 1)] := rfl
      rw [hb, hv]
      have : [(0, 1), (1, 1)].map (sliceSum (fun _ : Fin 2 => (1 : ℝ))) = [1, 1] := by
        simp [sliceSum, List.ofFn_succ]
      rw [this]
      norm_num [exScf]
    refine ⟨⟨fun _ => ![-1, 1], fun _ => exDimerWf, 0, [0, 0],
      some fun a b : Fin 2 => constructH1 (exScf J 1).t 2 (x.epsilon 2 [0, 0]) (fun _ => 0) a b⟩, ?_, hm⟩
    have hsol' : solveAll L 1 (some fun a b : Fin 2 =>
        constructH1 (exScf J 1).t 2 (x.epsilon 2 [0, 0]) (fun _ => 0) a b)
        (List.ofFn fun k => (x.H0 k, x.S k)) = .ok [(![-1, 1], exDimerWf)] :=
      (congrArg (solveAll L 1 _) hlist).trans hsol
    have he : (fun k : Fin 1 => ([((![-1, 1] : Fin 2 → ℝ), exDimerWf)].getD k (0, 0)).1) = fun _ => ![-1, 1] := by
      funext k
      rw [Subsingleton.elim k 0]
      rfl
    have hw : (fun k : Fin 1 => ([((![-1, 1] : Fin 2 → ℝ), exDimerWf)].getD k (0, 0)).2) = fun _ => exDimerWf := by
      funext k
      rw [Subsingleton.elim k 0]
      rfl
    have bo : ∀ {α β : Type} {m : Except Exn α} {f : α → Except Exn β} {v : α} {r : Except Exn β},
        m = .ok v → f v = r → m.bind f = r := fun h1 h2 => by rw [h1]; exact h2
    unfold onePass
    refine bo hsol' ?_
    refine bo (v := (0, fun _ a => fermi 1 0 ((![-1, 1] : Fin 2 → ℝ) a))) ?_ ?_
    · refine Eq.trans ?_ exDimer_occupy
      exact congrArg (fun z => Occ.occupy (⟨2, 1, fun _ => 1, z⟩ : Occ 1 2) (fun _ _ _ => .ok 0)) he
    · refine bo (v := [0, 0]) ?_ ?_
      · refine Eq.trans ?_ hm
        exact congrArg (fun z : Fin 1 → CMat 2 => mulliken (exScf J 1).wk (fun k => computeRho (z k)
          (fun a => fermi 1 0 ((![-1, 1] : Fin 2 → ℝ) a))) x.S (exScf J 1).t.blocks (exScf J 1).val
          (exScf J 1).charge (exScf J 1).tol) hw
      · exact congrArg₂ (fun (z : Fin 1 → Fin 2 → ℝ) (y : Fin 1 → CMat 2) => Except.ok
          (⟨z, y, 0, [0, 0], some fun a b : Fin 2 => constructH1 (exScf J 1).t 2 (x.epsilon 2 [0, 0])
          (fun _ => 0) a b⟩ : Pass (exScf J 1))) he hw
  obtain ⟨p, hp, hq⟩ := hp
  have hgs : groundState (P := exScf J 1)
      ⟨L, 1, fun _ _ _ => .ok 0, fun m q _ => (true, q, m), (), 1, [0, 0], [6, 6]⟩ (exDimer 1)
      = .ok (x, p) := by
    unfold groundState
    rw [hx]
    simp only [Bind.bind, Except.bind, getStates]
    rw [if_pos (show (exScf J 1).scc = true from rfl)]
    unfold scfLoop
    simp only [scfEnv]
    rw [exDimer_len, hp]
    simp only [Except.map, if_true]
    rw [hq]
    have : checkMulliken [0, 0] [6, 6] = .ok () := by
      unfold checkMulliken
      rw [if_neg]
      norm_num
    dsimp only
    rw [this]
    rfl
  unfold atomForces
  rw [hgs]
  exact ⟨_, rfl⟩

/-- The forces on the two atoms of the dimer add up to zero. -/
example (J : SkJunk) : ∃ T : ScfTools (exScf J 1) Unit, ∃ F, atomForces T (exDimer 1) = .ok F ∧
    F.sum = 0 := by
  obtain ⟨T, -, -, F, hF⟩ := exDimer_runs J
  exact ⟨T, F, hF, c129_crystal (exScf_fits J 1 1) (exScf_smooth J 1) rfl hF⟩

end Hotbit
