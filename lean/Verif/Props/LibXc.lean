import Verif.Lemmas.LibXc
import Mathlib.Analysis.Calculus.ContDiff.Operations
import Mathlib.Analysis.SpecialFunctions.ExpDeriv

/-! # C126: exchange-correlation functionals from libxc -/

open Set Filter Topology MeasureTheory Interval

namespace Hotbit

/-- The radial grid without discretisation. -/
noncomputable def idealXcGrid : XcGrid ℝ := ⟨id, deriv⟩

theorem translateXc_listed {s k : String} (hk : k ∈ listedFunctionals) (h : AsksFor s k) :
    ∃ p ∈ xcNames, p.1 = k ∧ translateXc (some s) = .ok p.2.toList := by
  have all : ∀ k ∈ listedFunctionals, ∃ p ∈ xcNames, p.1 = k ∧
      (xcNames.find? fun p => p.1.toList = k.toList) = some p := by decide
  obtain ⟨p, hp, hpk, hf⟩ := all k hk
  unfold AsksFor at h
  refine ⟨p, hp, hpk, ?_⟩
  simp only [translateXc, h, hf]

theorem xcNames_two : ∀ p ∈ xcNames, ',' ∈ p.2.toList → (p.2.toList.splitOn ',').length = 2 := by decide

/-- A functional can be made exactly when its name is listed, in any case; otherwise, and for anything but
a string, there is a `ValueError`. -/
theorem c126_known (L : PyLibXc) (hL : ∀ n, ∃ g, L.new n = .ok g) (s : String) :
    ((∃ k ∈ listedFunctionals, AsksFor s k) → ∃ F, xcMake L (some s) = .ok F) ∧
    ((¬ ∃ k ∈ listedFunctionals, AsksFor s k) → xcMake L (some s) = .error .valueError) ∧
    xcMake L none = .error .valueError := by
  refine ⟨?_, ?_, rfl⟩
  · rintro ⟨k, hk, hs⟩
    obtain ⟨p, hp, -, ht⟩ := translateXc_listed hk hs
    have h2 := xcNames_two p hp
    simp only [xcMake, ht, Bind.bind, Except.bind, pure, Except.pure]
    split
    · rename_i hc
      have hlen := h2 hc
      match hsp : p.2.toList.splitOn ',', hlen with
      | [x, c], _ =>
        obtain ⟨g, hg⟩ := hL x
        obtain ⟨g', hg'⟩ := hL c
        simp only [hg, hg']
        exact ⟨_, rfl⟩
    · obtain ⟨g, hg⟩ := hL p.2.toList
      simp only [hg]
      exact ⟨_, rfl⟩
  · intro h
    have : xcNames.find? (fun p => p.1.toList = s.toList.map Char.toLower) = none := by
      rw [List.find?_eq_none]
      intro p hp he
      refine h ⟨p.1, ?_, (of_decide_eq_true he).symm⟩
      have : ∀ p ∈ xcNames, p.1 ∈ listedFunctionals := by decide
      exact this p hp
    simp only [xcMake, translateXc, this, Bind.bind, Except.bind]

example : AsksFor "PBE" "pbe" ∧ "pbe" ∈ listedFunctionals := ⟨by unfold AsksFor; decide, by decide⟩
example : ¬ ∃ k ∈ listedFunctionals, AsksFor "B3LYP" k := by unfold AsksFor; decide

/-- Only upper and lower case of the name do not matter. -/
theorem c126_case (L : PyLibXc) (s s' : String) (h : s.toList.map Char.toLower = s'.toList.map Char.toLower) :
    xcMake L (some s) = xcMake L (some s') := by
  simp only [xcMake, translateXc, h]

example : ("PBE".toList.map Char.toLower) = "Pbe".toList.map Char.toLower := by decide

/-- Without a grid a GGA gives a `ValueError` for energy and potential; the others do not need the grid. -/
theorem c126_grid {ι : Type} (L : PyLibXc) (F : XcFunctional) (g : XcGrid ι) (rho : ι → ℝ) :
    (F.anyGGA = true → xcExc L F none rho = .error .valueError ∧ xcVxc L F none rho = .error .valueError) ∧
    (F.anyGGA = false → xcExc L F none rho = xcExc L F (some g) rho ∧ xcVxc L F none rho = xcVxc L F (some g) rho ∧
      ∃ v, xcVxc L F (some g) rho = .ok v) ∧
    (∃ v, xcVxc L F (some g) rho = .ok v) := by
  refine ⟨?_, ?_, ?_⟩
  · intro h
    simp [xcExc, xcVxc, xcGrad, h, Bind.bind, Except.bind]
  · intro h
    cases F <;> simp_all [xcExc, xcVxc, xcGrad, XcFunctional.anyGGA, Bind.bind, Except.bind, xcPart]
  · by_cases h : F.anyGGA = true
    · cases F <;> simp_all [xcVxc, xcGrad, Bind.bind, Except.bind]
    · cases F <;> simp_all [xcVxc, xcGrad, Bind.bind, Except.bind]

/-- Where the density is below the threshold, its gradient counts as zero. -/
theorem c126_exc_partial {ι : Type} (L : PyLibXc) (name : List Char) (g : XcGrid ι) (rho : ι → ℝ) :
    ∃ e, xcExc L (.single name true) (some g) rho = .ok e ∧ ∀ i,
      (rho i < xcMini → e i = L.zk name (rho i) 0) ∧
      (xcMini ≤ rho i → e i = L.zk name (rho i) (g.D rho i ^ 2)) := by
  refine ⟨_, rfl, fun i => ⟨fun h => ?_, fun h => ?_⟩⟩
  · simp [h]
  · simp [not_lt.mpr h, sq]

/-- The functionals given by two parts. -/
def separateFunctionals : List String :=
  ["gl", "hl", "pw92", "pz", "svwn", "b96pbe", "blyp", "bp86", "gam", "pbe", "pbeint", "pw86pbe", "pw91",
   "revpbe", "rpbe", "sogga", "sogga11"]

/-- For 17 of the 22 functionals, among them PBE and BLYP, the energy is a `NameError` for every density,
so that no total energy of an atom can be had. -/
theorem c126_exc_fails (L : PyLibXc) (s k : String) (hk : k ∈ separateFunctionals) (hs : AsksFor s k)
    (F : XcFunctional) (hF : xcMake L (some s) = .ok F) :
    (∀ (ι : Type) (g : XcGrid ι) (rho : ι → ℝ), xcExc L F (some g) rho = .error .nameError) ∧
    ∀ N g states hartree vxc dens,
      xcTotalEnergy L F N g states hartree vxc dens = .error .nameError := by
  have hk' : k ∈ listedFunctionals := by
    have : ∀ k ∈ separateFunctionals, k ∈ listedFunctionals := by decide
    exact this k hk
  obtain ⟨p, hp, hpk, ht⟩ := translateXc_listed hk' hs
  have hc : ',' ∈ p.2.toList := by
    have : ∀ p ∈ xcNames, p.1 ∈ separateFunctionals → ',' ∈ p.2.toList := by decide
    exact this p hp (hpk ▸ hk)
  have hpair : ∃ x gx c gc, F = .pair x gx c gc := by
    have hlen := xcNames_two p hp hc
    simp only [xcMake, ht, Bind.bind, Except.bind, pure, Except.pure, if_pos hc] at hF
    match hsp : p.2.toList.splitOn ',', hlen with
    | [x, c], _ =>
      simp only [hsp] at hF
      cases h1 : L.new x with
      | error e => simp [h1] at hF
      | ok g1 =>
        cases h2 : L.new c with
        | error e => simp [h1, h2] at hF
        | ok g2 =>
          simp only [h1, h2, Except.ok.injEq] at hF
          exact ⟨x, g1, c, g2, hF.symm⟩
  obtain ⟨x, gx, c, gc, rfl⟩ := hpair
  have h1 : ∀ (ι : Type) (g : XcGrid ι) (rho : ι → ℝ),
      xcExc L (.pair x gx c gc) (some g) rho = .error .nameError := by
    intro ι g rho
    by_cases h : (XcFunctional.pair x gx c gc).anyGGA = true <;>
      simp [xcExc, xcGrad, h, Bind.bind, Except.bind]
  refine ⟨h1, fun N g states hartree vxc dens => ?_⟩
  simp [xcTotalEnergy, h1, Bind.bind, Except.bind]

/-- A `pylibxc` with energy per particle `n + s` for GGAs and `n` for the others. -/
noncomputable def exLibXc : PyLibXc where
  new n := .ok (n.take 3 = "GGA".toList)
  zk n x s := if n.take 3 = "GGA".toList then x + s else x
  vrho n x s := if n.take 3 = "GGA".toList then 2 * x + s else 2 * x
  vsigma n x _ := if n.take 3 = "GGA".toList then x else 0

theorem exLibXc_pbe : xcMake exLibXc (some "PBE") =
    .ok (.pair "GGA_X_PBE".toList true "GGA_C_PBE".toList true) := by
  have h : translateXc (some "PBE") = .ok "GGA_X_PBE,GGA_C_PBE".toList := by decide
  have h1 : ',' ∈ "GGA_X_PBE,GGA_C_PBE".toList := by decide
  have h2 : "GGA_X_PBE,GGA_C_PBE".toList.splitOn ',' = ["GGA_X_PBE".toList, "GGA_C_PBE".toList] := by decide
  have h3 : "GGA_X_PBE".toList.take 3 = "GGA".toList := by decide
  have h4 : "GGA_C_PBE".toList.take 3 = "GGA".toList := by decide
  simp only [xcMake, h, Bind.bind, Except.bind, if_pos h1, h2, exLibXc, pure, Except.pure, h3, h4, decide_true]

example : "pbe" ∈ separateFunctionals ∧ AsksFor "PBE" "pbe" ∧ ∃ F, xcMake exLibXc (some "PBE") = .ok F :=
  ⟨by decide, by unfold AsksFor; decide, _, exLibXc_pbe⟩

/-! ## The potential -/

section
variable {L : PyLibXc} {name : List Char} {gga : Bool} {U : Set (ℝ × ℝ)}

theorem xcPromise_fderiv (hp : XcPromise L name gga U) (hU : IsOpen U) {p : ℝ × ℝ} (h : p ∈ U) (x s : ℝ) :
    fderiv ℝ (fun p : ℝ × ℝ => p.1 * L.zk name p.1 p.2) p (x, s) =
      L.vrho name p.1 p.2 * x + L.vsigma name p.1 p.2 * s := by
  have hd := ((hp.smooth.contDiffAt (hU.mem_nhds h)).differentiableAt (by norm_num)).hasFDerivAt
  have e1 : HasDerivAt (fun x : ℝ => (x, p.2)) ((1 : ℝ), (0 : ℝ)) p.1 :=
    (hasDerivAt_id p.1).prodMk (hasDerivAt_const _ _)
  have e2 : HasDerivAt (fun s : ℝ => (p.1, s)) ((0 : ℝ), (1 : ℝ)) p.2 :=
    (hasDerivAt_const _ _).prodMk (hasDerivAt_id p.2)
  have d1 := (HasFDerivAt.comp_hasDerivAt (f := fun x : ℝ => (x, p.2)) p.1 hd e1).unique (hp.vrho p h)
  have d2 := (HasFDerivAt.comp_hasDerivAt (f := fun s : ℝ => (p.1, s)) p.2 hd e2).unique (hp.vsigma p h)
  have : ((x, s) : ℝ × ℝ) = x • ((1 : ℝ), (0 : ℝ)) + s • ((0 : ℝ), (1 : ℝ)) := by simp
  rw [this, map_add, map_smul, map_smul, d1, d2]
  simp only [smul_eq_mul]
  ring

/-- The derivative of the energy with respect to the gradient. -/
noncomputable def xcSlope (L : PyLibXc) (name : List Char) (n : ℝ → ℝ) (r : ℝ) : ℝ :=
  2 * L.vsigma name (n r) (deriv n r ^ 2) * deriv n r

theorem xc_preimage {n : ℝ → ℝ} (hn : ContDiff ℝ 2 n) (hU : IsOpen U) :
    IsOpen {r | (n r, deriv n r ^ 2) ∈ U} := by
  have h1 := hn.continuous
  have h2 := hn.continuous_deriv (by norm_num)
  exact hU.preimage (by fun_prop : Continuous fun r => (n r, deriv n r ^ 2))

theorem xcSlope_smooth (hp : XcPromise L name gga U) (hU : IsOpen U) {n : ℝ → ℝ} (hn : ContDiff ℝ 2 n) :
    ContDiffOn ℝ 1 (xcSlope L name n) {r | (n r, deriv n r ^ 2) ∈ U} := by
  have hd : ContDiff ℝ 1 (deriv n) := by
    have := (contDiff_succ_iff_deriv (n := 1) (f := n)).mp (by simpa [one_add_one_eq_two] using hn)
    exact this.2.2
  have hf : ContDiffOn ℝ 1 (fderiv ℝ fun p : ℝ × ℝ => p.1 * L.zk name p.1 p.2) U :=
    hp.smooth.fderiv_of_isOpen hU (by norm_num)
  have hpt : ContDiff ℝ 1 fun r => (n r, deriv n r ^ 2) := (hn.of_le (by norm_num)).prodMk (hd.pow 2)
  have h1 : ContDiffOn ℝ 1 (fun r => L.vsigma name (n r) (deriv n r ^ 2)) {r | (n r, deriv n r ^ 2) ∈ U} := by
    have := (hf.comp (s := {r | (n r, deriv n r ^ 2) ∈ U}) hpt.contDiffOn fun r hr => hr).clm_apply
      (contDiffOn_const (c := ((0 : ℝ), (1 : ℝ))))
    refine this.congr fun r hr => ?_
    have := xcPromise_fderiv hp hU (p := (n r, deriv n r ^ 2)) hr 0 1
    simp only [Function.comp_apply, this]
    ring
  exact (contDiffOn_const.mul h1).mul hd.contDiffOn

theorem xcVrho_continuous (hp : XcPromise L name gga U) (hU : IsOpen U) {n : ℝ → ℝ} (hn : ContDiff ℝ 2 n) :
    ContinuousOn (fun r => L.vrho name (n r) (deriv n r ^ 2)) {r | (n r, deriv n r ^ 2) ∈ U} := by
  have hf := hp.smooth.continuousOn_fderiv_of_isOpen hU (by norm_num)
  have h1 := hn.continuous
  have h2 := hn.continuous_deriv (by norm_num)
  have hpt : Continuous fun r => (n r, deriv n r ^ 2) := by fun_prop
  have := (hf.comp (s := {r | (n r, deriv n r ^ 2) ∈ U}) hpt.continuousOn fun r hr => hr).clm_apply
    (continuousOn_const (c := ((1 : ℝ), (0 : ℝ))))
  refine this.congr fun r hr => ?_
  have := xcPromise_fderiv hp hU (p := (n r, deriv n r ^ 2)) hr 1 0
  simp only [Function.comp_apply, this]
  ring

theorem xcPart_value (hp : XcPromise L name gga U) {n grad : ℝ → ℝ} {r : ℝ} (hr : xcMini ≤ r)
    (hg : gga = true → grad =ᶠ[𝓝 r] deriv n) :
    xcPart L name gga (some idealXcGrid) n grad r =
      L.vrho name (n r) (deriv n r ^ 2) - (2 * xcSlope L name n r / r + deriv (xcSlope L name n) r) := by
  cases gga with
  | false =>
    have h0 : xcSlope L name n = fun _ => 0 := by
      funext x
      simp [xcSlope, (hp.lda rfl (n x) (deriv n x ^ 2)).2.2]
    simp only [xcPart, h0, deriv_const]
    rw [(hp.lda rfl (n r) (grad r * grad r)).2.1, (hp.lda rfl (n r) (deriv n r ^ 2)).2.1]
    simp
  | true =>
    have hg := hg rfl
    have he : (fun x => 2 * L.vsigma name (n x) (grad x * grad x) * grad x) =ᶠ[𝓝 r] xcSlope L name n := by
      filter_upwards [hg] with x hx
      simp [xcSlope, hx, sq]
    simp only [xcPart, xcGga, idealXcGrid, id, max_eq_left hr]
    rw [he.deriv_eq, show xcSlope L name n r = 2 * L.vsigma name (n r) (deriv n r * deriv n r) * deriv n r by rw [xcSlope, sq],
      hg.self_of_nhds, sq]

end

theorem xcGrad_near {F : XcFunctional} {n grad : ℝ → ℝ} (hn : Continuous n)
    (h : xcGrad F (some idealXcGrid) n = .ok grad) {r : ℝ} (hr : xcMini < n r) (hF : F.anyGGA = true) :
    grad =ᶠ[𝓝 r] deriv n := by
  simp only [xcGrad, hF, if_true, Except.ok.injEq] at h
  filter_upwards [hn.continuousAt.eventually (lt_mem_nhds hr)] with x hx
  rw [← h]
  simp [not_lt.mpr hx.le, idealXcGrid]

theorem xcMini_pos : 0 < xcMini := by unfold xcMini; positivity

theorem xcGrad_some {F : XcFunctional} (n : ℝ → ℝ) : ∃ grad, xcGrad F (some idealXcGrid) n = .ok grad := by
  by_cases h : F.anyGGA = true <;> simp [xcGrad, h]

/-- On a grid without discretisation the potential is the potential of the energy, for every functional
whose parts keep what `pylibxc` promises. -/
theorem c126_potential (L : PyLibXc) (F : XcFunctional) (U : Set (ℝ × ℝ)) (hU : IsOpen U)
    (hF : ∀ p ∈ F.parts, XcPromise L p.1 p.2 U) (a b : ℝ) (ha : xcMini ≤ a) (hab : a ≤ b) (n : ℝ → ℝ)
    (hn : ContDiff ℝ 2 n) (hpos : ∀ r ∈ Icc a b, xcMini < n r)
    (hin : ∀ r ∈ Icc a b, (n r, deriv n r ^ 2) ∈ U) (v : ℝ → ℝ)
    (hv : xcVxc L F (some idealXcGrid) n = .ok v) :
    IsPotential (xcShellEnergy L F a b) a b n v := by
  intro h hh h0 h1
  have ha0 : 0 < a := lt_of_lt_of_le xcMini_pos ha
  have hn1 : ContDiff ℝ 1 n := hn.of_le (by norm_num)
  have hW := xc_preimage hn hU
  have hder : ∀ t r, deriv (fun x => n x + t * h x) r = deriv n r + t * deriv h r := by
    intro t r
    exact (((hn1.differentiable (by norm_num) r).hasDerivAt).add
      (((hh.differentiable (by norm_num) r).hasDerivAt).const_mul t)).deriv
  obtain ⟨grad, hgrad⟩ := xcGrad_some (F := F) n
  have hnear := fun r hr => xcGrad_near hn.continuous hgrad (hpos r hr)
  simp only [xcVxc, hgrad, Bind.bind, Except.bind] at hv
  have hw : Continuous fun r : ℝ => 4 * Real.pi * r ^ 2 := by fun_prop
  -- one or two parts
  obtain ⟨f, vr, G, hf, hfd, hG, hvr, hE, hval⟩ : ∃ (f : ℝ × ℝ → ℝ) (vr G : ℝ → ℝ), ContDiffOn ℝ 1 f U ∧
      (∀ r ∈ Icc a b, ∀ x s, fderiv ℝ f (n r, deriv n r ^ 2) (x, 2 * deriv n r * s) = vr r * x + G r * s) ∧
      ContDiffOn ℝ 1 G {r | (n r, deriv n r ^ 2) ∈ U} ∧ ContinuousOn vr (Icc a b) ∧
      (∀ p : ℝ × ℝ, xcEnergyDensity L F p.1 p.2 = f p) ∧
      ∀ r ∈ Icc a b, v r = vr r - (2 * G r / r + deriv G r) := by
    cases F with
    | single nm g =>
      have hp : XcPromise L nm g U := hF (nm, g) (by simp [XcFunctional.parts])
      simp only [Except.ok.injEq] at hv
      refine ⟨_, _, _, hp.smooth.of_le (by norm_num), ?_, xcSlope_smooth hp hU hn,
        (xcVrho_continuous hp hU hn).mono hin, ?_, ?_⟩
      · intro r hr x s
        rw [xcPromise_fderiv hp hU (hin r hr), xcSlope]
        ring
      · intro p
        simp [xcEnergyDensity, XcFunctional.parts]
      · intro r hr
        subst hv
        simp only []
        rw [xcPart_value hp (ha.trans hr.1) fun hg => hnear r hr (by simpa [XcFunctional.anyGGA] using hg)]
    | pair x gx c gc =>
      have hx : XcPromise L x gx U := hF (x, gx) (by simp [XcFunctional.parts])
      have hc : XcPromise L c gc U := hF (c, gc) (by simp [XcFunctional.parts])
      simp only [Except.ok.injEq] at hv
      have dx := xcSlope_smooth hx hU hn
      have dc := xcSlope_smooth hc hU hn
      refine ⟨fun p => p.1 * L.zk x p.1 p.2 + p.1 * L.zk c p.1 p.2,
        fun r => L.vrho x (n r) (deriv n r ^ 2) + L.vrho c (n r) (deriv n r ^ 2),
        fun r => xcSlope L x n r + xcSlope L c n r, (hx.smooth.add hc.smooth).of_le (by norm_num), ?_, dx.add dc,
        ((xcVrho_continuous hx hU hn).mono hin).add ((xcVrho_continuous hc hU hn).mono hin), ?_, ?_⟩
      · intro r hr y s
        have d1 := (hx.smooth.contDiffAt (hU.mem_nhds (hin r hr))).differentiableAt (by norm_num)
        have d2 := (hc.smooth.contDiffAt (hU.mem_nhds (hin r hr))).differentiableAt (by norm_num)
        rw [fderiv_fun_add d1 d2, ContinuousLinearMap.add_apply, xcPromise_fderiv hx hU (hin r hr),
          xcPromise_fderiv hc hU (hin r hr)]
        simp only [xcSlope]
        ring
      · intro p
        simp [xcEnergyDensity, XcFunctional.parts]
      · intro r hr
        have d1 := (dx.contDiffAt (hW.mem_nhds (hin r hr))).differentiableAt (by norm_num)
        have d2 := (dc.contDiffAt (hW.mem_nhds (hin r hr))).differentiableAt (by norm_num)
        subst hv
        simp only []
        rw [xcPart_value hx (ha.trans hr.1) fun hg => hnear r hr (by simp [XcFunctional.anyGGA, hg]),
          xcPart_value hc (ha.trans hr.1) fun hg => hnear r hr (by simp [XcFunctional.anyGGA, hg]),
          deriv_fun_add d1 d2]
        ring
  have hvar := xc_variation hU hf hw hn1 hh hab hin
  have e1 : (fun t : ℝ => xcShellEnergy L F a b fun r => n r + t * h r) =
      fun t : ℝ => ∫ r in a..b, 4 * Real.pi * r ^ 2 * f (xcPoint n h (t, r)) := by
    funext t
    simp only [xcShellEnergy, hder]
    congr 1
    funext r
    rw [← hE]
    simp [xcPoint]
  rw [e1]
  refine hvar.congr_deriv ?_
  have e2 : ∫ r in a..b, 4 * Real.pi * r ^ 2 *
        fderiv ℝ f (n r, deriv n r ^ 2) (h r, 2 * deriv n r * deriv h r) =
      ∫ r in a..b, 4 * Real.pi * r ^ 2 * (vr r * h r + G r * deriv h r) := by
    refine intervalIntegral.integral_congr fun r hr => ?_
    rw [uIcc_of_le hab] at hr
    simp only [hfd r hr]
  rw [e2, xc_byParts hW hG hh ha0 hab hin h0 h1 hvr]
  refine intervalIntegral.integral_congr fun r hr => ?_
  rw [uIcc_of_le hab] at hr
  simp only [hval r hr]

theorem exLibXc_promise (nm : List Char) (h : nm.take 3 = "GGA".toList) : XcPromise exLibXc nm true Set.univ where
  smooth := by
    simp only [exLibXc, if_pos h]
    exact (contDiff_fst.mul (contDiff_fst.add contDiff_snd)).contDiffOn
  vrho p _ := by
    simp only [exLibXc, if_pos h]
    refine ((hasDerivAt_id p.1).mul ((hasDerivAt_id p.1).add_const p.2)).congr_deriv ?_
    simp
    ring
  vsigma p _ := by
    simp only [exLibXc, if_pos h]
    simpa using ((hasDerivAt_id p.2).const_add p.1).const_mul p.1
  lda h := by simp at h

/-- An exponential density has all that is asked for, between the radii 1 and 2. -/
example : IsOpen (Set.univ : Set (ℝ × ℝ)) ∧
    (∀ p ∈ (XcFunctional.pair "GGA_X_PBE".toList true "GGA_C_PBE".toList true).parts,
      XcPromise exLibXc p.1 p.2 Set.univ) ∧
    xcMini ≤ 1 ∧ (1 : ℝ) ≤ 2 ∧ ContDiff ℝ 2 (fun r : ℝ => Real.exp r) ∧ (∀ r ∈ Icc (1 : ℝ) 2, xcMini < Real.exp r) ∧
    ∃ v, xcVxc exLibXc (.pair "GGA_X_PBE".toList true "GGA_C_PBE".toList true) (some idealXcGrid) (fun r => Real.exp r)
      = .ok v := by
  have hm : xcMini ≤ 1 := by unfold xcMini; norm_num
  refine ⟨isOpen_univ, ?_, hm, by norm_num, Real.contDiff_exp, ?_, (c126_grid _ _ _ _).2.2⟩
  · intro p hp
    simp only [XcFunctional.parts, List.mem_cons, List.not_mem_nil, or_false] at hp
    rcases hp with rfl | rfl
    · exact exLibXc_promise _ (by decide)
    · exact exLibXc_promise _ (by decide)
  · intro r hr
    have := Real.add_one_le_exp r
    linarith [hr.1]

end Hotbit
