import Verif.Props.PairPotential
import Mathlib.Analysis.SpecialFunctions.ExpDeriv

/-!
# C33: van der Waals corrections
-/

set_option linter.unusedSimpArgs false

namespace Hotbit

/-- **C33 (symmetry).** Both mixed coefficients are symmetric in the two atoms. -/
theorem c33_symmetric (ca pa cb pb ra rb : ℝ) :
    mixC6 ca pa cb pb = mixC6 cb pb ca pa ∧ mixR0 ra rb = mixR0 rb ra := by
  unfold mixC6 mixR0
  constructor
  · congr 1 <;> ring
  · congr 1 <;> ring

/-- **C33 (equal species).** For equal atoms the mixed coefficients are the atomic ones. -/
theorem c33_equal_species {c p r : ℝ} (hc : c ≠ 0) (hp : p ≠ 0) (hr : r ≠ 0) :
    mixC6 c p c p = c ∧ mixR0 r r = r := by
  unfold mixC6 mixR0
  constructor
  · field_simp; norm_num
  · field_simp

/-- **C33 (mixed radius).** The mixed radius lies between the atomic radii. -/
theorem c33_radius_between {ra rb : ℝ} (ha : 0 < ra) (hb : 0 < rb) :
    min ra rb ≤ mixR0 ra rb ∧ mixR0 ra rb ≤ max ra rb := by
  have h : mixR0 ra rb = (ra ^ 2 * ra + rb ^ 2 * rb) / (ra ^ 2 + rb ^ 2) := by unfold mixR0; ring_nf
  have hd : 0 < ra ^ 2 + rb ^ 2 := by positivity
  rw [h, le_div_iff₀ hd, div_le_iff₀ hd]
  have h1 := mul_le_mul_of_nonneg_left (min_le_left ra rb) (sq_nonneg ra)
  have h2 := mul_le_mul_of_nonneg_left (min_le_right ra rb) (sq_nonneg rb)
  have h3 := mul_le_mul_of_nonneg_left (le_max_left ra rb) (sq_nonneg ra)
  have h4 := mul_le_mul_of_nonneg_left (le_max_right ra rb) (sq_nonneg rb)
  constructor <;> nlinarith

/-- **C33 (mixed C6).** The mixed coefficient is positive and at most the geometric mean of the atomic
ones, so it does not exceed the larger of the two. -/
theorem c33_c6_bound {ca pa cb pb : ℝ} (hca : 0 < ca) (hpa : 0 < pa) (hcb : 0 < cb) (hpb : 0 < pb) :
    0 < mixC6 ca pa cb pb ∧ mixC6 ca pa cb pb ≤ √(ca * cb) ∧ mixC6 ca pa cb pb ≤ max ca cb := by
  have hd : 0 < pa ^ 2 * ca + pb ^ 2 * cb := by positivity
  have hpos : 0 < mixC6 ca pa cb pb := by unfold mixC6; positivity
  have h2 : mixC6 ca pa cb pb ≤ √(ca * cb) := by
    refine Real.le_sqrt_of_sq_le ?_
    unfold mixC6
    rw [div_pow, div_le_iff₀ (by positivity)]
    have h3 : 0 ≤ (pa ^ 2 * ca - pb ^ 2 * cb) ^ 2 := sq_nonneg _
    have h4 : 0 < ca * cb := by positivity
    nlinarith [mul_nonneg h4.le h3]
  refine ⟨hpos, h2, h2.trans ?_⟩
  have h5 : ca * cb ≤ max ca cb ^ 2 := by
    rw [sq]
    exact mul_le_mul (le_max_left _ _) (le_max_right _ _) hcb.le (le_trans hca.le (le_max_left _ _))
  calc √(ca * cb) ≤ √(max ca cb ^ 2) := Real.sqrt_le_sqrt h5
    _ = max ca cb := Real.sqrt_sq (le_trans hca.le (le_max_left _ _))

/-- **C33 (mixed C6, lower bound violated).** The mixed coefficient can be smaller than both atomic
ones, even if these are equal. -/
theorem c33_c6_between_fails : ∃ ca pa cb pb : ℝ, 0 < ca ∧ 0 < pa ∧ 0 < cb ∧ 0 < pb ∧
    mixC6 ca pa cb pb < min ca cb :=
  ⟨1, 1, 1, 2, by norm_num, by norm_num, by norm_num, by norm_num, by norm_num [mixC6]⟩

/-- The Slater-Kirkwood rule `C6ab = 3/2·pa·pb/(√(pa/Na)+√(pb/Nb))`, with the effective numbers of
electrons `N` that give the atomic coefficients `C6 = 3/4·√(N·p³)`. -/
noncomputable def slaterKirkwood (ca pa cb pb : ℝ) : ℝ :=
  let na := (ca / 0.75) ^ 2 / pa ^ 3
  let nb := (cb / 0.75) ^ 2 / pb ^ 3
  1.5 * pa * pb / (√(pa / na) + √(pb / nb))

/-- The rule in terms of the atomic coefficients. -/
theorem slaterKirkwood_eq {ca pa cb pb : ℝ} (hca : 0 < ca) (hpa : 0 < pa) (hcb : 0 < cb) (hpb : 0 < pb) :
    slaterKirkwood ca pa cb pb = 2 * ca * cb * pa * pb / (pa ^ 2 * cb + pb ^ 2 * ca) := by
  have h : ∀ c p : ℝ, 0 < c → 0 < p → √(p / ((c / 0.75) ^ 2 / p ^ 3)) = 0.75 * p ^ 2 / c := by
    intro c p hc hp
    rw [← Real.sqrt_sq (show 0 ≤ 0.75 * p ^ 2 / c by positivity)]
    congr 1
    field_simp
  unfold slaterKirkwood
  simp only
  rw [h ca pa hca hpa, h cb pb hcb hpb]
  field_simp
  norm_num

/-- **C33 (combination rule, violated).** The mixed coefficient is not the one of the Slater-Kirkwood
rule: the weights in the denominator are exchanged. -/
theorem c33_slater_kirkwood_fails : ∃ ca pa cb pb : ℝ, 0 < ca ∧ 0 < pa ∧ 0 < cb ∧ 0 < pb ∧
    mixC6 ca pa cb pb ≠ slaterKirkwood ca pa cb pb := by
  refine ⟨1, 1, 2, 2, by norm_num, by norm_num, by norm_num, by norm_num, ?_⟩
  rw [slaterKirkwood_eq (by norm_num) (by norm_num) (by norm_num) (by norm_num)]
  norm_num [mixC6]

/-- **C33 (conversions).** `C6_from_p` and `p_from_C6` are inverse to each other. -/
theorem c33_conversions {c p nvel : ℝ} (hc : 0 ≤ c) (hp : 0 ≤ p) (hn : 0 ≤ nvel) :
    pFromC6 (c6FromP p nvel) nvel = p ∧ c6FromP (pFromC6 c nvel) nvel = c := by
  have h1 : 0 < 1.17 + 0.33 * nvel := by positivity
  unfold pFromC6 c6FromP
  constructor
  · rw [mul_div_cancel_left₀ _ (by norm_num), Real.sq_sqrt (by positivity), mul_div_cancel_left₀ _ h1.ne']
  · rw [mul_div_cancel₀ _ h1.ne', Real.sqrt_sq (by positivity)]
    field_simp

/-- **C33 (derivative).** The derivative branch of the correction is the derivative of the energy
branch. -/
theorem c33_derivative (w : VdwPair) {r : ℝ} (hr : 0 < r) : HasDerivAt (w.call 0) (w.call 1 r) r := by
  have hrn : HasDerivAt (fun r : ℝ => r ^ w.n) (w.n * r ^ (w.n - 1)) r := hasDerivAt_pow w.n r
  have hexp := ((hrn.const_mul (-(w.d / w.r0 ^ w.n))).exp)
  have hf := ((hexp.const_sub 1).fun_pow w.m)
  have h6 := ((hasDerivAt_pow 6 r).fun_inv (pow_ne_zero 6 hr.ne')).const_mul w.c6
  have h := hf.fun_neg.fun_mul h6
  have he : w.call 0 = fun r => -(1 - Real.exp (-(w.d / w.r0 ^ w.n) * r ^ w.n)) ^ w.m
      * (w.c6 * (r ^ 6)⁻¹) := by
    funext r
    rfl
  rw [he]
  refine h.congr_deriv ?_
  show _ = (6 * (1 - Real.exp (-(w.d / w.r0 ^ w.n) * r ^ w.n)) ^ w.m / r
    - w.m * (1 - Real.exp (-(w.d / w.r0 ^ w.n) * r ^ w.n)) ^ (w.m - 1) * (w.d / w.r0 ^ w.n) * w.n
      * r ^ (w.n - 1) * Real.exp (-(w.d / w.r0 ^ w.n) * r ^ w.n)) * (w.c6 / r ^ 6)
  generalize Real.exp (-(w.d / w.r0 ^ w.n) * r ^ w.n) = E
  generalize (1 - E) ^ (w.m - 1) = F
  generalize (1 - E) ^ w.m = F'
  generalize r ^ (w.n - 1) = R
  generalize w.d / w.r0 ^ w.n = K
  field_simp
  ring

/-- **C33 (attraction).** With positive coefficients the correction is attractive, and weaker than the
bare `-C6/r⁶`. -/
theorem c33_attractive (w : VdwPair) (hc : 0 < w.c6) (hr0 : 0 < w.r0) (hd : 0 < w.d) (hn : w.n ≠ 0)
    (hm : w.m ≠ 0) {r : ℝ} (hr : 0 < r) : w.call 0 r < 0 ∧ -(w.c6 / r ^ 6) < w.call 0 r := by
  have hE : 0 < w.d / w.r0 ^ w.n * r ^ w.n := by positivity
  have h1 : Real.exp (-(w.d / w.r0 ^ w.n) * r ^ w.n) < 1 := by
    rw [Real.exp_lt_one_iff]; linarith
  have h0 := Real.exp_pos (-(w.d / w.r0 ^ w.n) * r ^ w.n)
  show -(1 - Real.exp (-(w.d / w.r0 ^ w.n) * r ^ w.n)) ^ w.m * (w.c6 / r ^ 6) < 0 ∧
    -(w.c6 / r ^ 6) < -(1 - Real.exp (-(w.d / w.r0 ^ w.n) * r ^ w.n)) ^ w.m * (w.c6 / r ^ 6)
  generalize Real.exp (-(w.d / w.r0 ^ w.n) * r ^ w.n) = E at *
  have h2 : 0 < (1 - E) ^ w.m := pow_pos (by linarith) _
  have h3 : (1 - E) ^ w.m < 1 := pow_lt_one₀ (by linarith) (by linarith) hm
  have h4 : 0 < w.c6 / r ^ 6 := by positivity
  constructor <;> nlinarith

/-! ### Set-up -/

theorem mem_upperPairs {l : List String} {a b : String} (h : (a, b) ∈ upperPairs l) : a ∈ l ∧ b ∈ l := by
  induction l with
  | nil => simp [upperPairs] at h
  | cons s l ih =>
    rw [upperPairs, List.mem_append] at h
    rcases h with h | h
    · obtain ⟨x, hx, he⟩ := List.mem_map.mp h
      cases he
      exact ⟨by simp, hx⟩
    · exact ⟨by simp [(ih h).1], by simp [(ih h).2]⟩

theorem upperPairs_complete {l : List String} {a b : String} (ha : a ∈ l) (hb : b ∈ l) :
    (a, b) ∈ upperPairs l ∨ (b, a) ∈ upperPairs l := by
  induction l with
  | nil => simp at ha
  | cons s l ih =>
    rw [upperPairs]
    simp only [List.mem_append, List.mem_map]
    rcases List.mem_cons.mp ha with rfl | ha'
    · exact Or.inl (Or.inl ⟨b, hb, rfl⟩)
    · rcases List.mem_cons.mp hb with rfl | hb'
      · exact Or.inr (Or.inl ⟨a, ha, rfl⟩)
      · exact (ih ha' hb').imp Or.inr Or.inr

/-- An element whose three parameters are numbers. -/
def VdwData.Complete (e : VdwData) (c p r : ℝ) : Prop := e.c6 = some c ∧ e.p = some p ∧ e.r0 = some r

/-- The correction between two elements. -/
noncomputable def vdwOf (els : String → VdwData) (a b : String) : VdwPair :=
  { c6 := mixC6 ((els a).c6.getD 0) ((els a).p.getD 0) ((els b).c6.getD 0) ((els b).p.getD 0)
    r0 := mixR0 ((els a).r0.getD 0) ((els b).r0.getD 0) }

theorem vdwOf_comm (els : String → VdwData) (a b : String) : vdwOf els a b = vdwOf els b a := by
  unfold vdwOf
  rw [(c33_symmetric _ _ _ _ 0 0).1, (c33_symmetric 0 0 0 0 _ _).2]

theorem vdwStep_ok (bohr hartree : ℝ) (els : String → VdwData) (st : PPState) (a b : String)
    (ha : ∃ c p r, (els a).Complete c p r) (hb : ∃ c p r, (els b).Complete c p r) :
    vdwStep bohr hartree els st (a, b)
      = .ok (addPair bohr hartree st (.elements a b) ⟨(vdwOf els a b).call, 10⟩ false) := by
  obtain ⟨c, p, r, h1, h2, h3⟩ := ha
  obtain ⟨c', p', r', h1', h2', h3'⟩ := hb
  simp [vdwStep, VdwData.args, h1, h2, h3, h1', h2', h3', floatOf, bind, Except.bind, pure, Except.pure,
    vdwInit, VdwAtom.complete, vdwOf]

/-- **C33 (set-up).** When every present element has its parameters, `setup_vdw` adds to the pair
potentials, for each pair of present elements, the correction with the mixed coefficients. -/
theorem c33_setup (bohr hartree : ℝ) (els : String → VdwData) (present : List String)
    (hc : ∀ s ∈ present, ∃ c p r, (els s).Complete c p r) (hs : ∀ s ∈ present, ValidSym s) :
    ∃ adds : List PPAdd, setupVdw bohr hartree els present {} = .ok (ppRun bohr hartree adds) ∧
      (∀ a ∈ adds, a.Valid) ∧
      ∀ (sym : ℕ → String) (i j : ℕ), i < 10000 → j < 10000 → sym i ∈ present → sym j ∈ present →
        fullV (ppRun bohr hartree adds) sym i j = (vdwOf els (sym i) (sym j)).call := by
  let mk : String × String → PPAdd := fun q => ⟨.elements q.1 q.2, ⟨(vdwOf els q.1 q.2).call, 10⟩, false⟩
  have hfold : ∀ (l : List (String × String)) (st : PPState), (∀ q ∈ l, q.1 ∈ present ∧ q.2 ∈ present) →
      l.foldlM (vdwStep bohr hartree els) st
        = .ok ((l.map mk).foldl (fun st a => addPair bohr hartree st a.key a.p a.eVA) st) := by
    intro l
    induction l with
    | nil => intro st _; rfl
    | cons q l ih =>
      intro st hq
      have := hq q (by simp)
      rw [List.foldlM_cons, vdwStep_ok bohr hartree els st q.1 q.2 (hc _ this.1) (hc _ this.2)]
      exact ih _ fun q hq' => hq q (by simp [hq'])
  have hmem : ∀ q ∈ upperPairs present, q.1 ∈ present ∧ q.2 ∈ present := fun q hq => mem_upperPairs hq
  have hvalid : ∀ a ∈ (upperPairs present).map mk, a.Valid := by
    intro a ha
    obtain ⟨q, hq, rfl⟩ := List.mem_map.mp ha
    exact ⟨hs _ (hmem q hq).1, hs _ (hmem q hq).2⟩
  refine ⟨(upperPairs present).map mk, hfold _ _ hmem, hvalid, fun sym i j hi hj hsi hsj => ?_⟩
  funext der r
  rw [c32_history bohr hartree _ hvalid sym hi hj (hs _ hsi) (hs _ hsj)]
  have h1 : lastPot bohr hartree ((upperPairs present).map mk) (PPAdd.forAtoms i j) der r = 0 := by
    unfold lastPot
    have : ((upperPairs present).map mk).reverse.find? (PPAdd.forAtoms i j) = none := by
      rw [List.find?_eq_none]
      intro a ha
      obtain ⟨q, hq, rfl⟩ := List.mem_map.mp (List.mem_reverse.mp ha)
      simp [PPAdd.forAtoms, mk]
    rw [this]
  rw [h1, zero_add]
  unfold lastPot
  cases hf : ((upperPairs present).map mk).reverse.find? (PPAdd.forElements (sym i) (sym j)) with
  | none =>
    exfalso
    rw [List.find?_eq_none] at hf
    rcases upperPairs_complete hsi hsj with h | h
    · exact hf (mk _) (List.mem_reverse.mpr (List.mem_map_of_mem h)) (by simp [PPAdd.forElements, mk])
    · exact hf (mk _) (List.mem_reverse.mpr (List.mem_map_of_mem h)) (by simp [PPAdd.forElements, mk])
  | some a =>
    have hp := List.find?_some hf
    obtain ⟨q, hq, rfl⟩ := List.mem_map.mp (List.mem_reverse.mp (List.mem_of_find?_eq_some hf))
    simp only [PPAdd.forElements, mk, Bool.or_eq_true, Bool.and_eq_true, beq_iff_eq] at hp
    show (vdwOf els q.1 q.2).call der r = _
    rcases hp with hp | hp
    · rw [hp.1, hp.2]
    · rw [hp.1, hp.2, vdwOf_comm]

theorem updateVdw_none (els : String → VdwData) (pars : List (String × ℝ × ℝ)) (s : String)
    (hs : s ∈ pars.map Prod.fst) : (updateVdw els pars s).c6 = none := by
  unfold updateVdw
  have hkeep : ∀ (l : List (String × ℝ × ℝ)) (e : String → VdwData), (e s).c6 = none →
      (l.foldl (fun e q => Function.update e q.1 ((e q.1).update q.2.1 q.2.2)) e s).c6 = none := by
    intro l
    induction l with
    | nil => intro e h; exact h
    | cons q l ih =>
      intro e h
      refine ih _ ?_
      by_cases hq : s = q.1
      · show (Function.update e q.1 _ s).c6 = none
        rw [hq, Function.update_self]; rfl
      · show (Function.update e q.1 _ s).c6 = none
        rw [Function.update_of_ne hq]; exact h
  induction pars generalizing els with
  | nil => simp at hs
  | cons q l ih =>
    by_cases hq : s = q.1
    · refine hkeep l _ ?_
      show (Function.update els q.1 _ s).c6 = none
      rw [hq, Function.update_self]
      rfl
    · refine ih _ ?_
      rcases List.mem_cons.mp hs with h | h
      · exact absurd h hq
      · exact h

/-- **C33 (parameters given by the user, violated).** `vdw_parameters` for a present element forgets
its `C6`, which `setup_vdw` then asks for: it raises `TypeError` instead of using the parameters. -/
theorem c33_user_parameters_fails (bohr hartree : ℝ) (els : String → VdwData) (s : String)
    (present : List String) (pars : List (String × ℝ × ℝ)) (hs : s ∈ pars.map Prod.fst) (st : PPState) :
    setupVdw bohr hartree (updateVdw els pars) (s :: present) st = .error .typeError := by
  unfold setupVdw
  rw [upperPairs]
  show ((s, s) :: _).foldlM _ _ = _
  rw [List.foldlM_cons]
  simp [vdwStep, VdwData.args, updateVdw_none els pars s hs, floatOf, bind, Except.bind, throw, throwThe,
    MonadExceptOf.throw]

/-- Carbon-like and hydrogen-like parameters: the hypotheses of the theorems above hold. -/
example : ∃ els : String → VdwData, (∀ s ∈ ["C", "H"], ∃ c p r, (els s).Complete c p r) ∧
    (∀ s ∈ ["C", "H"], ValidSym s) ∧ (vdwOf els "C" "C").r0 = 3.8 ∧ 0 < (vdwOf els "C" "H").c6 := by
  refine ⟨fun s => if s = "C" then ⟨some 22, some 1.4, some 3.8, 4⟩ else ⟨some 2.8, some 0.4, some 3.1, 1⟩,
    fun s _ => ?_, fun s hs => ?_, ?_, ?_⟩
  · by_cases h : s = "C"
    · exact ⟨22, 1.4, 3.8, by simp [h, VdwData.Complete]⟩
    · exact ⟨2.8, 0.4, 3.1, by simp [h, VdwData.Complete]⟩
  · simp only [List.mem_cons, List.not_mem_nil, or_false] at hs
    rcases hs with rfl | rfl
    · exact ⟨'C', [], rfl, rfl, by simp⟩
    · exact ⟨'H', [], rfl, rfl, by simp⟩
  · simp [vdwOf, mixR0]; norm_num
  · simp [vdwOf, mixC6]; norm_num

end Hotbit
