import Verif.Lemmas.ForceAccuracy
import Verif.Props.Damping

/-!
# C141: converged results are near the exact ones
-/

set_option linter.unusedSimpArgs false

namespace Hotbit

open Matrix

variable {P : ScfIn} {A : Atoms} {elements : String → Option ElementData} {x : Setup P}

open scoped ComplexOrder in
/-- **C141.** Every structure has an exactly self-consistent solution. -/
theorem c141_exists (hfit : Fits P A elements) (hA : InversionClosed A) (hx : setupOf P A = .ok x) (hs : P.scc = true)
    (hpos : ∀ q E, EsEnergy P.cd P.bohr P.U P.w P.gcut A q E → 0 ≤ E) (hw : 0 < P.width) (hk : ∀ k, 0 < P.wk k)
    (h0 : 0 < P.nel) (h1 : P.nel < 2 * P.t.norb * ∑ k, P.wk k) (hH : ∀ k, (x.H0 k).IsHermitian)
    (hS : ∀ k, (x.S k).PosDef) : ∃ q e c mu, ExactSolution A x q e c mu :=
  exact_exists hfit hA hx hs hpos hw hk h0 h1 hH hS

/-- **C141.** It has only one: charges and energy are the same for all exact solutions. -/
theorem c141_unique (hfit : Fits P A elements) (hA : InversionClosed A) (hx : setupOf P A = .ok x) (hs : P.scc = true)
    (hpos : ∀ q E, EsEnergy P.cd P.bohr P.U P.w P.gcut A q E → 0 ≤ E) (hw : 0 < P.width) (hk : ∀ k, 0 < P.wk k)
    (hS : ∀ k, (x.S k).IsHermitian) {q q' e e' c c' mu mu'} (h : ExactSolution A x q e c mu)
    (h' : ExactSolution A x q' e' c' mu') : q = q' ∧ exactEnergy A x q e c mu = exactEnergy A x q' e' c' mu' := by
  obtain ⟨E1, E2⟩ := exact_iff.1 h
  obtain ⟨F1, F2⟩ := exact_iff.1 h'
  have hG : 0 ≤ stiffness P A := Finset.sum_nonneg fun i _ => Finset.sum_nonneg fun j _ => abs_nonneg _
  have hC : 0 < softness x := softness_pos hk
  obtain ⟨g1, g2⟩ := filledQ_gap hfit hw hk hS F1 E1
  rw [E2, F2] at g1 g2
  have b := (coco_error (gamMat_form hA hx hs hpos) dotForm_pos hG (matForm_le (gamMat P A)) (by positivity) g2).1
  rw [sub_self] at b
  have z : formLen (dotForm A.positions.length) 0 = 0 := by unfold formLen; simp
  rw [z, mul_zero] at b
  have hq : q = q' := sub_eq_zero.1 (norm_le_zero_iff.1 ((norm_le_len (q - q')).trans b))
  refine ⟨hq, ?_⟩
  subst hq
  rw [sub_self, map_zero, neg_zero] at g1
  have g0 := fillGap_nonneg (S := x.S) hk c c' (fun k a => smoothFermi P.width mu (e k a))
    (fun k a => smoothFermi P.width mu' (e' k a))
  have gz : fillGap P.wk x.S c c' (fun k a => smoothFermi P.width mu (e k a))
      (fun k a => smoothFermi P.width mu' (e' k a)) = 0 := by
    refine le_antisymm ?_ g0
    by_contra hcon
    push Not at hcon
    have := mul_pos (half_pos hw) hcon
    linarith
  have bg := band_gap hk x.H0 E1.states F1.states (fun k a => smoothFermi P.width mu (e k a))
    (fun k a => smoothFermi P.width mu' (e' k a))
  rw [gz, Real.sqrt_zero, mul_zero] at bg
  have := sub_eq_zero.1 (abs_nonpos_iff.1 bg)
  rw [exactEnergy_eq, exactEnergy_eq, this]

/-- **C141.** The mixers are truthful, for all parameters. -/
theorem c141_mixers {p : MixerParams} {N : ℕ} (hp : 0 < p.convergence) (T : ScfTools P (MixerState N)) :
    (∀ solve : {M : ℕ} → (Fin M → Fin M → ℝ) → (Fin M → ℝ) → Option (Fin M → ℝ),
      T.mix = listMixer (andersonCall p solve) → Truthful N T p.convergence) ∧
    ∀ inv : {M : ℕ} → (Fin M → Fin M → ℝ) → Option (Fin M → Fin M → ℝ),
      T.mix = listMixer (pulayCall p inv) → Truthful N T p.convergence := by
  refine ⟨fun solve h s a b hd i => ?_, fun inv h s a b hd i => ?_⟩
  · rw [h] at hd
    exact ((c18_anderson p hp solve s _ _).1 hd i).le
  · rw [h] at hd
    unfold listMixer pulayCall at hd
    simp only [Bool.and_eq_true, List.all_eq_true, decide_eq_true_eq] at hd
    have := hd.2 (maxAbs (vecOf N b - vecOf N a)) (by simp)
    exact ((maxAbs_lt _ _ hp).1 this i).le

open scoped ComplexOrder in
/-- **C141.** The charges of every calculation that returns are near those of the exact solution. -/
theorem c141_charges (hfit : Fits P A elements) (hA : InversionClosed A) (hs : P.scc = true)
    (hpos : ∀ q E, EsEnergy P.cd P.bohr P.U P.w P.gcut A q E → 0 ≤ E) (hw : 0 < P.width) (hk : ∀ k, 0 < P.wk k)
    (h0 : 0 < P.nel) (h1 : P.nel < 2 * P.t.norb * ∑ k, P.wk k) {z e c mu} (hex : ExactSolution A x z e c mu)
    {Mx : Type} {T : ScfTools P Mx} (hT : Solvable T x) {d : ℝ} (ht : Truthful A.positions.length T d)
    {p : Pass P} (hg : groundState T A = .ok (x, p)) (i : Fin A.positions.length) :
    |chg p.dq i - z i| ≤ chargeError A x d := by
  obtain ⟨hx, q, s, ho, hm⟩ := groundState_last hs hg
  obtain ⟨m, F, -, hy⟩ := pass_near hfit hx hs hw hk h0 h1 hT ho
  have n := (charges_near hfit hA hx hs hpos hw hk (fun k => (hT.posDef k).isHermitian) F hy (ht s q p.dq hm) hex).2.1
  exact (norm_le_pi_norm (vecOf _ p.dq - z) i).trans ((norm_le_len _).trans n)

/-- **C141.** So any two calculations give the same charges up to twice this error, whatever the mixers, the number
of iterations and the first guesses. -/
theorem c141_runs (hfit : Fits P A elements) (hA : InversionClosed A) (hs : P.scc = true)
    (hpos : ∀ q E, EsEnergy P.cd P.bohr P.U P.w P.gcut A q E → 0 ≤ E) (hw : 0 < P.width) (hk : ∀ k, 0 < P.wk k)
    (h0 : 0 < P.nel) (h1 : P.nel < 2 * P.t.norb * ∑ k, P.wk k) {Mx Mx' : Type} {T : ScfTools P Mx}
    {T' : ScfTools P Mx'} (hT : Solvable T x) (hT' : Solvable T' x) {d d' : ℝ} (ht : Truthful A.positions.length T d)
    (ht' : Truthful A.positions.length T' d') {p p' : Pass P} (hg : groundState T A = .ok (x, p))
    (hg' : groundState T' A = .ok (x, p')) (i : Fin A.positions.length) :
    |chg p.dq i - chg p'.dq i| ≤ chargeError A x d + chargeError A x d' := by
  obtain ⟨z, e, c, mu, hex⟩ := c141_exists hfit hA (groundState_last hs hg).1 hs hpos hw hk h0 h1 hT.hermitian hT.posDef
  have a := c141_charges hfit hA hs hpos hw hk h0 h1 hex hT ht hg i
  have b := c141_charges hfit hA hs hpos hw hk h0 h1 hex hT' ht' hg' i
  calc _ = |(chg p.dq i - z i) - (chg p'.dq i - z i)| := by congr 1; ring
    _ ≤ _ := (abs_sub _ _).trans (add_le_add a b)

set_option maxHeartbeats 1000000 in
open scoped ComplexOrder in
/-- **C141.** The energy of every calculation that returns is that of the exact solution up to a multiple of the limit of
convergence, with a factor that depends on the structure only. -/
theorem c141_energy (hfit : Fits P A elements) (hA : InversionClosed A) (hx : setupOf P A = .ok x) (hs : P.scc = true)
    (hpos : ∀ q E, EsEnergy P.cd P.bohr P.U P.w P.gcut A q E → 0 ≤ E) (hw : 0 < P.width) (hk : ∀ k, 0 < P.wk k)
    (h0 : 0 < P.nel) (h1 : P.nel < 2 * P.t.norb * ∑ k, P.wk k) {z e c mu} (hex : ExactSolution A x z e c mu) :
    ∃ K, ∀ (Mx : Type) (T : ScfTools P Mx) (d E : ℝ), Solvable T x → 0 ≤ d → Truthful A.positions.length T d →
      potentialEnergy T A = .ok E →
      |E - (exactEnergy A x z e c mu * P.hartree + repEnergyOf (P.geom A) P.V P.rmax P.hartree - P.efree * P.hartree)|
        ≤ K * ((d + occNoise P) * (1 + d + occNoise P)) := by
  have hG : 0 ≤ stiffness P A := Finset.sum_nonneg fun i _ => Finset.sum_nonneg fun j _ => abs_nonneg _
  have hC : 0 < softness x := softness_pos hk
  have hK : 0 ≤ enhancement A x := by unfold enhancement; positivity
  have hWk : 0 ≤ ∑ k, P.wk k := Finset.sum_nonneg fun k _ => (hk k).le
  have hocc : 0 ≤ occNoise P := by
    unfold occNoise
    have : 0 ≤ ∑ k, 1 / P.wk k := Finset.sum_nonneg fun k _ => one_div_nonneg.2 (hk k).le
    positivity
  have hb := bandScale_nonneg x
  have hZ : 0 ≤ formLen (dotForm A.positions.length) z := Real.sqrt_nonneg _
  set c0 : ℝ := √(P.t.norb ^ 2 * (popScale P.wk x.S * (P.t.norb * ∑ k, P.wk k))) with hc0
  have hc00 : 0 ≤ c0 := Real.sqrt_nonneg _
  have hν : chargeNoise x = c0 * occNoise P := by
    unfold chargeNoise
    rw [hc0]
    have e : (P.t.norb : ℝ) ^ 2 * (popScale P.wk x.S * (P.t.norb * (∑ k, P.wk k) * occNoise P ^ 2))
        = P.t.norb ^ 2 * (popScale P.wk x.S * (P.t.norb * ∑ k, P.wk k)) * occNoise P ^ 2 := by ring
    rw [e, Real.sqrt_mul' _ (sq_nonneg _), Real.sqrt_sq hocc]
  set ρ : ℝ := √A.positions.length + c0 with hρ
  have hρ0 : 0 ≤ ρ := by positivity
  set κ : ℝ := enhancement A x * ρ + c0 with hκ
  have hκ0 : 0 ≤ κ := by positivity
  set K1 : ℝ := bandScale P.wk x.H0 x.S * (√(P.t.norb * ∑ k, P.wk k)
    + √(2 * stiffness P A / P.width) * ((enhancement A x + 1) * ρ)) with hK1
  have hK1' : 0 ≤ K1 := by positivity
  refine ⟨|P.hartree| * (K1 + stiffness P A * (κ * (formLen (dotForm _) z + κ))), fun Mx T d E hT hd ht hE => ?_⟩
  obtain ⟨x', p, hg, hx', rfl⟩ := potentialEnergy_ok hs hE
  obtain rfl : x' = x := Except.ok.inj (hx'.symm.trans hx)
  obtain ⟨-, q, s, ho, hm⟩ := groundState_last hs hg
  obtain ⟨m, F, hf, hy⟩ := pass_near hfit hx hs hw hk h0 h1 hT ho
  have n := energy_near hfit hA hx hs hpos hw hk (fun k => (hT.posDef k).isHermitian) F hy hf (ht s q p.dq hm) hd hex
  set t : ℝ := d + occNoise P with ht'
  have ht0 : 0 ≤ t := by positivity
  have hR : √A.positions.length * d + chargeNoise x' ≤ ρ * t := by
    rw [hν, hρ, ht']
    have := Real.sqrt_nonneg (A.positions.length : ℝ)
    nlinarith [mul_nonneg this hocc, mul_nonneg hc00 hd]
  have hce : chargeError A x' d ≤ κ * t := by
    unfold chargeError
    have h2 := mul_le_mul_of_nonneg_left hR hK
    have h3 : chargeNoise x' ≤ c0 * t := by
      rw [hν, ht']
      nlinarith [mul_nonneg hc00 hd]
    rw [hκ]
    linarith
  have hce0 : 0 ≤ chargeError A x' d := by
    unfold chargeError
    have : 0 ≤ chargeNoise x' := Real.sqrt_nonneg _
    positivity
  have n1 : bandScale P.wk x'.H0 x'.S * (√(P.t.norb * ∑ k, P.wk k) * occNoise P
        + √(2 * stiffness P A / P.width) * ((enhancement A x' + 1) * (√A.positions.length * d + chargeNoise x')))
      ≤ K1 * t := by
    rw [hK1, mul_assoc]
    refine mul_le_mul_of_nonneg_left ?_ hb
    have u1 : √(P.t.norb * ∑ k, P.wk k) * occNoise P ≤ √(P.t.norb * ∑ k, P.wk k) * t :=
      mul_le_mul_of_nonneg_left (by rw [ht']; linarith) (Real.sqrt_nonneg _)
    have u2 : √(2 * stiffness P A / P.width) * ((enhancement A x' + 1) * (√A.positions.length * d + chargeNoise x'))
        ≤ √(2 * stiffness P A / P.width) * ((enhancement A x' + 1) * (ρ * t)) :=
      mul_le_mul_of_nonneg_left (mul_le_mul_of_nonneg_left hR (by positivity)) (Real.sqrt_nonneg _)
    calc _ ≤ _ := add_le_add u1 u2
      _ = _ := by ring
  have n2 : stiffness P A * (chargeError A x' d * (formLen (dotForm _) z + chargeError A x' d))
      ≤ stiffness P A * (κ * (formLen (dotForm _) z + κ)) * (t * (1 + t)) := by
    rw [mul_assoc]
    refine mul_le_mul_of_nonneg_left ?_ hG
    have h2 : formLen (dotForm _) z + chargeError A x' d ≤ (formLen (dotForm _) z + κ) * (1 + t) := by nlinarith
    calc _ ≤ (κ * t) * ((formLen (dotForm _) z + κ) * (1 + t)) :=
          mul_le_mul hce h2 (by positivity) (by positivity)
      _ = _ := by ring
  have n3 : K1 * t ≤ K1 * (t * (1 + t)) := mul_le_mul_of_nonneg_left (by nlinarith) hK1'
  have e1 : (bandSum P.wk x'.H0 p.wf p.f + matForm (gamMat P A) (vecOf _ p.dq) (vecOf _ p.dq) / 2) * P.hartree
        + repEnergyOf (P.geom A) P.V P.rmax P.hartree - P.efree * P.hartree
        - (exactEnergy A x' z e c mu * P.hartree + repEnergyOf (P.geom A) P.V P.rmax P.hartree - P.efree * P.hartree)
      = P.hartree * (bandSum P.wk x'.H0 p.wf p.f + matForm (gamMat P A) (vecOf _ p.dq) (vecOf _ p.dq) / 2
        - exactEnergy A x' z e c mu) := by ring
  have e2 : 1 + d + occNoise P = 1 + t := by rw [ht']; ring
  rw [e1, abs_mul, mul_assoc, e2]
  refine mul_le_mul_of_nonneg_left ?_ (abs_nonneg _)
  rw [add_mul]
  linarith

open scoped ComplexOrder in
/-- **C141.** Likewise the forces. -/
theorem c141_forces (hfit : Fits P A elements) (hA : InversionClosed A) (hx : setupOf P A = .ok x) (hs : P.scc = true)
    (hpos : ∀ q E, EsEnergy P.cd P.bohr P.U P.w P.gcut A q E → 0 ≤ E) (hw : 0 < P.width) (hk : ∀ k, 0 < P.wk k)
    (h0 : 0 < P.nel) (h1 : P.nel < 2 * P.t.norb * ∑ k, P.wk k) {z e c mu} (hex : ExactSolution A x z e c mu) :
    ∃ K, ∀ (Mx : Type) (T : ScfTools P Mx) (d : ℝ) (F : List Vec), Solvable T x → 0 ≤ d →
      Truthful A.positions.length T d → atomForces T A = .ok F → F.length = A.positions.length ∧
      ∀ i : Fin A.positions.length, ∀ b : Fin 3,
        |F.getD i 0 b - (exactForce A x z e c mu i b + repForces (P.geom A) P.V P.rmax i b) * (P.hartree / P.bohr)|
          ≤ K * ((d + occNoise P) * (1 + d + occNoise P)) := by
  by_cases hS : ∀ k, (x.S k).IsHermitian
  swap
  · exact ⟨0, fun Mx T d F hT => absurd (fun k => (hT.posDef k).isHermitian) hS⟩
  have ex := fun (i : Fin A.positions.length) (b : Fin 3) => close_forces hfit hA hx hs hpos hw hk hS hex b i.2
  choose K hK h using ex
  refine ⟨(∑ i, ∑ b, K i b) * |P.hartree / P.bohr|, fun Mx T d F hT hd ht hF => ?_⟩
  unfold atomForces at hF
  simp only [Bind.bind, Except.bind] at hF
  rcases hg : groundState T A with er | ⟨x', p⟩
  · rw [hg] at hF; cases hF
  rw [hg] at hF
  dsimp only at hF
  obtain ⟨hx', q, s, ho, hm⟩ := groundState_last hs hg
  obtain rfl : x' = x := Except.ok.inj (hx'.symm.trans hx)
  obtain ⟨m, Fl, hf, hy⟩ := pass_near hfit hx hs hw hk h0 h1 hT ho
  have hF' := Except.ok.inj hF
  have hp1 : p.h1 = some fun a b => (orbPot P A (vecOf _ q) a + orbPot P A (vecOf _ q) b) / 2 := by
    rw [onePass_h1 ho, Option.map_some]
    congr 1
    funext a b
    exact h1_setup hfit hx hs q a b
  let r : LastPass A x' := ⟨q, p, d, m, hd, Fl, hf, hy, ht s q p.dq hm, hp1⟩
  refine ⟨by rw [← hF']; simp, fun i b => ?_⟩
  have hr := h i b r
  have hle : K i b ≤ ∑ i, ∑ b, K i b :=
    (Finset.single_le_sum (f := fun b => K i b) (fun b _ => hK i b) (Finset.mem_univ b)).trans
      (Finset.single_le_sum (f := fun i => ∑ b, K i b) (fun i _ => Finset.sum_nonneg fun b _ => hK i b) (Finset.mem_univ i))
  have ht0 : 0 ≤ r.t := add_nonneg hd (occNoise_nonneg hk)
  have hFi : F.getD i 0 b = ((bandForces P.wk (fun k => dHfull (x'.dH0 b k) (x'.dS b k) p.h1) (x'.dS b) p.rho p.rhoe
      P.t.blocks).getD i 0 + repForces (P.geom A) P.V P.rmax i b + gammaForces P.scc A.positions.length
      (corrDMatrix P.cd P.bohr P.w x'.nb) P.bohr (dcField P.gcut p.dq (some x'.nb)) (chg p.dq) i b)
        * (P.hartree / P.bohr) := by
    rw [← hF', List.getD_eq_getElem?_getD, List.getElem?_eq_getElem (by simp), Option.getD_some, List.getElem_map]
    simp only [List.getElem_range]
  have e1 : ∀ u v g w y : ℝ, (u + v + g) * w - (y + v) * w = (u + g - y) * w := by intros; ring
  rw [hFi, e1, abs_mul, show 1 + d + occNoise P = 1 + r.t by show _ = 1 + (d + occNoise P); ring, mul_right_comm]
  refine mul_le_mul_of_nonneg_right (hr.trans ?_) (abs_nonneg _)
  exact mul_le_mul_of_nonneg_right hle (by positivity)

/-- The two atoms: calculations from all guesses return, and there is an exact solution. -/
theorem exOpp2_ground (J : SkJunk) : ∃ (d : ℝ) (x : Setup (exOppIn2 J)), 0 < d ∧ setupOf (exOppIn2 J) exOpp2 = .ok x ∧
    (∃ q e c mu, ExactSolution exOpp2 x q e c mu) ∧
    ∀ a b : ℝ, ∃ (T : ScfTools (exOppIn2 J) (MixerState 2)) (p : Pass (exOppIn2 J)), T.guess = [a, b] ∧ Solvable T x ∧
      Truthful 2 T d ∧ groundState T exOpp2 = .ok (x, p) := by
  obtain ⟨p, x, L, hx, hp, hm, hc, hb, hk, h1, hpos, hT⟩ := exOpp2_slow J
  have hw : 0 < (exOppIn2 J).width := by simp [exOppIn2, exRowIn2, exRowIn]
  have h0 : 0 < (exOppIn2 J).nel := by simp [exOppIn2, exRowIn2]
  have hG : 0 ≤ stiffness (exOppIn2 J) exOpp2 := Finset.sum_nonneg fun i _ => Finset.sum_nonneg fun j _ => abs_nonneg _
  have hC : 0 < softness x := softness_pos hk
  have hd : 0 < p.convergence := by
    refine lt_of_le_of_lt ?_ hp.limit
    have : 0 ≤ chargeNoise x := Real.sqrt_nonneg _
    have := hp.beta.1
    positivity
  set mix := listMixer (andersonCall (n := 2) p fun _ _ => none) with hmix
  refine ⟨p.convergence, x, hd, hx, ?_, fun a b => ?_⟩
  · exact c141_exists (exOpp2_fits J) (Or.inl rfl) hx rfl hpos hw hk h0 h1 (hT mix).hermitian (hT mix).posDef
  · obtain ⟨n, hn⟩ := c140_converges (exOpp2_fits J) (Or.inl rfl) hx rfl hpos hw hk
      (show 0 < 1 by norm_num) h0 h1 hp hm.le hc (fun _ _ => none) (hT mix) rfl hb
      (show ([1, 1] : List ℝ).sum - 2 = 0 by norm_num) (show (1e-10 : ℝ) ≤ 1 by norm_num) [a, b] rfl
    obtain ⟨r, hr⟩ := hn (n + 1) (by omega)
    obtain ⟨-, -, c1, s, c2⟩ := c15_scc _ _ (by omega) _ _ _ _ hr
    rcases ho : onePass (⟨L, 0, exRoot, mix, .reset, 0, [], []⟩ : ScfTools (exOppIn2 J) (MixerState 2)) x 2
        (some r.charges) with e | pp
    · have : (onePass (⟨L, 0, exRoot, mix, .reset, 0, [], []⟩ : ScfTools (exOppIn2 J) (MixerState 2)) x 2
        (some r.charges)).map some = .ok r.states := c1
      rw [ho] at this
      cases this
    have hst : some pp = r.states := by
      have : (onePass (⟨L, 0, exRoot, mix, .reset, 0, [], []⟩ : ScfTools (exOppIn2 J) (MixerState 2)) x 2
        (some r.charges)).map some = .ok r.states := c1
      rw [ho] at this
      exact Except.ok.inj this
    obtain ⟨m, hm'⟩ := exists_nat_ge ((pp.dq.map fun t => |t|).sum)
    have hle : ∀ t ∈ pp.dq, |t| ≤ m := fun t ht => le_trans
      (List.single_le_sum (l := pp.dq.map fun t => |t|) (by simp) _ (List.mem_map_of_mem ht)) hm'
    set T : ScfTools (exOppIn2 J) (MixerState 2) := ⟨L, 0, exRoot, mix, .reset, n + 1, [a, b], [m, m]⟩ with hTdef
    have hS : Solvable T x := ⟨(hT mix).two, (hT mix).lapack, (hT mix).tol, (hT mix).hermitian, (hT mix).posDef⟩
    refine ⟨T, pp, rfl, hS, (c141_mixers hd T).1 _ rfl, ?_⟩
    have hr' : getStates (scfEnv T x exOpp2.positions.length) (exOppIn2 J).scc T.maxiter none T.mx T.guess = .ok r := hr
    unfold groundState
    rw [hx]
    simp only [Bind.bind, Except.bind]
    rw [hr']
    dsimp only
    rw [← hst]
    dsimp only
    rw [(onePass_parts ho).2]
    dsimp only
    have hck : checkMulliken pp.dq T.Z = .ok () := by
      unfold checkMulliken
      rw [if_neg]
      intro h
      rw [List.any_eq_true] at h
      obtain ⟨t, ht, hh⟩ := h
      have t1 := hle _ (List.of_mem_zip ht).1
      have t2 : t.2 = m := by
        have := (List.of_mem_zip ht).2
        simpa [hTdef] using this
      rw [t2, Bool.or_eq_true, decide_eq_true_eq, decide_eq_true_eq] at hh
      have := abs_le.1 t1
      rcases hh with hh | hh <;> linarith
    rw [hck]
    rfl

/-- Hypotheses of the theorems: two atoms with charge transfer, from any two guesses. -/
example (J : SkJunk) : ∃ (d : ℝ) (x : Setup (exOppIn2 J)), 0 < d ∧ ∀ a b a' b' : ℝ,
    ∃ (T T' : ScfTools (exOppIn2 J) (MixerState 2)) (p p' : Pass (exOppIn2 J)), T.guess = [a, b] ∧ T'.guess = [a', b'] ∧
      groundState T exOpp2 = .ok (x, p) ∧ groundState T' exOpp2 = .ok (x, p') ∧
      ∀ i : Fin 2, |chg p.dq i - chg p'.dq i| ≤ chargeError exOpp2 x d + chargeError exOpp2 x d := by
  obtain ⟨d, x, hd, hx, -, h⟩ := exOpp2_ground J
  obtain ⟨-, -, -, -, -, -, -, -, hk, h1, hpos, -⟩ := exOpp2_slow J
  refine ⟨d, x, hd, fun a b a' b' => ?_⟩
  obtain ⟨T, p, g, hT, ht, hg⟩ := h a b
  obtain ⟨T', p', g', hT', ht', hg'⟩ := h a' b'
  exact ⟨T, T', p, p', g, g', hg, hg', c141_runs (exOpp2_fits J) (Or.inl rfl) rfl hpos
    (by simp [exOppIn2, exRowIn2, exRowIn]) hk (by simp [exOppIn2, exRowIn2]) h1 hT hT' ht ht' hg hg'⟩

/-- The same for the exact solution. -/
example (J : SkJunk) : ∃ (d : ℝ) (x : Setup (exOppIn2 J)), 0 < d ∧ ∃ z e c mu, ExactSolution exOpp2 x z e c mu ∧ ∀ a b : ℝ,
    ∃ (T : ScfTools (exOppIn2 J) (MixerState 2)) (p : Pass (exOppIn2 J)), T.guess = [a, b] ∧
      groundState T exOpp2 = .ok (x, p) ∧ ∀ i : Fin 2, |chg p.dq i - z i| ≤ chargeError exOpp2 x d := by
  obtain ⟨d, x, hd, hx, ⟨z, e, c, mu, hex⟩, h⟩ := exOpp2_ground J
  obtain ⟨-, -, -, -, -, -, -, -, hk, h1, hpos, -⟩ := exOpp2_slow J
  refine ⟨d, x, hd, z, e, c, mu, hex, fun a b => ?_⟩
  obtain ⟨T, p, g, hT, ht, hg⟩ := h a b
  exact ⟨T, p, g, hg, c141_charges (exOpp2_fits J) (Or.inl rfl) rfl hpos
    (by simp [exOppIn2, exRowIn2, exRowIn]) hk (by simp [exOppIn2, exRowIn2]) h1 hex hT ht hg⟩

/-- A calculation of the two atoms that returns also gives an energy. -/
theorem exOpp2_energy (J : SkJunk) {T : ScfTools (exOppIn2 J) (MixerState 2)} {x : Setup (exOppIn2 J)}
    {p : Pass (exOppIn2 J)} (hT : Solvable T x) (hg : groundState T exOpp2 = .ok (x, p)) :
    ∃ E, potentialEnergy T exOpp2 = .ok E := by
  have hrep : ∃ e, repEnergy ((exOppIn2 J).geom exOpp2) (exOppIn2 J).V (exOppIn2 J).rmax (exOppIn2 J).hartree = .ok e := by
    obtain ⟨r, hr, hmu, -, E, hE⟩ := exOpp_converged J
    obtain ⟨r', h1, h2, -, -, h5⟩ := c134_sector (exOpp_calc J) (exOpp_fits J) (exOpp2_fits J) hr
    have h := h5 E (show 0 < 1 by norm_num) hE
    unfold ScfRun.energy at h
    simp only [Bind.bind, Except.bind] at h
    cases hb : repEnergy ((exOppIn2 J).geom exOpp2) (exOppIn2 J).V (exOppIn2 J).rmax (exOppIn2 J).hartree with
    | ok e => exact ⟨e, rfl⟩
    | error e =>
      rw [hb] at h
      split at h <;> cases h
  obtain ⟨e, he⟩ := hrep
  have hb : (∑ k, ((exOppIn2 J).wk k : ℂ) * ∑ i, rowDot (p.rho k) (x.H0 k) i).im < (exOppIn2 J).tolIm := by
    rw [Complex.im_sum]
    refine lt_of_eq_of_lt (Finset.sum_eq_zero fun k _ => ?_) (show (0 : ℝ) < 1 by norm_num)
    have := trace_real (c20_hermitian (p.wf k) (p.f k) 0).1 (hT.hermitian k)
    rw [Complex.mul_im, Complex.ofReal_im, zero_mul, add_zero]
    exact mul_eq_zero_of_right _ this
  unfold potentialEnergy bandEnergy
  rw [hg]
  simp only [Bind.bind, Except.bind]
  rw [if_pos hb]
  dsimp only
  rw [he]
  exact ⟨_, rfl⟩

/-- Hypotheses of `c141_energy`: the energies of the calculations of the two atoms, from all guesses. -/
example (J : SkJunk) : ∃ d E0 K : ℝ, 0 < d ∧ ∀ a b : ℝ,
    ∃ (T : ScfTools (exOppIn2 J) (MixerState 2)) (E : ℝ), T.guess = [a, b] ∧ potentialEnergy T exOpp2 = .ok E ∧
      |E - E0| ≤ K * ((d + occNoise (exOppIn2 J)) * (1 + d + occNoise (exOppIn2 J))) := by
  obtain ⟨d, x, hd, hx, ⟨z, e, c, mu, hex⟩, h⟩ := exOpp2_ground J
  obtain ⟨-, -, -, -, -, -, -, -, hk, h1, hpos, -⟩ := exOpp2_slow J
  obtain ⟨K, hK⟩ := c141_energy (exOpp2_fits J) (Or.inl rfl) hx rfl hpos
    (by simp [exOppIn2, exRowIn2, exRowIn]) hk (by simp [exOppIn2, exRowIn2]) h1 hex
  refine ⟨d, exactEnergy exOpp2 x z e c mu * (exOppIn2 J).hartree + repEnergyOf ((exOppIn2 J).geom exOpp2) (exOppIn2 J).V
    (exOppIn2 J).rmax (exOppIn2 J).hartree - (exOppIn2 J).efree * (exOppIn2 J).hartree, K, hd, fun a b => ?_⟩
  obtain ⟨T, p, g, hT, ht, hg⟩ := h a b
  obtain ⟨E, hE⟩ := exOpp2_energy J hT hg
  exact ⟨T, E, g, hE, hK _ T d E hT hd.le ht hE⟩

/-- Hypotheses of `c141_forces`: the forces of the calculations of the two atoms, from all guesses. -/
example (J : SkJunk) : ∃ (d K : ℝ) (F0 : Fin 2 → Fin 3 → ℝ), 0 < d ∧ ∀ a b : ℝ,
    ∃ (T : ScfTools (exOppIn2 J) (MixerState 2)) (F : List Vec), T.guess = [a, b] ∧ atomForces T exOpp2 = .ok F ∧
      F.length = 2 ∧ ∀ (i : Fin 2) (u : Fin 3),
        |F.getD i 0 u - F0 i u| ≤ K * ((d + occNoise (exOppIn2 J)) * (1 + d + occNoise (exOppIn2 J))) := by
  obtain ⟨d, x, hd, hx, ⟨z, e, c, mu, hex⟩, h⟩ := exOpp2_ground J
  obtain ⟨-, -, -, -, -, -, -, -, hk, h1, hpos, -⟩ := exOpp2_slow J
  obtain ⟨K, hK⟩ := c141_forces (exOpp2_fits J) (Or.inl rfl) hx rfl hpos
    (by simp [exOppIn2, exRowIn2, exRowIn]) hk (by simp [exOppIn2, exRowIn2]) h1 hex
  refine ⟨d, K, fun i u => (exactForce exOpp2 x z e c mu i u + repForces ((exOppIn2 J).geom exOpp2) (exOppIn2 J).V
    (exOppIn2 J).rmax i u) * ((exOppIn2 J).hartree / (exOppIn2 J).bohr), hd, fun a b => ?_⟩
  obtain ⟨T, p, g, hT, ht, hg⟩ := h a b
  have hF : ∃ F, atomForces T exOpp2 = .ok F := by
    unfold atomForces
    rw [hg]
    exact ⟨_, rfl⟩
  obtain ⟨F, hF⟩ := hF
  obtain ⟨l, k⟩ := hK _ T d F hT hd.le ht hF
  exact ⟨T, F, g, hF, l, k⟩

end Hotbit
