import Verif.Props.SlaterKoster
import Verif.Lemmas.PairSum
import Mathlib.Analysis.Calculus.Deriv.Inv

/-!
# C30 (derivatives): the derivative arrays of the Slater–Koster routine
-/

set_option linter.unusedSimpArgs false

namespace Hotbit

open Matrix

/-- `gradCubic` is the gradient of `cubic`: derivative along any curve. -/
theorem cubic_hasDerivAt (ρ : ℝ → Vec) (v : Vec) (t : ℝ)
    (hρ : ∀ c, HasDerivAt (fun t => ρ t c) (v c) t) (a : Fin 9) :
    HasDerivAt (fun t => cubic a (ρ t)) (cubicD a (ρ t) v) t := by
  have h0 := hρ 0
  have h1 := hρ 1
  have h2 := hρ 2
  fin_cases a
  · simpa [cubic, cubicD, gradCubic, Fin.sum_univ_three] using hasDerivAt_const t (1 : ℝ)
  · simpa [cubic, cubicD, gradCubic, Fin.sum_univ_three] using h0
  · simpa [cubic, cubicD, gradCubic, Fin.sum_univ_three] using h1
  · simpa [cubic, cubicD, gradCubic, Fin.sum_univ_three] using h2
  · have := (h0.const_mul (Real.sqrt 3)).fun_mul h1
    simp only [cubic, cubicD, gradCubic, Fin.sum_univ_three]
    exact this.congr_deriv (by simp; ring)
  · have := (h1.const_mul (Real.sqrt 3)).fun_mul h2
    simp only [cubic, cubicD, gradCubic, Fin.sum_univ_three]
    exact this.congr_deriv (by simp; ring)
  · have := (h2.const_mul (Real.sqrt 3)).fun_mul h0
    simp only [cubic, cubicD, gradCubic, Fin.sum_univ_three]
    exact this.congr_deriv (by simp; ring)
  · have := ((h0.fun_pow 2).fun_sub (h1.fun_pow 2)).const_mul (Real.sqrt 3 / 2)
    simp only [cubic, cubicD, gradCubic, Fin.sum_univ_three]
    exact this.congr_deriv (by simp; ring)
  · have := (h2.fun_pow 2).fun_sub (((h0.fun_pow 2).fun_add (h1.fun_pow 2)).div_const 2)
    simp only [cubic, cubicD, gradCubic, Fin.sum_univ_three]
    exact this.congr_deriv (by simp; ring)

theorem gradCubic_hasDerivAt (ρ : ℝ → Vec) (v : Vec) (t : ℝ)
    (hρ : ∀ c, HasDerivAt (fun t => ρ t c) (v c) t) (a : Fin 9) (c : Fin 3) :
    HasDerivAt (fun t => gradCubic a (ρ t) c) (gradD a v c) t := by
  rcases orb_cases a with rfl | ⟨i, rfl⟩ | ⟨i, rfl⟩
  · simpa [gradD] using hasDerivAt_const t (0 : ℝ)
  · simpa [gradD] using hasDerivAt_const t (if i = c then (1 : ℝ) else 0)
  · have : gradD (dOrb i) v c = ((2 : ℝ) • (quadOrb i *ᵥ v)) c := by simp [gradD, gradCubic_d]
    rw [this]
    simp only [gradCubic_d, Pi.smul_apply, Matrix.mulVec, dotProduct, smul_eq_mul]
    refine HasDerivAt.const_mul 2 ?_
    refine HasDerivAt.fun_sum fun d _ => ?_
    exact (hρ d).const_mul _

theorem sphGrad_hasDerivAt (ρ : ℝ → Vec) (v : Vec) (t : ℝ)
    (hρ : ∀ c, HasDerivAt (fun t => ρ t c) (v c) t) (a : Fin 9) (c : Fin 3) :
    HasDerivAt (fun t => sphGrad a (ρ t) c) (sphGradD a (ρ t) v c) t := by
  unfold sphGrad sphGradD
  refine (gradCubic_hasDerivAt ρ v t hρ a c).fun_sub ?_
  exact ((cubic_hasDerivAt ρ v t hρ a).const_mul _).fun_mul (hρ c)

theorem skCoef_hasDerivAt (ρ : ℝ → Vec) (v : Vec) (t : ℝ)
    (hρ : ∀ c, HasDerivAt (fun t => ρ t c) (v c) t) (k : Fin 3) (a b : Fin 9) :
    HasDerivAt (fun t => skCoef k a b (ρ t)) (skCoefD k a b (ρ t) v) t := by
  have hs := (cubic_hasDerivAt ρ v t hρ a).fun_mul (cubic_hasDerivAt ρ v t hρ b)
  have hp : HasDerivAt (fun t => (∑ i, sphGrad a (ρ t) i * sphGrad b (ρ t) i)
      / (piNorm (orbL a) * piNorm (orbL b)))
      ((∑ i, (sphGradD a (ρ t) v i * sphGrad b (ρ t) i + sphGrad a (ρ t) i * sphGradD b (ρ t) v i))
        / (piNorm (orbL a) * piNorm (orbL b))) t := by
    refine HasDerivAt.div_const ?_ _
    refine HasDerivAt.fun_sum fun i _ => ?_
    exact (sphGrad_hasDerivAt ρ v t hρ a i).fun_mul (sphGrad_hasDerivAt ρ v t hρ b i)
  unfold skCoef skCoefD
  fin_cases k
  · exact hs
  · exact hp
  · have := (((hasDerivAt_const t (if a = b then (1 : ℝ) else 0)).fun_sub hs).fun_sub hp)
    rw [zero_sub] at this
    exact this

/-- Direction and derivative-of-direction relations. -/
theorem unitDir_hasDerivAt (d : Vec) (hd : d ≠ 0) (c a : Fin 3) :
    HasDerivAt (fun t : ℝ => ((norm3 (d + t • Pi.single c 1))⁻¹ • (d + t • Pi.single c 1 : Vec)) a)
      (skDcos ((norm3 d)⁻¹ • d) (norm3 d) a c) 0 := by
  have hn := (norm3_pos hd).ne'
  have h1 := norm3_hasDerivAt d (Pi.single c 1) hd
  have h2 : HasDerivAt (fun t : ℝ => (d + t • Pi.single c 1 : Vec) a)
      ((Pi.single c 1 : Vec) a) 0 := by
    simpa using ((hasDerivAt_id (0 : ℝ)).mul_const ((Pi.single c 1 : Vec) a)).const_add (d a)
  have h3 := (h1.fun_inv (by simpa using hn)).fun_mul h2
  simp only [Pi.smul_apply, smul_eq_mul] at h3 ⊢
  refine h3.congr_deriv ?_
  unfold skDcos
  by_cases h : a = c
  · subst h
    simp
    field_simp
    ring
  · simp [h]
    field_simp

theorem skCoefD_symm (k : Fin 3) (a b : Fin 9) (r v : Vec) :
    skCoefD k a b r v = skCoefD k b a r v := by
  have h : (∑ i, (sphGradD a r v i * sphGrad b r i + sphGrad a r i * sphGradD b r v i))
      = ∑ i, (sphGradD b r v i * sphGrad a r i + sphGrad b r i * sphGradD a r v i) :=
    Finset.sum_congr rfl fun i _ => by ring
  have h' : cubicD a r v * cubic b r + cubic a r * cubicD b r v
      = cubicD b r v * cubic a r + cubic b r * cubicD a r v := by ring
  unfold skCoefD
  rw [h, h', mul_comm (piNorm (orbL a))]

theorem skDcos_tangent (r : Vec) (hr : r 0 ^ 2 + r 1 ^ 2 + r 2 ^ 2 = 1) (dist : ℝ) (c : Fin 3) :
    r 0 * skDcos r dist 0 c + r 1 * skDcos r dist 1 c + r 2 * skDcos r dist 2 c = 0 := by
  unfold skDcos
  have e : ∀ a b c' : ℝ, r 0 * ((a - r 0 * r c) / dist) + r 1 * ((b - r 1 * r c) / dist)
      + r 2 * ((c' - r 2 * r c) / dist)
      = (r 0 * a + r 1 * b + r 2 * c' - (r 0 ^ 2 + r 1 ^ 2 + r 2 ^ 2) * r c) / dist := by
    intro a b c'; ring
  rw [e, hr]
  fin_cases c <;> simp

theorem skDer_clean (J : SkJunk) (r : Vec) (hr : r 0 ^ 2 + r 1 ^ 2 + r 2 ^ 2 = 1) (dist : ℝ)
    {noi noj : ℕ} (hi : ValidNo noi) (hj : ValidNo noj) {i j : Fin 9} (hin : i.val < noi)
    (hjn : j.val < noj) {k : Fin 3} (hk : k.val < skCnt i j) (c : Fin 3) :
    skDer J (max noi noj) r dist c i j k = skCoefD k i j r (fun a => skDcos r dist a c) := by
  unfold skDer
  rw [skCell_clean _ _ hi hj hin hjn hk]
  have ht := skDcos_tangent r hr dist c
  by_cases h : i ≤ j
  · rw [if_pos h]
    exact skDTab_spec r (fun a => skDcos r dist a c) hr ht i j h k hk
  · rw [if_neg h, skCoefD_symm]
    exact skDTab_spec r (fun a => skDcos r dist a c) hr ht j i (le_of_not_ge h) k
      (by rw [skCnt_symm]; exact hk)

/-- The call that `get_matrices` makes for a bond vector `x` (/repo/hotbit/interactions.py lines
337-358): unit vector, length, interpolated integrals `H`, and their gradients
`outer(dH, x/|x|)`. -/
noncomputable def slakoAt (J : SkJunk) (noi noj : ℕ) (H dH : ℝ → Fin 14 → ℝ) (x : Vec) :
    Except Exn SkOut :=
  fastSlako J noi noj ((norm3 x)⁻¹ • x) (norm3 x) (H (norm3 x))
    (fun q a => dH (norm3 x) q * ((norm3 x)⁻¹ • x) a)

/-- Element of the returned block (0 if the call failed). -/
noncomputable def htOf (e : Except Exn SkOut) (i j : Fin 9) : ℝ :=
  match e with
  | .ok o => o.ht i j
  | .error _ => 0

theorem unit_dir {x : Vec} (hx : x ≠ 0) :
    ((norm3 x)⁻¹ • x) 0 ^ 2 + ((norm3 x)⁻¹ • x) 1 ^ 2 + ((norm3 x)⁻¹ • x) 2 ^ 2 = 1 := by
  have h := norm3_sq x
  have hn := (norm3_pos hx).ne'
  simp only [Pi.smul_apply, smul_eq_mul]
  field_simp
  linarith

theorem slakoAt_ok (J : SkJunk) {noi noj : ℕ} (hi : ValidNo noi) (hj : ValidNo noj)
    (H dH : ℝ → Fin 14 → ℝ) (x : Vec) : slakoAt J noi noj H dH x
      = .ok ⟨skElem J noi noj ((norm3 x)⁻¹ • x) (H (norm3 x)),
        skDElem J noi noj ((norm3 x)⁻¹ • x) (norm3 x) (H (norm3 x))
          (fun q a => dH (norm3 x) q * ((norm3 x)⁻¹ • x) a)⟩ := by
  unfold slakoAt fastSlako
  rw [if_neg, if_neg]
  · rintro ⟨h1, h2, h3⟩; rcases hj with rfl | rfl | rfl <;> contradiction
  · rintro ⟨h1, h2, h3⟩; rcases hi with rfl | rfl | rfl <;> contradiction

/-- **C30 (derivatives).** If the interpolated integrals are differentiable at the bond length and
`dH` is their derivative, then the array `dht[i,j,c]` is the partial derivative of `ht[i,j]` with
respect to component `c` of the bond vector. -/
theorem c30_gradient (J : SkJunk) {noi noj : ℕ} (hi : ValidNo noi) (hj : ValidNo noj)
    (H dH : ℝ → Fin 14 → ℝ) (x : Vec) (hx : x ≠ 0)
    (hH : ∀ q, HasDerivAt (fun d => H d q) (dH (norm3 x) q) (norm3 x))
    (i j : Fin 9) (hin : i.val < noi) (hjn : j.val < noj) (c : Fin 3) :
    ∃ o, slakoAt J noi noj H dH x = .ok o ∧
      HasDerivAt (fun t : ℝ => htOf (slakoAt J noi noj H dH (x + t • Pi.single c 1)) i j)
        (o.dht i j c) 0 := by
  refine ⟨_, slakoAt_ok J hi hj H dH x, ?_⟩
  have hn := (norm3_pos hx).ne'
  have hρ := fun a => unitDir_hasDerivAt x hx c a
  have hnorm := norm3_hasDerivAt x (Pi.single c 1) hx
  have hev : ∀ᶠ t : ℝ in nhds 0, (x + t • Pi.single c 1 : Vec) ≠ 0 := by
    have hc := hnorm.continuousAt
    have : ∀ᶠ t : ℝ in nhds 0, norm3 (x + t • Pi.single c 1) ≠ 0 :=
      hc.eventually_ne (by simpa using hn)
    filter_upwards [this] with t ht h0
    rw [h0] at ht
    exact ht (norm3_eq_zero.2 rfl)
  have hfun : (fun t : ℝ => htOf (slakoAt J noi noj H dH (x + t • Pi.single c 1)) i j)
      =ᶠ[nhds 0] fun t : ℝ => ∑ k : Fin 3, if k.val < skCnt i j then
        H (norm3 (x + t • Pi.single c 1)) (skIntegralIndex (orbL i) (orbL j) k)
          * skCoef k i j ((norm3 (x + t • Pi.single c 1))⁻¹ • (x + t • Pi.single c 1)) else 0 := by
    filter_upwards [hev] with t ht
    rw [slakoAt_ok J hi hj, htOf]
    show skElem J noi noj _ _ i j = _
    rw [skElem_spec J _ (unit_dir ht) hi hj _ hin hjn]
    unfold skSpec intOf
    refine Finset.sum_congr rfl fun k _ => ?_
    by_cases hk : k.val < skCnt i j
    · rw [if_pos hk, if_pos (by rw [skCnt_eq] at hk; omega)]
    · rw [if_neg hk, if_neg (by rw [skCnt_eq] at hk; omega)]
  refine HasDerivAt.congr_of_eventuallyEq ?_ hfun
  dsimp only
  unfold skDElem
  refine HasDerivAt.fun_sum fun k _ => ?_
  by_cases hk : k.val < skCnt i j
  · simp only [if_pos hk]
    rw [skMat_clean J _ (unit_dir hx) hi hj hin hjn hk, skInd_clean J.ind hi hj hin hjn hk,
      skDer_clean J _ (unit_dir hx) _ hi hj hin hjn hk]
    have h1 : HasDerivAt (fun t : ℝ => H (norm3 (x + t • Pi.single c 1))
        (skIntegralIndex (orbL i) (orbL j) k))
        (dH (norm3 x) (skIntegralIndex (orbL i) (orbL j) k) * (((norm3 x)⁻¹ • x) ⬝ᵥ Pi.single c 1)) 0 := by
      have h0 : norm3 x = norm3 (x + (0 : ℝ) • Pi.single c 1) := by simp
      have hq := hH (skIntegralIndex (orbL i) (orbL j) k)
      rw [h0] at hq
      have := HasDerivAt.comp (0 : ℝ) hq hnorm
      rw [← h0] at this
      exact this
    have h2 := skCoef_hasDerivAt
      (fun t : ℝ => (norm3 (x + t • Pi.single c 1))⁻¹ • (x + t • Pi.single c 1 : Vec))
      (fun a => skDcos ((norm3 x)⁻¹ • x) (norm3 x) a c) 0 hρ k i j
    refine (h1.fun_mul h2).congr_deriv ?_
    simp
    ring
  · simp only [if_neg hk]
    exact hasDerivAt_const _ _

example : ValidNo 9 ∧ (![0, 3, 4] : Vec) ≠ 0 ∧
    ∀ q : Fin 14, HasDerivAt (fun d : ℝ => (fun d (q : Fin 14) => d ^ 2 * (q.val : ℝ)) d q)
      ((fun d (q : Fin 14) => 2 * d * (q.val : ℝ)) (norm3 ![0, 3, 4]) q) (norm3 ![0, 3, 4]) := by
  refine ⟨Or.inr (Or.inr rfl), ?_, ?_⟩
  · intro h; have := congrFun h 1; simp at this
  · intro q
    refine ((hasDerivAt_pow 2 (norm3 ![0, 3, 4])).mul_const (q.val : ℝ)).congr_deriv ?_
    simp

end Hotbit
