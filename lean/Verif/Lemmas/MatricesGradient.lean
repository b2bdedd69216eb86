import Verif.Props.MatricesRaise
import Verif.Props.SkGradient

/-!
# Derivatives of the blocks along a direction
-/

set_option linter.unusedSimpArgs false

namespace Hotbit

open Matrix

theorem unitDir_hasDerivAt_dir (d w : Vec) (hd : d ≠ 0) (a : Fin 3) :
    HasDerivAt (fun t : ℝ => ((norm3 (d + t • w))⁻¹ • (d + t • w : Vec)) a)
      (∑ c, w c * skDcos ((norm3 d)⁻¹ • d) (norm3 d) a c) 0 := by
  have hn := (norm3_pos hd).ne'
  have h1 := norm3_hasDerivAt d w hd
  have h2 : HasDerivAt (fun t : ℝ => (d + t • w : Vec) a) (w a) 0 := by
    simpa using ((hasDerivAt_id (0 : ℝ)).mul_const (w a)).const_add (d a)
  have h3 := (h1.fun_inv (by simpa using hn)).fun_mul h2
  simp only [Pi.smul_apply, smul_eq_mul] at h3 ⊢
  refine h3.congr_deriv ?_
  unfold skDcos
  simp only [zero_smul, add_zero, dotProduct, Fin.sum_univ_three, Pi.smul_apply, smul_eq_mul]
  fin_cases a <;> simp <;> field_simp <;> ring

theorem cubicD_sum (a : Fin 9) (r w : Vec) (V : Fin 3 → Vec) :
    cubicD a r (fun x => ∑ c, w c * V c x) = ∑ c, w c * cubicD a r (V c) := by
  unfold cubicD
  simp only [Fin.sum_univ_three]
  ring

theorem gradD_sum (a : Fin 9) (w : Vec) (V : Fin 3 → Vec) (i : Fin 3) :
    gradD a (fun x => ∑ c, w c * V c x) i = ∑ c, w c * gradD a (V c) i := by
  rcases orb_cases a with rfl | ⟨x, rfl⟩ | ⟨x, rfl⟩
  · simp [gradD]
  · simp [gradD]
  · have : ∀ v : Vec, gradD (dOrb x) v i = ((2 : ℝ) • (quadOrb x *ᵥ v)) i := fun v => by
      simp [gradD, gradCubic_d]
    simp only [this, Pi.smul_apply, Matrix.mulVec, dotProduct, smul_eq_mul, Fin.sum_univ_three]
    ring

theorem sphGradD_sum (a : Fin 9) (r w : Vec) (V : Fin 3 → Vec) (i : Fin 3) :
    sphGradD a r (fun x => ∑ c, w c * V c x) i = ∑ c, w c * sphGradD a r (V c) i := by
  unfold sphGradD
  rw [gradD_sum, cubicD_sum]
  simp only [Fin.sum_univ_three]
  ring

theorem skCoefD_sum (k : Fin 3) (a b : Fin 9) (r w : Vec) (V : Fin 3 → Vec) :
    skCoefD k a b r (fun x => ∑ c, w c * V c x) = ∑ c, w c * skCoefD k a b r (V c) := by
  have h1 : cubicD a r (fun x => ∑ c, w c * V c x) * cubic b r
        + cubic a r * cubicD b r (fun x => ∑ c, w c * V c x)
      = ∑ c, w c * (cubicD a r (V c) * cubic b r + cubic a r * cubicD b r (V c)) := by
    rw [cubicD_sum, cubicD_sum]
    simp only [Fin.sum_univ_three]
    ring
  have h2 : (∑ i, (sphGradD a r (fun x => ∑ c, w c * V c x) i * sphGrad b r i
        + sphGrad a r i * sphGradD b r (fun x => ∑ c, w c * V c x) i))
          / (piNorm (orbL a) * piNorm (orbL b))
      = ∑ c, w c * ((∑ i, (sphGradD a r (V c) i * sphGrad b r i
        + sphGrad a r i * sphGradD b r (V c) i)) / (piNorm (orbL a) * piNorm (orbL b))) := by
    simp only [sphGradD_sum]
    simp only [Fin.sum_univ_three]
    ring
  unfold skCoefD
  dsimp only
  rw [h1, h2]
  fin_cases k
  · rfl
  · rfl
  · show -_ - _ = ∑ c, w c * (-_ - _)
    simp only [Fin.sum_univ_three]
    ring

/-- Element of the C routine for the bond vector `x`. -/
noncomputable def elemAt (J : SkJunk) (noi noj : ℕ) (H : ℝ → Fin 14 → ℝ) (x : Vec) (p q : Fin 9) : ℝ :=
  skElem J noi noj ((norm3 x)⁻¹ • x) (H (norm3 x)) p q

/-- Its derivative array. -/
noncomputable def delemAt (J : SkJunk) (noi noj : ℕ) (H dH : ℝ → Fin 14 → ℝ) (x : Vec) (p q : Fin 9)
    (c : Fin 3) : ℝ :=
  skDElem J noi noj ((norm3 x)⁻¹ • x) (norm3 x) (H (norm3 x))
    (fun m c => dH (norm3 x) m * ((norm3 x)⁻¹ • x) c) p q c

theorem elemAt_hasDerivAt (J : SkJunk) {noi noj : ℕ} (hi : ValidNo noi) (hj : ValidNo noj)
    (H dH : ℝ → Fin 14 → ℝ) (x w : Vec) (hx : x ≠ 0)
    (hH : ∀ q, HasDerivAt (fun d => H d q) (dH (norm3 x) q) (norm3 x))
    (i j : Fin 9) (hin : i.val < noi) (hjn : j.val < noj) :
    HasDerivAt (fun t : ℝ => elemAt J noi noj H (x + t • w) i j)
      (∑ c, w c * delemAt J noi noj H dH x i j c) 0 := by
  have hn := (norm3_pos hx).ne'
  have hρ := fun a => unitDir_hasDerivAt_dir x w hx a
  have hnorm := norm3_hasDerivAt x w hx
  have hev : ∀ᶠ t : ℝ in nhds 0, (x + t • w : Vec) ≠ 0 := by
    have hc := hnorm.continuousAt
    have : ∀ᶠ t : ℝ in nhds 0, norm3 (x + t • w) ≠ 0 :=
      hc.eventually_ne (by simpa using hn)
    filter_upwards [this] with t ht h0
    rw [h0] at ht
    exact ht (norm3_eq_zero.2 rfl)
  have hfun : (fun t : ℝ => elemAt J noi noj H (x + t • w) i j)
      =ᶠ[nhds 0] fun t : ℝ => ∑ k : Fin 3, if k.val < skCnt i j then
        H (norm3 (x + t • w)) (skIntegralIndex (orbL i) (orbL j) k)
          * skCoef k i j ((norm3 (x + t • w))⁻¹ • (x + t • w)) else 0 := by
    filter_upwards [hev] with t ht
    unfold elemAt
    rw [skElem_spec J _ (unit_dir ht) hi hj _ hin hjn]
    unfold skSpec intOf
    refine Finset.sum_congr rfl fun k _ => ?_
    by_cases hk : k.val < skCnt i j
    · rw [if_pos hk, if_pos (by rw [skCnt_eq] at hk; omega)]
    · rw [if_neg hk, if_neg (by rw [skCnt_eq] at hk; omega)]
  refine HasDerivAt.congr_of_eventuallyEq ?_ hfun
  have hval : ∑ c, w c * delemAt J noi noj H dH x i j c
      = ∑ k : Fin 3, if k.val < skCnt i j then
          (dH (norm3 x) (skIntegralIndex (orbL i) (orbL j) k) * (((norm3 x)⁻¹ • x) ⬝ᵥ w))
              * skCoef k i j ((norm3 x)⁻¹ • x)
            + H (norm3 x) (skIntegralIndex (orbL i) (orbL j) k)
              * skCoefD k i j ((norm3 x)⁻¹ • x)
                (fun a => ∑ c, w c * skDcos ((norm3 x)⁻¹ • x) (norm3 x) a c) else 0 := by
    unfold delemAt skDElem
    simp only [Finset.mul_sum]
    rw [Finset.sum_comm]
    refine Finset.sum_congr rfl fun k _ => ?_
    by_cases hk : k.val < skCnt i j
    · simp only [if_pos hk]
      rw [skMat_clean J _ (unit_dir hx) hi hj hin hjn hk, skInd_clean J.ind hi hj hin hjn hk]
      have := skCoefD_sum k i j ((norm3 x)⁻¹ • x) w
        (fun c a => skDcos ((norm3 x)⁻¹ • x) (norm3 x) a c)
      rw [this]
      simp only [skDer_clean J _ (unit_dir hx) _ hi hj hin hjn hk, dotProduct, Fin.sum_univ_three]
      ring
    · simp only [if_neg hk, mul_zero, Finset.sum_const_zero]
  rw [hval]
  refine HasDerivAt.fun_sum fun k _ => ?_
  by_cases hk : k.val < skCnt i j
  · simp only [if_pos hk]
    have h1 : HasDerivAt (fun t : ℝ => H (norm3 (x + t • w))
        (skIntegralIndex (orbL i) (orbL j) k))
        (dH (norm3 x) (skIntegralIndex (orbL i) (orbL j) k) * (((norm3 x)⁻¹ • x) ⬝ᵥ w)) 0 := by
      have h0 : norm3 x = norm3 (x + (0 : ℝ) • w) := by simp
      have hq := hH (skIntegralIndex (orbL i) (orbL j) k)
      rw [h0] at hq
      have := HasDerivAt.comp (0 : ℝ) hq hnorm
      rw [← h0] at this
      exact this
    have h2 := skCoef_hasDerivAt
      (fun t : ℝ => (norm3 (x + t • w))⁻¹ • (x + t • w : Vec))
      (fun a => ∑ c, w c * skDcos ((norm3 x)⁻¹ • x) (norm3 x) a c) 0 hρ k i j
    refine (h1.fun_mul h2).congr_deriv ?_
    simp
  · simp only [if_neg hk]
    exact hasDerivAt_const _ _

end Hotbit
