import Verif.Lemmas.MultipoleFar
import Verif.Props.Multipole

/-!
# C82: from the moments of distant charges to a local expansion
-/

namespace Hotbit

/-- C82.  The local expansion made from the moments of charges about `c`, evaluated at `c + dr + u`, differs from
the exact potential of the charges by at most `farSum`, when the sphere of the charges and the sphere of the
point do not reach each other. -/
theorem c82_error (dr : Vec) (p : ℕ) (junk : Moments) (qr : List (ℝ × Vec)) (c u : Vec)
    (h0 : dr ≠ 0) (h : ∀ a ∈ qr, norm3 u + norm3 (a.2 - c) < norm3 dr) :
    |chargePot qr (c + dr + u) - localPot p (m2l dr p (getMoments p qr c) Moments.zero junk) u| ≤
      farSum p qr c (norm3 u) (norm3 dr) :=
  m2l_error dr p _ junk qr c u (c60_moments p qr c) h0 h

/-- C82.  Expansions of several groups of charges add up: what is already in the local expansion is kept. -/
theorem c82_accumulates (dr : Vec) (h : dr ≠ 0) (p : ℕ) (M L junk : Moments) (u : Vec) :
    localPot p (m2l dr p M L junk) u = localPot p L u + localPot p (m2l dr p M Moments.zero junk) u :=
  m2l_localPot_add dr h p M L junk u

/-- C82.  With growing order the local expansion converges to the exact potential. -/
theorem c82_converges (dr : Vec) (junk : ℕ → Moments) (qr : List (ℝ × Vec)) (c u : Vec)
    (h0 : dr ≠ 0) (h : ∀ a ∈ qr, norm3 u + norm3 (a.2 - c) < norm3 dr) :
    Filter.Tendsto (fun p => localPot p (m2l dr p (getMoments p qr c) Moments.zero (junk p)) u) Filter.atTop
      (nhds (chargePot qr (c + dr + u))) := by
  have hb : Filter.Tendsto (fun p => farSum p qr c (norm3 u) (norm3 dr)) Filter.atTop (nhds 0) := by
    clear h0
    unfold farSum
    induction qr with
    | nil => simp
    | cons a qr ih =>
      simp only [List.map_cons, List.sum_cons]
      have t := (farError_tendsto (norm3 u + norm3 (a.2 - c)) (norm3 dr)
        (add_nonneg (norm3_nonneg _) (norm3_nonneg _)) (h a (by simp))).const_mul |a.1|
      have := t.add (ih fun b hb => h b (by simp [hb]))
      simpa using this
  rw [tendsto_iff_norm_sub_tendsto_zero]
  refine squeeze_zero (fun p => norm_nonneg _) (fun p => ?_) hb
  rw [Real.norm_eq_abs, abs_sub_comm]
  exact c82_error dr p (junk p) qr c u h0 h

/-- Two charges within 1 of the origin, seen from a point within 1 of `(5,0,0)`. -/
example (junk : ℕ → Moments) :
    Filter.Tendsto (fun p => localPot p (m2l ![5, 0, 0] p (getMoments p [(1, ![1, 0, 0]), (-2, ![0, 1, 0])] 0)
      Moments.zero (junk p)) ![0, 0, 1]) Filter.atTop
      (nhds (chargePot [(1, ![1, 0, 0]), (-2, ![0, 1, 0])] (0 + ![5, 0, 0] + ![0, 0, 1]))) := by
  refine c82_converges _ junk _ _ _ (fun e => by simpa using congrFun e 0) ?_
  have s25 : Real.sqrt (5 ^ 2) = 5 := by rw [Real.sqrt_sq (by norm_num)]
  intro a ha
  simp only [List.mem_cons, List.not_mem_nil, or_false] at ha
  rcases ha with rfl | rfl <;> · simp [norm3, s25]; norm_num

end Hotbit
