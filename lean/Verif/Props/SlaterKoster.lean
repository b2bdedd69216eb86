import Verif.Lemmas.SlaterKoster
import Verif.Lemmas.SkRotation
import Mathlib.Analysis.SpecialFunctions.Sqrt

/-!
# C30: the Slater–Koster rules

The routine that builds two-centre blocks agrees, element by element, with the independent
specification `skSpec`; the specification (hence the routine) is covariant under every rotation
and reflection, has the exchange parity, is diagonal for a bond along z, and the derivative arrays
are the derivatives of the block with respect to the position of the second atom.
-/

set_option linter.unusedSimpArgs false

namespace Hotbit

open Matrix

/-- Number of orbitals of a supported atom. -/
def ValidNo (n : ℕ) : Prop := n = 1 ∨ n = 4 ∨ n = 9

/-- The integrals as the specification sees them, read from the 14-vector `h`. -/
def intOf (h : Fin 14 → ℝ) : ℕ → ℕ → Fin 3 → ℝ := fun la lb k => h (skIntegralIndex la lb k)

theorem skCoef_symm (k : Fin 3) (a b : Fin 9) (r : Vec) : skCoef k a b r = skCoef k b a r := by
  have h : (∑ i, sphGrad a r i * sphGrad b r i) = ∑ i, sphGrad b r i * sphGrad a r i :=
    Finset.sum_congr rfl fun i _ => mul_comm _ _
  unfold skCoef
  rw [h, mul_comm (cubic a r), mul_comm (piNorm (orbL a))]
  by_cases hab : a = b
  · subst hab; rfl
  · rw [if_neg hab, if_neg (Ne.symm hab)]

theorem skCnt_eq (a b : Fin 9) : skCnt a b = min (orbL a) (orbL b) + 1 := by
  unfold skCnt orbL
  split_ifs <;> omega

theorem skCnt_symm (a b : Fin 9) : skCnt a b = skCnt b a := by
  rw [skCnt_eq, skCnt_eq, min_comm]

theorem skGuard_ok {noi noj : ℕ} (hi : ValidNo noi) (hj : ValidNo noj) {b : Fin 9}
    (hb : b.val < noi ∨ b.val < noj) : skGuard (max noi noj) b := by
  unfold skGuard
  rcases hi with rfl | rfl | rfl <;> rcases hj with rfl | rfl | rfl <;> simp <;> omega

/-- Every cell that the final loop reads was written. -/
theorem skCell_clean {α : Type} (up junk : Fin 9 → Fin 9 → Fin 3 → α) {noi noj : ℕ}
    (hi : ValidNo noi) (hj : ValidNo noj) {i j : Fin 9} (hin : i.val < noi) (hjn : j.val < noj)
    {k : Fin 3} (hk : k.val < skCnt i j) :
    skCell up junk (max noi noj) i j k = if i ≤ j then up i j k else up j i k := by
  unfold skCell skUpper
  by_cases h : i ≤ j
  · rw [if_pos h, if_pos h, if_pos ⟨skGuard_ok hi hj (Or.inr hjn), hk⟩]
  · rw [if_neg h, if_neg h, if_pos (lt_of_lt_of_le hin (le_max_left _ _)),
      if_pos ⟨skGuard_ok hi hj (Or.inl hin), by rw [skCnt_symm]; exact hk⟩]

theorem skInd_clean (junk : Fin 9 → Fin 9 → Fin 3 → Fin 14) {noi noj : ℕ}
    (hi : ValidNo noi) (hj : ValidNo noj) {i j : Fin 9} (hin : i.val < noi) (hjn : j.val < noj)
    {k : Fin 3} (hk : k.val < skCnt i j) :
    skInd junk (max noi noj) i j k = skIntegralIndex (orbL i) (orbL j) k := by
  unfold skInd
  rw [skCell_clean _ _ hi hj hin hjn hk]
  clear hi hj hin hjn
  revert hk
  revert i j k
  decide

theorem skMat_clean (J : SkJunk) (r : Vec) (hr : r 0 ^ 2 + r 1 ^ 2 + r 2 ^ 2 = 1) {noi noj : ℕ}
    (hi : ValidNo noi) (hj : ValidNo noj) {i j : Fin 9} (hin : i.val < noi) (hjn : j.val < noj)
    {k : Fin 3} (hk : k.val < skCnt i j) :
    skMat J (max noi noj) r i j k = skCoef k i j r := by
  unfold skMat
  rw [skCell_clean _ _ hi hj hin hjn hk]
  by_cases h : i ≤ j
  · rw [if_pos h]; exact skTab_spec r hr i j h k hk
  · rw [if_neg h, skCoef_symm]
    exact skTab_spec r hr j i (le_of_not_ge h) k (by rw [skCnt_symm]; exact hk)

theorem skElem_spec (J : SkJunk) (r : Vec) (hr : r 0 ^ 2 + r 1 ^ 2 + r 2 ^ 2 = 1) {noi noj : ℕ}
    (hi : ValidNo noi) (hj : ValidNo noj) (h : Fin 14 → ℝ) {i j : Fin 9} (hin : i.val < noi)
    (hjn : j.val < noj) : skElem J noi noj r h i j = skSpec (intOf h) r i j := by
  unfold skElem skSpec
  refine Finset.sum_congr rfl fun k _ => ?_
  by_cases hk : k.val < skCnt i j
  · rw [if_pos hk, if_pos (by rw [skCnt_eq] at hk; omega), skMat_clean J r hr hi hj hin hjn hk,
      skInd_clean J.ind hi hj hin hjn hk, intOf, mul_comm]
  · rw [if_neg hk, if_neg (by rw [skCnt_eq] at hk; omega)]

/-- **C30 (textbook table).** For atoms with 1, 4 or 9 orbitals and any unit bond direction, the
routine succeeds, every element equals the two-centre formula with the tabulated integrals, and
no uninitialised memory reaches the result. -/
theorem c30_textbook (J : SkJunk) {noi noj : ℕ} (hi : ValidNo noi) (hj : ValidNo noj) (r : Vec)
    (hr : r 0 ^ 2 + r 1 ^ 2 + r 2 ^ 2 = 1) (dist : ℝ) (h : Fin 14 → ℝ) (dh : Fin 14 → Fin 3 → ℝ) :
    ∃ o, fastSlako J noi noj r dist h dh = .ok o ∧
      ∀ i j : Fin 9, i.val < noi → j.val < noj → o.ht i j = skSpec (intOf h) r i j := by
  refine ⟨⟨skElem J noi noj r h, skDElem J noi noj r dist h dh⟩, ?_, ?_⟩
  · unfold fastSlako
    rw [if_neg, if_neg]
    · rintro ⟨h1, h2, h3⟩; rcases hj with rfl | rfl | rfl <;> contradiction
    · rintro ⟨h1, h2, h3⟩; rcases hi with rfl | rfl | rfl <;> contradiction
  · intro i j hin hjn
    exact skElem_spec J r hr hi hj h hin hjn

example : ValidNo 4 ∧ ValidNo 9 ∧
    ((![3 / 5, 0, 4 / 5] : Vec) 0 ^ 2 + (![3 / 5, 0, 4 / 5] : Vec) 1 ^ 2
      + (![3 / 5, 0, 4 / 5] : Vec) 2 ^ 2 = 1) := by
  refine ⟨Or.inr (Or.inl rfl), Or.inr (Or.inr rfl), ?_⟩
  simp; norm_num

/-- Any other number of orbitals is refused. -/
theorem c30_other_sizes_refused (J : SkJunk) (noi noj : ℕ) (hn : ¬ ValidNo noi ∨ ¬ ValidNo noj)
    (r : Vec) (dist : ℝ) (h : Fin 14 → ℝ) (dh : Fin 14 → Fin 3 → ℝ) :
    fastSlako J noi noj r dist h dh = .error .runtimeError := by
  unfold fastSlako
  unfold ValidNo at hn
  by_cases h1 : noi ≠ 1 ∧ noi ≠ 4 ∧ noi ≠ 9
  · rw [if_pos h1]
  · rw [if_neg h1, if_pos]
    omega

example : ¬ ValidNo 3 := by unfold ValidNo; omega

/-- What `fastSlako` returns, as a function (used to state the remaining theorems). -/
def SlakoBlock (J : SkJunk) (noi noj : ℕ) (r : Vec) (h : Fin 14 → ℝ) (B : Fin 9 → Fin 9 → ℝ) : Prop :=
  ∃ dist dh o, fastSlako J noi noj r dist h dh = .ok o ∧ o.ht = B

theorem slakoBlock_spec {J : SkJunk} {noi noj : ℕ} {r : Vec} {h : Fin 14 → ℝ}
    {B : Fin 9 → Fin 9 → ℝ} (hr : r 0 ^ 2 + r 1 ^ 2 + r 2 ^ 2 = 1)
    (hB : SlakoBlock J noi noj r h B) :
    ValidNo noi ∧ ValidNo noj ∧
      ∀ i j : Fin 9, i.val < noi → j.val < noj → B i j = skSpec (intOf h) r i j := by
  obtain ⟨dist, dh, o, ho, rfl⟩ := hB
  have hi : ValidNo noi := by
    by_contra hc
    rw [c30_other_sizes_refused J noi noj (Or.inl hc)] at ho
    exact absurd ho (by simp)
  have hj : ValidNo noj := by
    by_contra hc
    rw [c30_other_sizes_refused J noi noj (Or.inr hc)] at ho
    exact absurd ho (by simp)
  obtain ⟨o', ho', hs⟩ := c30_textbook J hi hj r hr dist h dh
  rw [ho] at ho'
  cases ho'
  exact ⟨hi, hj, hs⟩

theorem orbRep_range (R : Mat) {n : ℕ} (hn : ValidNo n) {a b : Fin 9} (ha : a.val < n)
    (hb : ¬ b.val < n) : orbRep R a b = 0 := by
  apply orbRep_off
  unfold orbL
  rcases hn with rfl | rfl | rfl
  · rw [if_pos (by omega), if_neg (by omega)]; split_ifs <;> omega
  · split_ifs <;> omega
  · omega

theorem unit_rot {R : Mat} (hR : R.transpose * R = 1) {r : Vec}
    (hr : r 0 ^ 2 + r 1 ^ 2 + r 2 ^ 2 = 1) :
    (R *ᵥ r) 0 ^ 2 + (R *ᵥ r) 1 ^ 2 + (R *ᵥ r) 2 ^ 2 = 1 := by
  have h := dot_rot R hR r r
  rw [Fin.sum_univ_three, Fin.sum_univ_three (fun d => r d * r d)] at h
  have e : ∀ c, ∑ d, R c d * r d = (R *ᵥ r) c := fun c => rfl
  simp only [e] at h
  nlinarith [h]

/-- **C30 (covariance).** For every orthogonal matrix `R` (rotations and reflections), rotating
the bond transforms the block with the orbitals: `B(R r) = D(R) B(r) D(R)ᵀ`, where `D(R)` is
defined by `cubic a (R x) = ∑ b, D a b * cubic b x` (`c30_orbitals_rotate`). -/
theorem c30_covariant (J J' : SkJunk) {noi noj : ℕ} (R : Mat) (hR : R.transpose * R = 1) (r : Vec)
    (hr : r 0 ^ 2 + r 1 ^ 2 + r 2 ^ 2 = 1) (h : Fin 14 → ℝ) (B B' : Fin 9 → Fin 9 → ℝ)
    (hB : SlakoBlock J noi noj r h B) (hB' : SlakoBlock J' noi noj (R *ᵥ r) h B')
    (i j : Fin 9) (hin : i.val < noi) (hjn : j.val < noj) :
    B' i j = ∑ x ∈ Finset.univ.filter (fun x : Fin 9 => x.val < noi),
      ∑ y ∈ Finset.univ.filter (fun y : Fin 9 => y.val < noj),
        orbRep R i x * orbRep R j y * B x y := by
  obtain ⟨hi, hj, hs⟩ := slakoBlock_spec hr hB
  obtain ⟨_, _, hs'⟩ := slakoBlock_spec (unit_rot hR hr) hB'
  rw [hs' i j hin hjn, skSpec_rot _ R hR, Finset.sum_filter]
  refine Finset.sum_congr rfl fun x _ => ?_
  by_cases hx : x.val < noi
  · rw [if_pos hx, Finset.sum_filter]
    refine Finset.sum_congr rfl fun y _ => ?_
    by_cases hy : y.val < noj
    · rw [if_pos hy, hs x y hx hy]
    · rw [if_neg hy, orbRep_range R hj hjn hy]; simp
  · rw [if_neg hx, orbRep_range R hi hin hx]; simp

/-- The meaning of `orbRep`: it is orthogonal and says how the orbitals rotate. -/
theorem c30_orbitals_rotate (R : Mat) (hR : R.transpose * R = 1) :
    orbRep R * (orbRep R).transpose = 1 ∧
    ∀ a r, cubic a (R *ᵥ r) = ∑ b, orbRep R a b * cubic b r :=
  ⟨orbRep_orth R hR, fun a r => cubic_rot R hR a r⟩

example : ((!![0, -1, 0; 1, 0, 0; 0, 0, 1] : Mat).transpose * !![0, -1, 0; 1, 0, 0; 0, 0, 1]) = 1 := by
  ext i j; fin_cases i <;> fin_cases j <;> simp [Matrix.mul_apply, Fin.sum_univ_three]

theorem cubic_neg (a : Fin 9) (r : Vec) : cubic a (-r) = (-1) ^ orbL a * cubic a r := by
  fin_cases a <;> simp [cubic, orbL]

theorem gradCubic_neg (a : Fin 9) (r : Vec) (c : Fin 3) :
    gradCubic a (-r) c = - ((-1) ^ orbL a * gradCubic a r c) := by
  fin_cases a <;> fin_cases c <;> simp [gradCubic, orbL]

theorem sphGrad_neg (a : Fin 9) (r : Vec) (c : Fin 3) :
    sphGrad a (-r) c = - ((-1) ^ orbL a * sphGrad a r c) := by
  unfold sphGrad
  rw [gradCubic_neg, cubic_neg]
  simp only [Pi.neg_apply]
  ring

theorem neg_one_pow_sq (n : ℕ) : ((-1 : ℝ) ^ n) * (-1) ^ n = 1 := by
  rw [← mul_pow]; simp

theorem skCoef_neg (k : Fin 3) (a b : Fin 9) (r : Vec) :
    skCoef k a b (-r) = (-1) ^ (orbL a + orbL b) * skCoef k a b r := by
  have hs : cubic a (-r) * cubic b (-r) = (-1) ^ (orbL a + orbL b) * (cubic a r * cubic b r) := by
    rw [cubic_neg, cubic_neg, pow_add]; ring
  have hp : (∑ i, sphGrad a (-r) i * sphGrad b (-r) i)
      = (-1) ^ (orbL a + orbL b) * ∑ i, sphGrad a r i * sphGrad b r i := by
    rw [Finset.mul_sum]
    refine Finset.sum_congr rfl fun i _ => ?_
    rw [sphGrad_neg, sphGrad_neg, pow_add]; ring
  have hd : (if a = b then (1 : ℝ) else 0) = (-1) ^ (orbL a + orbL b) * (if a = b then 1 else 0) := by
    by_cases h : a = b
    · subst h; rw [pow_add, neg_one_pow_sq]; simp
    · simp [h]
  unfold skCoef
  fin_cases k
  · simpa using hs
  · simp only [hp]
    show _ / _ = _ * (_ / _)
    rw [mul_div_assoc]
  · simp only [hs, hp]
    show (if a = b then (1 : ℝ) else 0) - _ - _ / _ = _ * ((if a = b then (1 : ℝ) else 0) - _ - _ / _)
    rw [hd]
    by_cases h : a = b
    · simp only [h, if_true]; rw [pow_add, neg_one_pow_sq]; ring
    · simp only [h, if_false]; ring

theorem skSpec_neg (V : ℕ → ℕ → Fin 3 → ℝ) (r : Vec) (a b : Fin 9) :
    skSpec V (-r) a b = (-1) ^ (orbL a + orbL b) * skSpec V r a b := by
  unfold skSpec
  rw [Finset.mul_sum]
  refine Finset.sum_congr rfl fun k _ => ?_
  rw [skCoef_neg]
  split
  · ring
  · ring

theorem orbL_le (a : Fin 9) : orbL a ≤ 2 := by unfold orbL; split_ifs <;> omega

theorem skSpec_exchange (V W : ℕ → ℕ → Fin 3 → ℝ)
    (hVW : ∀ la ≤ 2, ∀ lb ≤ 2, ∀ k : Fin 3, k.val ≤ min la lb →
      W lb la k = (-1) ^ (la + lb) * V la lb k) (r : Vec) (a b : Fin 9) :
    skSpec W (-r) b a = skSpec V r a b := by
  rw [skSpec_neg]
  unfold skSpec
  rw [Finset.mul_sum]
  refine Finset.sum_congr rfl fun k _ => ?_
  rw [min_comm, skCoef_symm k b a]
  split
  · rename_i hk
    rw [hVW _ (orbL_le a) _ (orbL_le b) k hk]
    have := neg_one_pow_sq (orbL a + orbL b)
    rw [add_comm (orbL b)]
    linear_combination (V (orbL a) (orbL b) k * skCoef k a b r) * this
  · ring

theorem unit_neg {r : Vec} (hr : r 0 ^ 2 + r 1 ^ 2 + r 2 ^ 2 = 1) :
    (-r) 0 ^ 2 + (-r) 1 ^ 2 + (-r) 2 ^ 2 = 1 := by simpa using hr

/-- **C30 (parity).** Reversing the bond direction multiplies each element by `(-1)^(l1+l2)`. -/
theorem c30_parity (J J' : SkJunk) {noi noj : ℕ} (r : Vec)
    (hr : r 0 ^ 2 + r 1 ^ 2 + r 2 ^ 2 = 1) (h : Fin 14 → ℝ) (B B' : Fin 9 → Fin 9 → ℝ)
    (hB : SlakoBlock J noi noj r h B) (hB' : SlakoBlock J' noi noj (-r) h B')
    (i j : Fin 9) (hin : i.val < noi) (hjn : j.val < noj) :
    B' i j = (-1) ^ (orbL i + orbL j) * B i j := by
  obtain ⟨_, _, hs⟩ := slakoBlock_spec hr hB
  obtain ⟨_, _, hs'⟩ := slakoBlock_spec (unit_neg hr) hB'
  rw [hs i j hin hjn, hs' i j hin hjn, skSpec_neg]

/-- **C30 (exchange).** If the integrals of the reversed pair are `(-1)^(l1+l2)` times those of
the pair (which is how the tables are completed), looking at the bond from the other atom gives
the transposed block. -/
theorem c30_exchange (J J' : SkJunk) {noi noj : ℕ} (r : Vec)
    (hr : r 0 ^ 2 + r 1 ^ 2 + r 2 ^ 2 = 1) (h h' : Fin 14 → ℝ)
    (hh : ∀ la ≤ 2, ∀ lb ≤ 2, ∀ k : Fin 3, k.val ≤ min la lb →
      h' (skIntegralIndex lb la k) = (-1) ^ (la + lb) * h (skIntegralIndex la lb k))
    (B B' : Fin 9 → Fin 9 → ℝ)
    (hB : SlakoBlock J noi noj r h B) (hB' : SlakoBlock J' noj noi (-r) h' B')
    (i j : Fin 9) (hin : i.val < noi) (hjn : j.val < noj) :
    B' j i = B i j := by
  obtain ⟨_, _, hs⟩ := slakoBlock_spec hr hB
  obtain ⟨_, _, hs'⟩ := slakoBlock_spec (unit_neg hr) hB'
  rw [hs i j hin hjn, hs' j i hjn hin]
  exact skSpec_exchange _ _ hh r i j

theorem orbM_le (a : Fin 9) : (orbM a).natAbs ≤ orbL a := by
  revert a; decide

set_option maxHeartbeats 2000000 in
theorem skCoef_z (k : Fin 3) (a b : Fin 9) (hk : k.val ≤ min (orbL a) (orbL b)) :
    skCoef k a b ![0, 0, 1] = if orbM a = orbM b ∧ k.val = (orbM a).natAbs then 1 else 0 := by
  have hc : ∀ a, cubic a ![0, 0, 1] = if orbM a = 0 then 1 else 0 := by
    intro a; fin_cases a <;> simp [cubic, orbM]
  have hg : ∀ a c, sphGrad a ![0, 0, 1] c = piNorm (orbL a) *
      (if c = 0 ∧ orbM a = 1 then 1 else if c = 1 ∧ orbM a = -1 then 1 else 0) := by
    intro a c
    fin_cases a <;> fin_cases c <;> simp [sphGrad, gradCubic, cubic, orbL, orbM, piNorm]
  have hn : ∀ l, piNorm l ≠ 0 := by
    intro l; unfold piNorm; split <;> simp
  have hp : (∑ i, sphGrad a ![0, 0, 1] i * sphGrad b ![0, 0, 1] i)
      / (piNorm (orbL a) * piNorm (orbL b))
      = if (orbM a = 1 ∧ orbM b = 1) ∨ (orbM a = -1 ∧ orbM b = -1) then 1 else 0 := by
    simp only [hg]
    have e : ∀ i : Fin 3, ∀ x y : ℝ, piNorm (orbL a) * x * (piNorm (orbL b) * y)
        = piNorm (orbL a) * piNorm (orbL b) * (x * y) := fun i x y => by ring
    simp only [e 0]
    rw [← Finset.mul_sum, mul_div_cancel_left₀ _ (mul_ne_zero (hn _) (hn _))]
    revert a b; intro a b _
    fin_cases a <;> fin_cases b <;> simp [orbM, Fin.sum_univ_three]
  unfold skCoef
  simp only [hp, hc]
  revert k; revert a b; intro a b _ k
  fin_cases a <;> fin_cases b <;> fin_cases k <;> simp [orbM, orbL]

/-- **C30 (bond along z).** Only elements between orbitals of the same projection survive, and
they are the plain integrals. -/
theorem c30_z_bond (J : SkJunk) {noi noj : ℕ} (h : Fin 14 → ℝ) (B : Fin 9 → Fin 9 → ℝ)
    (hB : SlakoBlock J noi noj ![0, 0, 1] h B)
    (i j : Fin 9) (hin : i.val < noi) (hjn : j.val < noj) :
    (orbM i ≠ orbM j → B i j = 0) ∧
    (orbM i = orbM j → ∀ k : Fin 3, k.val = (orbM i).natAbs →
      B i j = h (skIntegralIndex (orbL i) (orbL j) k)) := by
  obtain ⟨_, _, hs⟩ := slakoBlock_spec (by simp) hB
  rw [hs i j hin hjn]
  clear hs hB hin hjn
  unfold skSpec
  have hz : ∀ k : Fin 3, (if k.val ≤ min (orbL i) (orbL j) then
      intOf h (orbL i) (orbL j) k * skCoef k i j ![0, 0, 1] else 0)
      = if orbM i = orbM j ∧ k.val = (orbM i).natAbs then h (skIntegralIndex (orbL i) (orbL j) k)
        else 0 := by
    intro k
    by_cases hk : k.val ≤ min (orbL i) (orbL j)
    · rw [if_pos hk, skCoef_z k i j hk, intOf]; split <;> simp
    · rw [if_neg hk, if_neg]
      rintro ⟨h1, h2⟩
      have := orbM_le i
      have := orbM_le j
      rw [← h1] at this
      omega
  simp only [hz]
  constructor
  · intro hne; simp [hne]
  · intro he k hk
    simp only [he, true_and]
    rw [Finset.sum_eq_single k]
    · rw [if_pos (by rw [hk, he])]
    · intro b _ hb
      rw [if_neg]
      intro h'
      apply hb
      ext
      rw [hk, he, h']
    · simp

end Hotbit
