import Verif.Model.ParamUtil
import Verif.Spec.ParamUtil
import Mathlib.Tactic

/-!
# C55 and C56: ionization potential and electron affinity, smooth tails
-/

namespace Hotbit

/-! ### C55 -/

/-- **C55.**  If the energies of the three atoms lie on a quadratic function of the number `t` of added
electrons, the ionization potential and electron affinity returned are exactly those of this function
for one full electron. -/
theorem c55_quadratic (energy : AtomEnergy) (occu : String → ℝ) (ro ao : String) {remove add : ℝ}
    (hr : 0 < remove) (ha : 0 < add) (a b c : ℝ) (q : ℝ → ℝ) (hq : ∀ t, q t = a + b * t + c * t ^ 2)
    (h0 : energy occu = q 0) (h1 : energy (addElectrons occu ao add) = q add)
    (h2 : energy (addElectrons occu ro (-remove)) = q (-remove)) :
    ipEa energy occu ro ao remove add = .ok (q (-1) - q 0, q 0 - q 1) := by
  have hra : remove + add ≠ 0 := by positivity
  have hp : add * (remove + add) ≠ 0 := mul_ne_zero ha.ne' hra
  unfold ipEa
  simp only [if_neg hr.ne', if_neg hp, h0, h1, h2, hq]
  refine congrArg Except.ok (Prod.ext ?_ ?_)
  · simp only
    field_simp
    ring
  · simp only
    field_simp
    ring

/-- **C55.**  For one full electron added and removed the results are the energy differences
themselves, whatever the energies. -/
theorem c55_full (energy : AtomEnergy) (occu : String → ℝ) (ro ao : String) :
    ipEa energy occu ro ao 1 1 =
      .ok (energy (addElectrons occu ro (-1)) - energy occu,
        energy occu - energy (addElectrons occu ao 1)) := by
  set e0 := energy occu with he0
  set e1 := energy (addElectrons occu ao 1) with he1
  set e2 := energy (addElectrons occu ro (-1)) with he2
  have h := c55_quadratic energy occu ro ao (remove := 1) (add := 1) one_pos one_pos e0
    ((e1 - e2) / 2) ((e1 + e2) / 2 - e0)
    (fun t => e0 + (e1 - e2) / 2 * t + ((e1 + e2) / 2 - e0) * t ^ 2) (fun _ => rfl)
    (by rw [← he0]; ring) (by rw [← he1]; ring) (by rw [← he2]; ring)
  rw [h]
  refine congrArg Except.ok (Prod.ext ?_ ?_) <;> · simp only; ring

/-- **C55.**  With a cubic term of strength `g` the error is known exactly: it vanishes for one full
electron and is proportional to `g`. -/
theorem c55_cubic (energy : AtomEnergy) (occu : String → ℝ) (ro ao : String) {remove add : ℝ}
    (hr : 0 < remove) (ha : 0 < add) (a b c g : ℝ) (q : ℝ → ℝ)
    (hq : ∀ t, q t = a + b * t + c * t ^ 2 + g * t ^ 3)
    (h0 : energy occu = q 0) (h1 : energy (addElectrons occu ao add) = q add)
    (h2 : energy (addElectrons occu ro (-remove)) = q (-remove)) :
    ipEa energy occu ro ao remove add =
      .ok (q (-1) - q 0 + g * (1 - remove) * (1 + add), q 0 - q 1 + g * (1 + remove) * (1 - add)) := by
  have hra : remove + add ≠ 0 := by positivity
  have hp : add * (remove + add) ≠ 0 := mul_ne_zero ha.ne' hra
  unfold ipEa
  simp only [if_neg hr.ne', if_neg hp, h0, h1, h2, hq]
  refine congrArg Except.ok (Prod.ext ?_ ?_)
  · simp only
    field_simp
    ring
  · simp only
    field_simp
    ring

/-- Carbon with an energy quadratic in the occupation of the p shell, half an electron removed and
a fifth added. -/
example : ipEa (fun o => -37 - (o "2p" - 2) / 4 + (o "2p" - 2) ^ 2 / 10)
    (fun s => if s = "2p" then 2 else 0) "2p" "2p" 0.5 0.2 = .ok (0.35, 0.15) := by
  have h := c55_quadratic (fun o => -37 - (o "2p" - 2) / 4 + (o "2p" - 2) ^ 2 / 10)
    (fun s => if s = "2p" then 2 else 0) "2p" "2p" (remove := 0.5) (add := 0.2) (by norm_num)
    (by norm_num) (-37) (-1/4) (1/10) (fun t => -37 + -1/4 * t + 1/10 * t ^ 2) (fun _ => rfl)
    (by norm_num) (by norm_num [addElectrons]) (by norm_num [addElectrons])
  rw [h]
  norm_num

/-! ### C56 -/

theorem findTail_some {test : ℕ → Bool} : ∀ {n k : ℕ}, findTail test n = some k →
    2 ≤ k ∧ k ≤ n ∧ test k = true ∧ ∀ i, k < i → i ≤ n → test i = false
  | 0, k, h => by simp [findTail] at h
  | n + 1, k, h => by
    unfold findTail at h
    split_ifs at h with h1 h2
    · injection h with h
      subst h
      exact ⟨by omega, le_refl _, h2, fun i hi1 hi2 => by omega⟩
    · obtain ⟨a, b, c, d⟩ := findTail_some h
      refine ⟨a, by omega, c, fun i hi1 hi2 => ?_⟩
      rcases Nat.lt_or_ge n i with hi | hi
      · have : i = n + 1 := by omega
        subst this
        simpa using h2
      · exact d i hi1 hi

theorem findTail_none {test : ℕ → Bool} : ∀ {n : ℕ}, findTail test n = none ↔
    ∀ i, 2 ≤ i → i ≤ n → test i = false
  | 0 => by simp [findTail]; omega
  | n + 1 => by
    unfold findTail
    split_ifs with h1 h2
    · simp only [true_iff]
      intro i _ _
      omega
    · simp only [reduceCtorEq, false_iff]
      intro h
      have := h (n + 1) (by omega) le_rfl
      simp [this] at h2
    · rw [findTail_none]
      refine ⟨fun h i hi1 hi2 => ?_, fun h i hi1 hi2 => h i hi1 (by omega)⟩
      rcases Nat.lt_or_ge n i with hi | hi
      · have : i = n + 1 := by omega
        subst this
        simpa using h2
      · exact h i hi1 hi

/-- The fit with exponent `m` goes through both points. -/
theorem tail_fit {m : ℕ} {d e : ℝ} (hd : 0 < d) (he : 0 < e) (hde : e < d) (a b : ℝ) :
    d ^ m * (tailC2 m d e a b + tailC3 m d e a b * d) = a ∧
      e ^ m * (tailC2 m d e a b + tailC3 m d e a b * e) = b := by
  have hdm : d ^ m ≠ 0 := (pow_pos hd m).ne'
  have hem : e ^ m ≠ 0 := (pow_pos he m).ne'
  have hsub : d - e ≠ 0 := (sub_pos.2 hde).ne'
  have h3 : tailC3 m d e a b = (a / d ^ m - b / e ^ m) / (d - e) := by
    unfold tailC3
    have : d ^ (m + 1) - d ^ m * e ^ (m + 1) / e ^ m = d ^ m * (d - e) := by
      rw [pow_succ, pow_succ]; field_simp
    rw [this]
    field_simp
  have h2 : tailC2 m d e a b = a / d ^ m - tailC3 m d e a b * d := by
    unfold tailC2
    rw [pow_succ]
    field_simp
  constructor
  · rw [h2]; field_simp; ring
  · rw [h2, h3]; field_simp; ring

theorem tailLoop_ok {N : ℕ} {x y z : ℕ → ℝ} {k : ℕ} : ∀ {left m : ℕ},
    tailLoop N x y k left m = .ok z → ∃ m', m ≤ m' ∧ m' ≤ m + left ∧ z = tailTry N x y k m' ∧
      (∀ i, k ≤ i → i < N → 0 ≤ z i * SignType.sign (y k))
  | left, m, h => by
    unfold tailLoop at h
    simp only at h
    split_ifs at h with h1
    · injection h with h
      subst h
      exact ⟨m, le_rfl, by omega, rfl, h1⟩
    · cases left with
      | zero => simp at h
      | succ left =>
        obtain ⟨m', a, b, c, d⟩ := tailLoop_ok h
        exact ⟨m', by omega, by omega, c, d⟩

theorem keepsSign_of {N : ℕ} {z : ℕ → ℝ} {k : ℕ} {s : ℝ} (hs : z k = s)
    (h : ∀ i, k ≤ i → i < N → 0 ≤ z i * SignType.sign s) : KeepsSign N z k := by
  intro i hi1 hi2
  have h := h i hi1 hi2
  constructor
  · intro hk
    rw [hs] at hk
    simpa [sign_pos hk] using h
  · intro hk
    rw [hs] at hk
    simpa [sign_neg hk] using h

/-- **C56.**  Whenever a table is returned, it is one with all values below 1e-10, unchanged; or only
the last value was set to zero; or the values up to a point `k+1` are unchanged, the last is zero and
the sign stays the same from `k` on.  The point is the last one from which the straight line reaches
zero before the end of the table, and not within the first quarter. -/
theorem c56_result {N : ℕ} {x y z : ℕ → ℝ} (h : tailSmoothening N x y = .ok z) :
    ((∀ i < N, |y i| < 1 / 10 ^ 10) ∧ z = y) ∨
    (3 ≤ N ∧ z (N - 1) = 0 ∧ ∃ k, 2 ≤ k ∧ k + 3 ≤ N ∧ (N : ℝ) / 4 ≤ k ∧
      lineVanishes x y (x (N - 1)) k = true ∧
      (∀ i, k < i → i + 3 ≤ N → lineVanishes x y (x (N - 1)) i = false) ∧
      (∀ i, i ≤ k + 1 → z i = y i) ∧ (k + 3 < N → KeepsSign N z k)) := by
  unfold tailSmoothening at h
  split_ifs at h with h1
  · injection h with h
    exact .inl ⟨h1, h.symm⟩
  · right
    rcases hk : findTail (lineVanishes x y (x (N - 1))) (N - 3) with _ | k
    · simp [hk] at h
    · simp only [hk] at h
      obtain ⟨a, b, c, d⟩ := findTail_some hk
      have hN : k + 3 ≤ N := by omega
      split_ifs at h with h2 h3
      · injection h with h
        subst h
        refine ⟨by omega, by simp, k, a, hN, not_lt.1 h2, c, fun i hi1 hi2 => d i hi1 (by omega),
          fun i hi => ?_, fun hlt => by omega⟩
        rw [Function.update_of_ne]
        omega
      · obtain ⟨m, hm1, hm2, hz, hs⟩ := tailLoop_ok h
        have hle : ∀ i, i ≤ k + 1 → z i = y i := by
          intro i hi
          rw [hz]
          unfold tailTry
          simp only
          rw [if_neg (by omega), if_neg (by omega)]
        refine ⟨by omega, ?_, k, a, hN, not_lt.1 h2, c, fun i hi1 hi2 => d i hi1 (by omega), hle,
          fun _ => keepsSign_of (hle k (by omega)) hs⟩
        rw [hz]
        unfold tailTry
        simp only
        rw [if_pos (by omega)]

/-- Values of the array after a turn with exponent `m`, from `k+2` on: a curve with a double zero at
the end, with the coefficients of the fit with exponent `m`. -/
theorem tailTry_tail {N : ℕ} {x y : ℕ → ℝ} {k m i : ℕ} (hi1 : k + 2 ≤ i) (hi2 : i < N) :
    tailTry N x y k m i = (x (N - 1) - x i) ^ 2 *
      (tailC2 m (x (N - 1) - x k) (x (N - 1) - x (k + 1)) (y k) (y (k + 1)) +
       tailC3 m (x (N - 1) - x k) (x (N - 1) - x (k + 1)) (y k) (y (k + 1)) * (x (N - 1) - x i)) := by
  unfold tailTry
  simp only
  by_cases h : i + 1 = N
  · rw [if_pos h]
    have : i = N - 1 := by omega
    rw [this]
    ring
  · rw [if_neg h, if_pos ⟨hi1, hi2⟩]
    ring

/-- With the first exponent the tail is smooth. -/
theorem tailTry_smooth {N : ℕ} {x y : ℕ → ℝ} {k : ℕ} (hx : ∀ i j, i < j → j < N → x i < x j)
    (hk : k + 3 < N) : SmoothTail N x y (tailTry N x y k 2) k := by
  set d := x (N - 1) - x k with hd
  set e := x (N - 1) - x (k + 1) with he
  have hd0 : 0 < d := sub_pos.2 (hx _ _ (by omega) (by omega))
  have he0 : 0 < e := sub_pos.2 (hx _ _ (by omega) (by omega))
  have hed : e < d := by
    have := hx k (k + 1) (by omega) (by omega)
    rw [hd, he]; linarith
  obtain ⟨f1, f2⟩ := tail_fit (m := 2) hd0 he0 hed (y k) (y (k + 1))
  have hle : ∀ i, i ≤ k + 1 → tailTry N x y k 2 i = y i := by
    intro i hi
    unfold tailTry
    simp only
    rw [if_neg (by omega), if_neg (by omega)]
  refine ⟨hle, fun t => (x (N - 1) - t) ^ 2 * (tailC2 2 d e (y k) (y (k + 1)) +
    tailC3 2 d e (y k) (y (k + 1)) * (x (N - 1) - t)), ⟨2, _, _, le_rfl, fun _ => rfl⟩, ?_⟩
  intro i hi1 hi2
  rcases Nat.lt_or_ge i (k + 2) with hi | hi
  · rw [hle i (by omega)]
    have : i = k ∨ i = k + 1 := by omega
    rcases this with rfl | rfl
    · exact f1.symm
    · exact f2.symm
  · exact tailTry_tail hi hi2

/-- **C56.**  If the values fall no faster than the third power of the distance from the end of the
table, then the result has a smooth tail: from the point `k` on it lies on one curve that vanishes with its
slope at the end, and the sign does not change.  (Missing for the full property: steeper tables, for
which `c56_smooth_fails`.) -/
theorem c56_smooth_partial {N : ℕ} {x y : ℕ → ℝ} (hx : ∀ i j, i < j → j < N → x i < x j)
    (hbig : ∃ i < N, 1 / 10 ^ 10 ≤ |y i|) {k : ℕ}
    (hk2 : 2 ≤ k) (hk : k + 3 < N) (hq : (N : ℝ) / 4 ≤ k)
    (hline : lineVanishes x y (x (N - 1)) k = true)
    (hlast : ∀ i, k < i → i + 3 ≤ N → lineVanishes x y (x (N - 1)) i = false)
    (hsame : 0 ≤ y k * y (k + 1))
    (hslow : |y k| * (x (N - 1) - x (k + 1)) ^ 3 ≤ |y (k + 1)| * (x (N - 1) - x k) ^ 3) :
    ∃ z, tailSmoothening N x y = .ok z ∧ SmoothTail N x y z k ∧ KeepsSign N z k := by
  set d := x (N - 1) - x k with hd
  set e := x (N - 1) - x (k + 1) with he
  have hd0 : 0 < d := sub_pos.2 (hx _ _ (by omega) (by omega))
  have he0 : 0 < e := sub_pos.2 (hx _ _ (by omega) (by omega))
  have hed : e < d := by
    have := hx k (k + 1) (by omega) (by omega)
    rw [hd, he]; linarith
  have hfind : findTail (lineVanishes x y (x (N - 1))) (N - 3) = some k := by
    rcases hf : findTail (lineVanishes x y (x (N - 1))) (N - 3) with _ | k'
    · rw [findTail_none] at hf
      rw [hf k hk2 (by omega)] at hline
      simp at hline
    · obtain ⟨a, b, c, h4⟩ := findTail_some hf
      rcases lt_trichotomy k k' with h | h | h
      · rw [hlast k' h (by omega)] at c
        simp at c
      · rw [h]
      · rw [h4 k h (by omega)] at hline
        simp at hline
  obtain ⟨f1, f2⟩ := tail_fit (m := 2) hd0 he0 hed (y k) (y (k + 1))
  set c2 := tailC2 2 d e (y k) (y (k + 1)) with hc2
  set c3 := tailC3 2 d e (y k) (y (k + 1)) with hc3
  have hsm := tailTry_smooth (y := y) hx hk
  -- the sign condition of the first turn
  have hcond : ∀ i, k ≤ i → i < N → 0 ≤ tailTry N x y k 2 i * SignType.sign (y k) := by
    intro i hi1 hi2
    rcases Nat.lt_or_ge i (k + 2) with hi | hi
    · rw [hsm.1 i (by omega)]
      have : i = k ∨ i = k + 1 := by omega
      rcases this with rfl | rfl
      · rcases lt_trichotomy (y i) 0 with h | h | h
        · simp [sign_neg h]; linarith
        · simp [h]
        · simp [sign_pos h]; linarith
      · rcases lt_trichotomy (y k) 0 with h | h | h
        · simp [sign_neg h]; nlinarith
        · simp [h]
        · simp [sign_pos h]; nlinarith
    · rw [tailTry_tail hi hi2]
      set t := x (N - 1) - x i with ht
      have ht0 : 0 ≤ t := by
        rcases Nat.lt_or_ge i (N - 1) with h | h
        · exact (sub_pos.2 (hx _ _ h (by omega))).le
        · have : i = N - 1 := by omega
          simp [ht, this]
      have hte : t ≤ e := by
        have := hx (k + 1) i (by omega) hi2
        rw [ht, he]; linarith
      -- c2 d e (d-e) de.. : u(0) = c2
      have hc : c2 * (d ^ 2 * e ^ 2 * (d - e)) = y (k + 1) * d ^ 3 - y k * e ^ 3 := by
        rw [← f1, ← f2]; ring
      have hp : 0 < d ^ 2 * e ^ 2 * (d - e) := by
        have := sub_pos.2 hed
        positivity
      have hpos : 0 < y k → 0 ≤ c2 ∧ 0 ≤ c2 + c3 * e := by
        intro h
        have h1 : 0 ≤ y (k + 1) := by
          by_contra hn
          nlinarith
        rw [abs_of_pos h, abs_of_nonneg h1] at hslow
        constructor
        · exact nonneg_of_mul_nonneg_left (by rw [hc]; linarith) hp
        · by_contra hn
          have : e ^ 2 * (c2 + c3 * e) < 0 := mul_neg_of_pos_of_neg (by positivity) (by linarith)
          linarith
      have hneg : y k < 0 → c2 ≤ 0 ∧ c2 + c3 * e ≤ 0 := by
        intro h
        have h1 : y (k + 1) ≤ 0 := by
          by_contra hn
          nlinarith
        rw [abs_of_neg h, abs_of_nonpos h1] at hslow
        constructor
        · by_contra hn
          have := mul_pos (not_le.1 hn) hp
          rw [hc] at this
          linarith
        · by_contra hn
          have : 0 < e ^ 2 * (c2 + c3 * e) := mul_pos (by positivity) (by linarith)
          linarith
      have hconv : c2 + c3 * t = (1 - t / e) * c2 + t / e * (c2 + c3 * e) := by
        field_simp; ring
      have hte1 : t / e ≤ 1 := (div_le_one he0).2 hte
      have hte0 : 0 ≤ t / e := div_nonneg ht0 he0.le
      rcases lt_trichotomy (y k) 0 with h | h | h
      · obtain ⟨g1, g2⟩ := hneg h
        have : c2 + c3 * t ≤ 0 := by
          rw [hconv]
          have a1 := mul_nonpos_of_nonneg_of_nonpos (sub_nonneg.2 hte1) g1
          have a2 := mul_nonpos_of_nonneg_of_nonpos hte0 g2
          linarith
        simp only [sign_neg h, SignType.coe_neg_one]
        have := mul_nonpos_of_nonneg_of_nonpos (sq_nonneg t) this
        linarith
      · simp [h]
      · obtain ⟨g1, g2⟩ := hpos h
        have : 0 ≤ c2 + c3 * t := by
          rw [hconv]
          have a1 := mul_nonneg (sub_nonneg.2 hte1) g1
          have a2 := mul_nonneg hte0 g2
          linarith
        simp only [sign_pos h, SignType.coe_one]
        have := mul_nonneg (sq_nonneg t) this
        linarith
  refine ⟨tailTry N x y k 2, ?_, hsm, keepsSign_of (hsm.1 k (by omega)) hcond⟩
  unfold tailSmoothening
  rw [if_neg (by
    obtain ⟨i, hi, h⟩ := hbig
    exact fun hall => absurd (hall i hi) (not_lt.2 h))]
  simp only [hfind]
  rw [if_neg (not_lt.2 hq), if_neg (by omega)]
  unfold tailLoop
  simp only
  rw [if_pos hcond]

/-- **C56.**  Points on different sides of zero cannot be joined: `RuntimeError`, never a wrong
table. -/
theorem c56_sign_error {N : ℕ} {x y : ℕ → ℝ} (hbig : ∃ i < N, 1 / 10 ^ 10 ≤ |y i|) {k : ℕ}
    (hk2 : 2 ≤ k) (hk : k + 3 < N)
    (hline : lineVanishes x y (x (N - 1)) k = true)
    (hlast : ∀ i, k < i → i + 3 ≤ N → lineVanishes x y (x (N - 1)) i = false)
    (hsign : y k * y (k + 1) < 0) : tailSmoothening N x y = .error .runtimeError := by
  rcases h : tailSmoothening N x y with e | z
  · unfold tailSmoothening at h
    rw [if_neg (by
      obtain ⟨i, hi, h⟩ := hbig
      exact fun hall => absurd (hall i hi) (not_lt.2 h))] at h
    rcases hf : findTail (lineVanishes x y (x (N - 1))) (N - 3) with _ | k'
    · rw [findTail_none] at hf
      rw [hf k hk2 (by omega)] at hline
      simp at hline
    · simp only [hf] at h
      have hloop : ∀ left m, tailLoop N x y k' left m = .error e → e = .runtimeError := by
        intro left
        induction left with
        | zero =>
          intro m hm
          unfold tailLoop at hm
          simp only at hm
          split_ifs at hm
          simpa using hm.symm
        | succ left ih =>
          intro m hm
          unfold tailLoop at hm
          simp only at hm
          split_ifs at hm
          exact ih _ hm
      split_ifs at h with h2 h3
      · injection h with h
        rw [h]
      · rw [hloop _ _ h]
  · rcases c56_result h with ⟨h1, _⟩ | ⟨_, _, k', a, b, _, c, d, hle, hs⟩
    · obtain ⟨i, hi, h⟩ := hbig
      exact absurd (h1 i hi) (not_lt.2 h)
    · have hkk : k' = k := by
        rcases lt_trichotomy k k' with h | h | h
        · rw [hlast k' h b] at c
          simp at c
        · exact h.symm
        · rw [d k h (by omega)] at hline
          simp at hline
      subst hkk
      have := hs hk (k' + 1) (by omega) (by omega)
      rw [hle k' (by omega), hle (k' + 1) le_rfl] at this
      rcases lt_trichotomy (y k') 0 with h | h | h
      · nlinarith [this.2 h]
      · rw [h] at hsign; simp at hsign
      · nlinarith [this.1 h]

/-- **C56.**  When no line through neighbouring points vanishes before the end of the table, the
function dies with `UnboundLocalError`. -/
theorem c56_unbound {N : ℕ} {x y : ℕ → ℝ} (hbig : ∃ i < N, 1 / 10 ^ 10 ≤ |y i|)
    (h : ∀ i, 2 ≤ i → i + 3 ≤ N → lineVanishes x y (x (N - 1)) i = false) :
    tailSmoothening N x y = .error .unboundLocalError := by
  have hf : findTail (lineVanishes x y (x (N - 1))) (N - 3) = none := by
    rw [findTail_none]
    intro i hi1 hi2
    exact h i hi1 (by omega)
  unfold tailSmoothening
  rw [if_neg (by
    obtain ⟨i, hi, h⟩ := hbig
    exact fun hall => absurd (hall i hi) (not_lt.2 h))]
  simp only [hf]

/-- A table that falls like the fourth power of the distance from its end for two points, and slowly
after that. -/
noncomputable def steepTable : ℕ → ℝ
  | 0 => 1000
  | 1 => 625
  | 2 => 256
  | 3 => 81
  | 4 => 80
  | 5 => 79
  | _ => 0

/-- The same with a gentle fall. -/
noncomputable def gentleTable : ℕ → ℝ
  | 0 => 100
  | 1 => 90
  | 2 => 80
  | 3 => 40
  | 4 => 39
  | 5 => 38
  | _ => 0

theorem steep_tail : lineVanishes (fun i => (i : ℝ)) steepTable 6 2 = true ∧
    ∀ i, 2 < i → i + 3 ≤ 7 → lineVanishes (fun i => (i : ℝ)) steepTable 6 i = false := by
  constructor
  · norm_num [lineVanishes, steepTable]
  · intro i h1 h2
    have : i = 3 ∨ i = 4 := by omega
    rcases this with rfl | rfl <;> norm_num [lineVanishes, steepTable]

/-- `c56_smooth_partial` and `c56_result` apply to the gentle table. -/
example : ∃ z, tailSmoothening 7 (fun i => (i : ℝ)) gentleTable = .ok z ∧
    SmoothTail 7 (fun i => (i : ℝ)) gentleTable z 2 ∧ KeepsSign 7 z 2 := by
  apply c56_smooth_partial
  · intro i j h _
    simpa using h
  · exact ⟨0, by norm_num, by norm_num [gentleTable, abs_of_pos]⟩
  · norm_num
  · norm_num
  · norm_num
  · norm_num [lineVanishes, gentleTable]
  · intro i h1 h2
    have : i = 3 ∨ i = 4 := by omega
    rcases this with rfl | rfl <;> norm_num [lineVanishes, gentleTable]
  · norm_num [gentleTable]
  · norm_num [gentleTable, abs_of_pos]

/-- **C56 fails for steep tables.**  When the first exponent would change the sign, the coefficients of
the next fit are used with the exponents of the first: the returned values lie on no curve of the
announced form through the two retained points, for any exponent. -/
theorem c56_smooth_fails : ∃ z, tailSmoothening 7 (fun i => (i : ℝ)) steepTable = .ok z ∧
    z 4 = 8 ∧ z 5 = 1 ∧ ∀ k, 2 ≤ k → k + 3 < 7 → ¬ SmoothTail 7 (fun i => (i : ℝ)) steepTable z k := by
  have hfind : findTail (lineVanishes (fun i => (i : ℝ)) steepTable 6) 4 = some 2 := by
    obtain ⟨h1, h2⟩ := steep_tail
    simp [findTail, h2 4 (by norm_num) (by norm_num), h2 3 (by norm_num) (by norm_num), h1]
  have hc3 : tailC3 3 4 3 256 81 = 1 := by norm_num [tailC3]
  have hc2 : tailC2 3 4 3 256 81 = 0 := by norm_num [tailC2, hc3]
  have hz : ∀ i, tailTry 7 (fun i => (i : ℝ)) steepTable 2 3 i =
      if i + 1 = 7 then 0 else if 4 ≤ i ∧ i < 7 then (6 - (i : ℝ)) ^ 3 else steepTable i := by
    intro i
    unfold tailTry
    simp only
    have e1 : ((7 - 1 : ℕ) : ℝ) - ((2 : ℕ) : ℝ) = 4 := by norm_num
    have e2 : ((7 - 1 : ℕ) : ℝ) - ((2 + 1 : ℕ) : ℝ) = 3 := by norm_num
    rw [e1, e2]
    simp only [steepTable, hc2, hc3]
    norm_num
  refine ⟨tailTry 7 (fun i => (i : ℝ)) steepTable 2 3, ?_, ?_, ?_, ?_⟩
  · unfold tailSmoothening
    rw [if_neg (fun h => by
      have := h 0 (by norm_num)
      norm_num [steepTable, abs_of_pos] at this)]
    have : ((fun i : ℕ => (i : ℝ)) (7 - 1)) = 6 := by norm_num
    rw [this, hfind]
    simp only
    rw [if_neg (by norm_num), if_neg (by norm_num)]
    unfold tailLoop
    simp only
    rw [if_neg]
    · unfold tailLoop
      simp only
      rw [if_pos]
      intro i h1 h2
      rw [hz]
      have : i = 2 ∨ i = 3 ∨ i = 4 ∨ i = 5 ∨ i = 6 := by omega
      rcases this with rfl | rfl | rfl | rfl | rfl <;> norm_num [steepTable]
    · intro h
      have := h 5 (by norm_num) (by norm_num)
      norm_num [tailTry, tailC2, tailC3, steepTable] at this
  · rw [hz]; norm_num
  · rw [hz]; norm_num
  · rintro k hk1 hk2 ⟨hsame, g, ⟨m, c2, c3, hm, hg⟩, hval⟩
    have : k = 2 ∨ k = 3 := by omega
    rcases this with rfl | rfl
    · have h5 := hval 5 (by norm_num) (by norm_num)
      have h4 := hval 4 (by norm_num) (by norm_num)
      have h3 := hval 3 (by norm_num) (by norm_num)
      rw [hz, hg] at h3 h4 h5
      norm_num [steepTable] at h3 h4 h5
      -- `1 = c2 + c3`, `8 = 2^m (c2 + 2 c3)`, `81 = 3^m (c2 + 3 c3)`
      have e2 : c2 = 1 - c3 := by linarith
      subst e2
      rcases Nat.lt_or_ge m 4 with hm4 | hm4
      · interval_cases m <;> norm_num at h3 h4 <;> linarith
      · obtain ⟨j, rfl⟩ := Nat.exists_eq_add_of_le hm4
        have p2 : (1 : ℝ) ≤ 2 ^ j := one_le_pow₀ (by norm_num)
        have p3 : (0 : ℝ) < 3 ^ j := by positivity
        rw [pow_add] at h3 h4
        norm_num at h3 h4
        have q : 1 + 2 * c3 ≤ 0 := by
          by_contra hn
          push Not at hn
          nlinarith
        nlinarith
    · have := hsame 4 (by norm_num)
      rw [hz] at this
      norm_num [steepTable] at this

/-- A table below the threshold is returned as it is, with a last value different from zero. -/
theorem c56_end_fails : ∃ z, tailSmoothening 5 (fun i => (i : ℝ)) (fun _ => 1 / 10 ^ 11) = .ok z ∧
    z 4 ≠ 0 := by
  refine ⟨fun _ => 1 / 10 ^ 11, ?_, by norm_num⟩
  unfold tailSmoothening
  rw [if_pos]
  intro i _
  rw [abs_of_pos (by norm_num)]
  norm_num

/-- `c56_sign_error` applies: the values change sign between two points and stay negative. -/
example : tailSmoothening 7 (fun i => (i : ℝ))
    (fun i => if i = 0 then 5 else if i = 1 then 4 else if i = 2 then 3 else if i = 3 then -10
      else if i = 4 then -9 else if i = 5 then -8 else 0) = .error .runtimeError := by
  apply c56_sign_error (k := 2)
  · exact ⟨0, by norm_num, by norm_num [abs_of_pos]⟩
  · norm_num
  · norm_num
  · norm_num [lineVanishes]
  · intro i h1 h2
    have : i = 3 ∨ i = 4 := by omega
    rcases this with rfl | rfl <;> norm_num [lineVanishes]
  · norm_num

/-- `c56_unbound` applies: a slowly falling table. -/
example : tailSmoothening 6 (fun i => (i : ℝ)) (fun i => 100 - i) = .error .unboundLocalError := by
  apply c56_unbound
  · exact ⟨0, by norm_num, by norm_num [abs_of_pos]⟩
  · intro i h1 h2
    have : i = 2 ∨ i = 3 := by omega
    rcases this with rfl | rfl <;> norm_num [lineVanishes]

end Hotbit
