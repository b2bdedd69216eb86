import Verif.Props.Mixers
import Mathlib.Algebra.Module.LinearMap.Basic

/-!
# C75: what the mixers compute

Without damping the mixers return `x̄ + β·F̄`, where `x̄` is a combination, with coefficients that add
up to one, of the remembered inputs and `F̄` the same combination of their residuals (output minus
input).  The combination is the one with the smallest `F̄`.
-/

set_option linter.unusedSimpArgs false

namespace Hotbit

variable {n : ℕ}

theorem dotQ_sub_left (a b c : QVec n) : dotQ (a - b) c = dotQ a c - dotQ b c := by
  simp [dotQ, sub_mul, Finset.sum_sub_distrib]

theorem dotQ_add_left (a b c : QVec n) : dotQ (a + b) c = dotQ a c + dotQ b c := by
  simp [dotQ, add_mul, Finset.sum_add_distrib]

theorem dotQ_comm (a b : QVec n) : dotQ a b = dotQ b a := by
  simp [dotQ, mul_comm]

theorem dotQ_smul_left (k : ℝ) (a b : QVec n) : dotQ (k • a) b = k * dotQ a b := by
  simp [dotQ, Finset.mul_sum, mul_assoc]

theorem dotQ_sum_left {ι : Type} (s : Finset ι) (f : ι → QVec n) (b : QVec n) :
    dotQ (∑ i ∈ s, f i) b = ∑ i ∈ s, dotQ (f i) b := by
  classical
  induction s using Finset.induction_on with
  | empty => simp [dotQ]
  | insert i s hi ih => rw [Finset.sum_insert hi, Finset.sum_insert hi, dotQ_add_left, ih]

theorem dotQ_self_nonneg (a : QVec n) : 0 ≤ dotQ a a :=
  Finset.sum_nonneg fun i _ => mul_self_nonneg _

theorem dotQ_self_zero {a : QVec n} (h : dotQ a a = 0) : a = 0 := by
  funext i
  have := (Finset.sum_eq_zero_iff_of_nonneg fun i _ => mul_self_nonneg (a i)).mp h i (Finset.mem_univ i)
  exact mul_self_eq_zero.mp this

/-- The calls a mixer with the given memory remembers, most recent first. -/
def remembered (memory : ℕ) (h : List (QVec n × QVec n)) : List (QVec n × QVec n) :=
  h.reverse.take memory

theorem runMixer_hist (p : MixerParams)
    (call : MixerState n → QVec n → QVec n → Bool × QVec n × MixerState n)
    (hcall : ∀ s xi yi, (call s xi yi).2.2 =
      { it := s.it + 1, F := ((yi - xi) :: s.F).take p.memory, x := (xi :: s.x).take p.memory,
        fmax := maxAbs (yi - xi) :: s.fmax })
    (h : List (QVec n × QVec n)) :
    (runMixer call h).it = h.length ∧
    (runMixer call h).F = (remembered p.memory h).map (fun q => q.2 - q.1) ∧
    (runMixer call h).x = (remembered p.memory h).map Prod.fst := by
  induction h using List.reverseRecOn with
  | nil => simp [runMixer, MixerState.reset, remembered]
  | append_singleton h a ih =>
    have hstep : runMixer call (h ++ [a]) = (call (runMixer call h) a.1 a.2).2.2 := by
      unfold runMixer
      rw [List.foldl_append]
      rfl
    rw [hstep, hcall]
    have htake : ∀ {α : Type} (b : α) (l : List α) (m : ℕ), (b :: l.take m).take m = (b :: l).take m := by
      intro α b l m
      cases m with
      | zero => rfl
      | succ m => simp [List.take_take]
    have hrem : remembered p.memory (h ++ [a]) = (a :: h.reverse).take p.memory := by
      unfold remembered
      rw [List.reverse_append]
      rfl
    refine ⟨by simp [ih.1], ?_, ?_⟩
    · show (_ :: (runMixer call h).F).take p.memory = _
      rw [ih.2.1, hrem]
      unfold remembered
      rw [List.map_take, htake, List.map_take, List.map_cons]
    · show (_ :: (runMixer call h).x).take p.memory = _
      rw [ih.2.2, hrem]
      unfold remembered
      rw [List.map_take, htake, List.map_take, List.map_cons]

theorem getD_map_lt {α : Type} (l : List α) (f : α → QVec n) (j : Fin l.length) :
    (l.map f).getD j 0 = f l[j] := by
  rw [List.getD_eq_getElem?_getD, List.getElem?_map, List.getElem?_eq_getElem j.2]
  rfl

/-- **C75 (simple mixing).** With at most one remembered call the undamped output goes from the input
the fraction `β` of the way to the output. -/
theorem c75_simple (p : MixerParams) (hp : p.chop = none)
    (solve : {M : ℕ} → (Fin M → Fin M → ℝ) → (Fin M → ℝ) → Option (Fin M → ℝ))
    (h : List (QVec n × QVec n)) (hh : h.length ≤ 1 ∨ p.memory ≤ 1) (x y : QVec n) :
    (andersonCall p solve (runMixer (andersonCall p solve) h) x y).2.1 = x + p.beta • (y - x) := by
  have hs := runMixer_hist p (andersonCall p solve) (fun _ _ _ => rfl) h
  generalize runMixer (andersonCall p solve) h = st at *
  unfold andersonCall
  simp only [chopStep, hp]
  rw [if_pos (by rw [hs.1]; omega)]
  unfold simpleMix
  module

/-- `c` solves the linear system of the Anderson mixer. -/
def SolvesSystem {M : ℕ} (A : Fin M → Fin M → ℝ) (b c : Fin M → ℝ) : Prop := ∀ i, ∑ j, A i j * c j = b i

/-- The output of the Anderson mixer before damping, for `M` remembered calls. -/
noncomputable def andersonMix (p : MixerParams)
    (solve : {M : ℕ} → (Fin M → Fin M → ℝ) → (Fin M → ℝ) → Option (Fin M → ℝ)) (st : MixerState n)
    (M : ℕ) (x y : QVec n) : QVec n :=
  (solve (M := M) (fun i j => dotQ ((y - x) - st.F.getD i 0) ((y - x) - st.F.getD j 0))
      (fun i => dotQ ((y - x) - st.F.getD i 0) (y - x))).elim (simpleMix p x y) fun c =>
    (x + ∑ j, c j • (st.x.getD j 0 - x)) + p.beta • ((y - x) + ∑ j, c j • (st.F.getD j 0 - (y - x)))

/-- The output of the Pulay mixer before damping, for `M` calls. -/
noncomputable def pulayMix (p : MixerParams)
    (inv : {M : ℕ} → (Fin M → Fin M → ℝ) → Option (Fin M → Fin M → ℝ)) (R rho : List (QVec n))
    (M : ℕ) (x y : QVec n) : QVec n :=
  (inv (M := M) (fun i j => dotQ (R.getD j 0) (R.getD i 0))).elim (simpleMix p x y) fun iA =>
    ∑ i : Fin M, ((∑ j, iA j i) / ∑ i, ∑ j, iA i j) • (rho.getD i 0 + p.beta • R.getD i 0)

/-- The matrix and the right hand side of the least squares problem for the residual `F0` and the
remembered calls. -/
noncomputable def normalMatrix (past : List (QVec n × QVec n)) (F0 : QVec n) (i j : Fin past.length) : ℝ :=
  dotQ (F0 - (past[i].2 - past[i].1)) (F0 - (past[j].2 - past[j].1))

@[inherit_doc normalMatrix]
noncomputable def normalRhs (past : List (QVec n × QVec n)) (F0 : QVec n) (i : Fin past.length) : ℝ :=
  dotQ (F0 - (past[i].2 - past[i].1)) F0

/-- **C75 (Anderson mixing).** With more remembered calls, and a linear solver that solves the system, the undamped
output is `x̄ + β·F̄` with one set of coefficients for inputs and residuals, and `F̄` is not longer than
the residual of any other combination. -/
theorem c75_anderson (p : MixerParams) (hp : p.chop = none)
    (solve : {M : ℕ} → (Fin M → Fin M → ℝ) → (Fin M → ℝ) → Option (Fin M → ℝ))
    (hsolve : ∀ (M : ℕ) (A : Fin M → Fin M → ℝ) b c, solve A b = some c → SolvesSystem A b c)
    (h : List (QVec n × QVec n)) (hh : 2 ≤ h.length) (hm : 2 ≤ p.memory) (x y : QVec n)
    (hok : solve (normalMatrix (remembered p.memory h) (y - x)) (normalRhs (remembered p.memory h) (y - x))
      ≠ none) :
    let past := remembered p.memory h
    let comb := fun (c : Fin past.length → ℝ) => (y - x) + ∑ j, c j • ((past[j].2 - past[j].1) - (y - x))
    ∃ c : Fin past.length → ℝ,
      (andersonCall p solve (runMixer (andersonCall p solve) h) x y).2.1
        = (x + ∑ j, c j • (past[j].1 - x)) + p.beta • comb c ∧
      ∀ d : Fin past.length → ℝ, dotQ (comb c) (comb c) ≤ dotQ (comb d) (comb d) := by
  intro past comb
  have hs := runMixer_hist p (andersonCall p solve) (fun _ _ _ => rfl) h
  generalize runMixer (andersonCall p solve) h = st at *
  have hlen : min st.it p.memory = past.length := by
    rw [hs.1]
    simp [past, remembered, min_comm]
  have hM : ¬ min st.it p.memory ≤ 1 := by
    rw [hs.1]; omega
  have hcall : (andersonCall p solve st x y).2.1 = andersonMix p solve st (min st.it p.memory) x y := by
    unfold andersonCall andersonMix
    simp only [chopStep, hp]
    rw [if_neg hM]
    cases solve (M := min st.it p.memory) (fun i j => dotQ ((y - x) - st.F.getD i 0) ((y - x) - st.F.getD j 0))
      (fun i => dotQ ((y - x) - st.F.getD i 0) (y - x)) <;> rfl
  rw [hcall, hlen]
  have hF : ∀ j : Fin past.length, st.F.getD j 0 = past[j].2 - past[j].1 := by
    intro j
    rw [hs.2.1]
    exact getD_map_lt past _ j
  have hX : ∀ j : Fin past.length, st.x.getD j 0 = past[j].1 := by
    intro j
    rw [hs.2.2]
    exact getD_map_lt past _ j
  obtain ⟨c, hc⟩ := Option.ne_none_iff_exists'.mp hok
  have hsys := hsolve _ _ _ _ hc
  have hmix : andersonMix p solve st past.length x y
      = (x + ∑ j, c j • (past[j].1 - x)) + p.beta • comb c := by
    have hc' : solve (M := past.length)
        (fun i j => dotQ ((y - x) - (past[i].2 - past[i].1)) ((y - x) - (past[j].2 - past[j].1)))
        (fun i => dotQ ((y - x) - (past[i].2 - past[i].1)) (y - x)) = some c := hc
    unfold andersonMix
    simp only [hF, hX, hc', Option.elim]
    rfl
  refine ⟨c, hmix, fun d => ?_⟩
  -- orthogonality of the best residual
  have horth : ∀ i : Fin past.length, dotQ ((y - x) - (past[i].2 - past[i].1)) (comb c) = 0 := by
    intro i
    have h1 := hsys i
    simp only [normalMatrix, normalRhs] at h1
    show dotQ _ ((y - x) + ∑ j, c j • ((past[j].2 - past[j].1) - (y - x))) = 0
    rw [dotQ_comm, dotQ_add_left, dotQ_sum_left, dotQ_comm (y - x), ← h1, ← Finset.sum_add_distrib]
    refine Finset.sum_eq_zero fun j _ => ?_
    rw [dotQ_smul_left, dotQ_comm (_ - (y - x))]
    have : (past[j].2 - past[j].1) - (y - x) = (-1 : ℝ) • ((y - x) - (past[j].2 - past[j].1)) := by module
    rw [this, dotQ_comm _ ((-1 : ℝ) • _), dotQ_smul_left, dotQ_comm _ ((y - x) - (past[i].2 - past[i].1))]
    ring
  have hdiff : comb d = comb c + ∑ j, (c j - d j) • ((y - x) - (past[j].2 - past[j].1)) := by
    show (y - x) + _ = (y - x) + _ + _
    rw [add_assoc, ← Finset.sum_add_distrib]
    congr 1
    refine Finset.sum_congr rfl fun j _ => ?_
    module
  have hcross : dotQ (∑ j, (c j - d j) • ((y - x) - (past[j].2 - past[j].1))) (comb c) = 0 := by
    rw [dotQ_sum_left]
    refine Finset.sum_eq_zero fun j _ => ?_
    rw [dotQ_smul_left, horth, mul_zero]
  generalize (∑ j, (c j - d j) • ((y - x) - (past[j].2 - past[j].1)) : QVec n) = D at *
  rw [hdiff]
  generalize comb c = C at hcross ⊢
  have h1 : dotQ (C + D) (C + D) = dotQ C C + dotQ D D := by
    rw [dotQ_add_left, dotQ_comm C (C + D), dotQ_comm D (C + D), dotQ_add_left, dotQ_add_left, hcross,
      dotQ_comm C D, hcross]
    ring
  rw [h1]
  have := dotQ_self_nonneg D
  linarith

/-- **C75 (affine problems).** If the residual is an affine function of the charges and some
combination of the remembered inputs and the present one is self-consistent, the Anderson mixer
returns self-consistent charges, whatever `β` is. -/
theorem c75_affine (p : MixerParams) (hp : p.chop = none)
    (solve : {M : ℕ} → (Fin M → Fin M → ℝ) → (Fin M → ℝ) → Option (Fin M → ℝ))
    (hsolve : ∀ (M : ℕ) (A : Fin M → Fin M → ℝ) b c, solve A b = some c → SolvesSystem A b c)
    (L : QVec n →ₗ[ℝ] QVec n) (r0 : QVec n)
    (h : List (QVec n × QVec n)) (hr : ∀ q ∈ h, q.2 = q.1 + (r0 + L q.1))
    (hh : 2 ≤ h.length) (hm : 2 ≤ p.memory) (x : QVec n)
    (hok : solve (normalMatrix (remembered p.memory h) (r0 + L x)) (normalRhs (remembered p.memory h)
      (r0 + L x)) ≠ none)
    (hd : ∃ d : Fin (remembered p.memory h).length → ℝ,
      let z := x + ∑ j, d j • ((remembered p.memory h)[j].1 - x)
      r0 + L z = 0) :
    let z := (andersonCall p solve (runMixer (andersonCall p solve) h) x (x + (r0 + L x))).2.1
    r0 + L z = 0 := by
  intro z
  obtain ⟨c, hc, hmin⟩ := c75_anderson p hp solve hsolve h hh hm x (x + (r0 + L x))
    (by rw [add_sub_cancel_left]; exact hok)
  obtain ⟨d, hd⟩ := hd
  have hcomb : ∀ c : Fin (remembered p.memory h).length → ℝ,
      (x + (r0 + L x) - x) + ∑ j, c j • (((remembered p.memory h)[j].2 - (remembered p.memory h)[j].1)
        - (x + (r0 + L x) - x)) = r0 + L (x + ∑ j, c j • ((remembered p.memory h)[j].1 - x)) := by
    intro c
    have hq : ∀ j : Fin (remembered p.memory h).length, (remembered p.memory h)[j].2
        = (remembered p.memory h)[j].1 + (r0 + L (remembered p.memory h)[j].1) := fun j =>
      hr _ (List.mem_reverse.mp (List.mem_of_mem_take (List.getElem_mem j.2)))
    simp only [hq, map_add, map_sum, map_smul, map_sub]
    rw [add_sub_cancel_left, add_assoc]
    congr 2
    refine Finset.sum_congr rfl fun j _ => ?_
    congr 1
    abel
  have h0 := hmin d
  simp only [hcomb] at h0 hc
  rw [hd] at h0
  have h1 : dotQ (0 : QVec n) 0 = 0 := by simp [dotQ]
  rw [h1] at h0
  have h2 := dotQ_self_zero (le_antisymm h0 (dotQ_self_nonneg _))
  rw [h2, smul_zero, add_zero] at hc
  show r0 + L (andersonCall p solve (runMixer (andersonCall p solve) h) x (x + (r0 + L x))).2.1 = 0
  rw [hc]
  exact h2

/-- **C75 (Pulay mixing).** If the computed inverse is one, the undamped output is `Σ αᵢ(xᵢ + β·Rᵢ)`
over the remembered calls and the present one, with `Σ αᵢ = 1` and the smallest combined residual. -/
theorem c75_pulay (p : MixerParams) (hp : p.chop = none) (hm : 1 ≤ p.memory)
    (inv : {M : ℕ} → (Fin M → Fin M → ℝ) → Option (Fin M → Fin M → ℝ))
    (h : List (QVec n × QVec n)) (x y : QVec n) (iA : Fin (remembered p.memory (h ++ [(x, y)])).length →
      Fin (remembered p.memory (h ++ [(x, y)])).length → ℝ) :
    let all := remembered p.memory (h ++ [(x, y)])
    let res := fun i : Fin all.length => all[i].2 - all[i].1
    let A := fun i j => dotQ (res j) (res i)
    inv A = some iA → (∀ i j, ∑ k, iA i k * A k j = if i = j then 1 else 0) →
    ∃ α : Fin all.length → ℝ, ∑ i, α i = 1 ∧
      (pulayCall p inv (runMixer (pulayCall p inv) h) x y).2.1 = ∑ i, α i • (all[i].1 + p.beta • res i) ∧
      ∀ γ : Fin all.length → ℝ, ∑ i, γ i = 1 →
        dotQ (∑ i, α i • res i) (∑ i, α i • res i) ≤ dotQ (∑ i, γ i • res i) (∑ i, γ i • res i) := by
  intro all res A hinv hA
  have hs := runMixer_hist p (pulayCall p inv) (fun _ _ _ => rfl) h
  have hs' := runMixer_hist p (pulayCall p inv) (fun _ _ _ => rfl) (h ++ [(x, y)])
  have hstep : runMixer (pulayCall p inv) (h ++ [(x, y)])
      = (pulayCall p inv (runMixer (pulayCall p inv) h) x y).2.2 := by
    unfold runMixer
    rw [List.foldl_append]
    rfl
  rw [hstep] at hs'
  generalize runMixer (pulayCall p inv) h = st at *
  have hR : ((y - x) :: st.F).take p.memory = all.map fun q => q.2 - q.1 := hs'.2.1
  have hX : (x :: st.x).take p.memory = all.map Prod.fst := hs'.2.2
  have hpos : 0 < all.length := by
    show 0 < ((h ++ [(x, y)]).reverse.take p.memory).length
    simp
    omega
  have hlen : min (st.it + 1) p.memory = all.length := by
    rw [hs.1]
    simp [all, remembered, min_comm]
  have hcall : (pulayCall p inv st x y).2.1 = pulayMix p inv (((y - x) :: st.F).take p.memory)
      ((x :: st.x).take p.memory) (min (st.it + 1) p.memory) x y := by
    unfold pulayCall pulayMix
    simp only [chopStep, hp]
    cases inv (M := min (st.it + 1) p.memory) (fun i j =>
      dotQ ((((y - x) :: st.F).take p.memory).getD j 0) ((((y - x) :: st.F).take p.memory).getD i 0)) <;> rfl
  rw [hcall, hlen, hR, hX]
  unfold pulayMix
  simp only [getD_map_lt]
  have hinv' : inv (fun i j : Fin all.length => dotQ (all[j].2 - all[j].1) (all[i].2 - all[i].1)) = some iA :=
    hinv
  rw [hinv']
  simp only [Option.elim]
  have hAs : ∀ i j, A i j = A j i := fun i j => dotQ_comm _ _
  let v : Fin all.length → ℝ := fun k => ∑ j, iA j k
  have hv : ∀ i, ∑ k, v k * A k i = 1 := by
    intro i
    show ∑ k, (∑ j, iA j k) * A k i = 1
    simp only [Finset.sum_mul]
    rw [Finset.sum_comm]
    simp only [hA]
    simp
  have hdot : ∀ (a : Fin all.length → ℝ) i, dotQ (∑ k, a k • res k) (res i) = ∑ k, a k * A k i := by
    intro a i
    rw [dotQ_sum_left]
    refine Finset.sum_congr rfl fun k _ => ?_
    rw [dotQ_smul_left, hAs]
  have hdd : ∀ a b : Fin all.length → ℝ, dotQ (∑ k, a k • res k) (∑ k, b k • res k)
      = ∑ i, b i * ∑ k, a k * A k i := by
    intro a b
    rw [dotQ_comm, dotQ_sum_left]
    refine Finset.sum_congr rfl fun i _ => ?_
    rw [dotQ_smul_left, dotQ_comm, hdot]
  have hdown : ∑ i, ∑ j, iA i j = ∑ k, v k := Finset.sum_comm
  have hd0 : ∑ k, v k ≠ 0 := by
    intro h0
    have h1 := hdd v v
    simp only [hv, mul_one, h0] at h1
    have h2 := dotQ_self_zero h1
    have h3 := hdot v ⟨0, hpos⟩
    rw [h2, hv] at h3
    simp [dotQ] at h3
  let α : Fin all.length → ℝ := fun i => (∑ j, iA j i) / ∑ i, ∑ j, iA i j
  have hα : ∀ i, ∑ k, α k * A k i = 1 / ∑ k, v k := by
    intro i
    show ∑ k, v k / (∑ i, ∑ j, iA i j) * A k i = _
    rw [hdown, ← hv i, Finset.sum_div]
    refine Finset.sum_congr rfl fun k _ => ?_
    ring
  have hα1 : ∑ i, α i = 1 := by
    show ∑ i, v i / (∑ i, ∑ j, iA i j) = 1
    rw [← Finset.sum_div, hdown, div_self hd0]
  refine ⟨α, hα1, rfl, fun γ hγ => ?_⟩
  have hsq : ∀ b : Fin all.length → ℝ, ∑ i, b i = 1 →
      dotQ (∑ k, α k • res k) (∑ k, b k • res k) = 1 / ∑ k, v k := by
    intro b hb
    rw [hdd]
    simp only [hα]
    rw [← Finset.sum_mul, hb, one_mul]
  have hnn := dotQ_self_nonneg (∑ k, γ k • res k - ∑ k, α k • res k)
  rw [dotQ_sub_left, dotQ_comm _ (_ - _), dotQ_comm (∑ k, α k • res k) (_ - _), dotQ_sub_left, dotQ_sub_left,
    hsq γ hγ, hsq α hα1, dotQ_comm (∑ k, γ k • res k) (∑ k, α k • res k), hsq γ hγ] at hnn
  rw [hsq α hα1]
  linarith

/-- A Pulay mixer with a correct inverse for one vector returns `x + β(y-x)` at the first call. -/
example : ∃ (p : MixerParams) (inv : {M : ℕ} → (Fin M → Fin M → ℝ) → Option (Fin M → Fin M → ℝ)),
    p.chop = none ∧ 1 ≤ p.memory ∧
    (pulayCall (n := 2) p inv (runMixer (pulayCall p inv) []) ![0, 0] ![1, 0]).2.1 = ![1 / 2, 0] := by
  refine ⟨⟨1 / 2, 3, 1, none⟩, fun A => some fun i j => (A i j)⁻¹, rfl, by norm_num, ?_⟩
  simp [pulayCall, runMixer, MixerState.reset, chopStep, dotQ]
  rw [← mul_assoc, mul_inv_cancel₀, one_mul]
  exact Nat.cast_ne_zero.mpr (by decide)

/-- Solvers as assumed above exist: return a solution if there is one. -/
example : ∃ solve : {M : ℕ} → (Fin M → Fin M → ℝ) → (Fin M → ℝ) → Option (Fin M → ℝ),
    (∀ (M : ℕ) (A : Fin M → Fin M → ℝ) b c, solve A b = some c → SolvesSystem A b c) ∧
    ∀ (M : ℕ) (A : Fin M → Fin M → ℝ) b, (∃ c, SolvesSystem A b c) → solve A b ≠ none := by
  classical
  refine ⟨fun A b => if h : ∃ c, SolvesSystem A b c then some h.choose else none, ?_, ?_⟩
  · intro M A b c h
    simp only at h
    split at h
    · rename_i hc
      rw [← Option.some.inj h]
      exact hc.choose_spec
    · cases h
  · intro M A b h
    simp [h]

/-- With two remembered calls of the affine problem `y = x + (1 - 2x)` in one dimension the
self-consistent value `1/2` is a combination, as `c75_affine` assumes. -/
example : ∃ d : Fin (remembered 5 [((![0] : QVec 1), (![1] : QVec 1)), (![1], ![0])]).length → ℝ,
    (![1] : QVec 1) + (-2 : ℝ) • ((![3] : QVec 1) + ∑ j, d j •
      ((remembered 5 [((![0] : QVec 1), (![1] : QVec 1)), (![1], ![0])])[j].1 - ![3])) = 0 := by
  refine ⟨![1 / 2, 1 / 2], ?_⟩
  have : remembered 5 [((![0] : QVec 1), (![1] : QVec 1)), (![1], ![0])]
      = [(![1], ![0]), (![0], ![1])] := rfl
  show (![1] : QVec 1) + (-2 : ℝ) • ((![3] : QVec 1) + ∑ j : Fin 2, (![1 / 2, 1 / 2] : Fin 2 → ℝ) j •
      (([(![1], ![0]), (![0], ![1])] : List (QVec 1 × QVec 1))[j].1 - ![3])) = 0
  rw [Fin.sum_univ_two]
  ext i
  fin_cases i
  simp
  norm_num

end Hotbit
