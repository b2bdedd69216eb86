import Verif.Spec.Multipole
import Verif.Lemmas.SolidHarmonics
import Verif.Lemmas.Containers
import Mathlib.Algebra.Polynomial.Eval.Degree
import Mathlib.Tactic.LinearCombination

/-!
# Helper lemmas about multipole moments
-/

namespace Hotbit

open Polynomial Complex Finset

/-! ### The index -/

theorem tri_succ (l : ℤ) : (l + 1) * l / 2 = l * (l - 1) / 2 + l := by
  have : (l + 1) * l = l * (l - 1) + l * 2 := by ring
  rw [this, Int.add_mul_ediv_right _ _ (by norm_num)]

theorem lm2index_succ (l m : ℤ) : lm2index (l + 1) m = lm2index l m + l := by
  unfold lm2index
  have := tri_succ l
  rw [show l + 1 - 1 = l by ring]
  omega

theorem lm2index_one (m : ℤ) : lm2index 1 m = m - 1 := by unfold lm2index; norm_num

theorem lm2index_add (l m k : ℤ) : lm2index l (m + k) = lm2index l m + k := by unfold lm2index; ring

theorem lm2index_lt (l l' : ℕ) (h : l < l') : lm2index l l < lm2index l' 1 := by
  induction l', h using Nat.le_induction with
  | base =>
    push_cast
    rw [lm2index_succ]
    have := lm2index_add l 0 l
    have := lm2index_add l 0 1
    simp at *; omega
  | succ n hn ih =>
    push_cast
    rw [lm2index_succ]
    omega

theorem lm2index_mono {l m l' m' : ℕ} (hm : m ≤ l) (hl : l < l') (hm' : 1 ≤ m') :
    lm2index l m < lm2index l' m' := by
  have h := lm2index_lt l l' hl
  have h1 := lm2index_add l 0 l
  have h2 := lm2index_add l 0 m
  have h3 := lm2index_add l' 0 m'
  have h4 := lm2index_add l' 0 1
  simp at *; omega

theorem lm2index_inj {l m l' m' : ℕ} (h1 : 1 ≤ m) (h2 : m ≤ l) (h1' : 1 ≤ m') (h2' : m' ≤ l')
    (h : lm2index l m = lm2index l' m') : l = l' ∧ m = m' := by
  rcases lt_trichotomy l l' with hl | hl | hl
  · exact absurd h (lm2index_mono h2 hl h1').ne
  · subst hl
    refine ⟨rfl, ?_⟩
    unfold lm2index at h; omega
  · exact absurd h (lm2index_mono h2' hl h1).ne'

theorem mem_lmPairs {lmax : ℕ} {p : ℕ × ℕ} : p ∈ lmPairs lmax ↔ 1 ≤ p.2 ∧ p.2 ≤ p.1 ∧ p.1 ≤ lmax := by
  unfold lmPairs
  simp only [List.mem_flatMap, List.mem_range, List.mem_map]
  constructor
  · rintro ⟨l, hl, m, hm, rfl⟩; simp; omega
  · rintro ⟨h1, h2, h3⟩
    exact ⟨p.1 - 1, by omega, p.2 - 1, by omega, by ext <;> simp <;> omega⟩

theorem lmPairs_succ (n : ℕ) : lmPairs (n + 1) = lmPairs n ++ (List.range (n + 1)).map fun m => (n + 1, m + 1) := by
  have h : lmPairs (n + 1) = (List.range n ++ [n]).flatMap fun l => (List.range (l + 1)).map fun m => (l + 1, m + 1) := by
    rw [← List.range_succ]; rfl
  rw [h, List.flatMap_append, List.flatMap_singleton]; rfl

theorem lmPairs_length (n : ℕ) : ((lmPairs n).length : ℤ) = lm2index n n + 1 := by
  induction n with
  | zero => simp [lmPairs, lm2index]
  | succ n ih =>
    rw [lmPairs_succ, List.length_append, List.length_map, List.length_range]
    push_cast
    rw [ih, lm2index_succ, lm2index_add]; ring

theorem foldl_update_not_mem {α β : Type} [DecidableEq β] {γ : Type} (l : List α) (key : α → β)
    (val : (β → γ) → α → γ) (a : β → γ) (j : β) (h : ∀ x ∈ l, key x ≠ j) :
    (l.foldl (fun a x => Function.update a (key x) (val a x)) a) j = a j := by
  induction l generalizing a with
  | nil => rfl
  | cons x l ih =>
    rw [List.foldl_cons, ih _ fun y hy => h y (List.mem_cons_of_mem _ hy),
      Function.update_of_ne (h x List.mem_cons_self).symm]

theorem storeLM_of_le (n : ℕ) (f : ℕ → ℕ → ℂ) (a : ℤ → ℂ) {l m : ℕ} (h1 : 1 ≤ m) (h2 : m ≤ l) (h3 : l ≤ n) :
    storeLM n f a (lm2index l m) = f l m := by
  unfold storeLM
  have hmem : (l, m) ∈ lmPairs n := mem_lmPairs.2 ⟨h1, h2, h3⟩
  have key : ∀ (L : List (ℕ × ℕ)) (a : ℤ → ℂ), (∀ p ∈ L, 1 ≤ p.2 ∧ p.2 ≤ p.1) → (l, m) ∈ L →
      (L.foldl (fun a p => Function.update a (lm2index p.1 p.2) (f p.1 p.2)) a) (lm2index l m) = f l m := by
    intro L
    induction L using List.reverseRecOn with
    | nil => intro a _ h; simp at h
    | append_singleton L x ih =>
      intro a hL hx
      rw [List.foldl_append]
      simp only [List.foldl_cons, List.foldl_nil]
      by_cases e : x = (l, m)
      · subst e; simp
      · rw [Function.update_of_ne]
        · apply ih a (fun p hp => hL p (List.mem_append_left _ hp))
          rcases List.mem_append.1 hx with h | h
          · exact h
          · simp at h; exact absurd h.symm e
        · intro he
          have hx' := hL x (List.mem_append_right _ (by simp))
          obtain ⟨e1, e2⟩ := lm2index_inj h1 h2 hx'.1 hx'.2 he
          exact e (Prod.ext e1.symm e2.symm)
  exact key _ a (fun p hp => ⟨(mem_lmPairs.1 hp).1, (mem_lmPairs.1 hp).2.1⟩) hmem

theorem zipIdx_lmPairs (n : ℕ) : (lmPairs n).zipIdx.map (fun p => ((p.1.1, p.1.2), (p.2 : ℤ))) =
    (lmPairs n).map fun p => ((p.1, p.2), lm2index p.1 p.2) := by
  induction n with
  | zero => simp [lmPairs]
  | succ n ih =>
    rw [lmPairs_succ, List.zipIdx_append, List.map_append, List.map_append, ih]
    congr 1
    apply List.ext_getElem
    · simp
    · intro i h1 h2
      simp
      have := lmPairs_length n
      rw [lm2index_succ, add_comm (i : ℤ) 1, lm2index_add]
      have := lm2index_add n 0 n
      have := lm2index_add n 0 1
      simp at *
      omega

theorem accumLM_eq (n : ℕ) (f : ℕ → ℕ → ℂ) (a : ℤ → ℂ) :
    accumLM n f a = (lmPairs n).foldl (fun a p => Function.update a (lm2index p.1 p.2)
      (a (lm2index p.1 p.2) + f p.1 p.2)) a := by
  have h := zipIdx_lmPairs n
  have e1 : accumLM n f a = ((lmPairs n).zipIdx.map (fun p => ((p.1.1, p.1.2), (p.2 : ℤ)))).foldl
      (fun a p => Function.update a p.2 (a p.2 + f p.1.1 p.1.2)) a := by
    rw [List.foldl_map]; rfl
  rw [e1, h, List.foldl_map]

theorem lmPairs_nodup (n : ℕ) : (lmPairs n).Nodup := by
  induction n with
  | zero => simp [lmPairs]
  | succ n ih =>
    rw [lmPairs_succ, List.nodup_append]
    refine ⟨ih, ?_, ?_⟩
    · refine List.Nodup.map ?_ List.nodup_range
      intro a b h; simpa using h
    · intro a ha b hb
      have := (mem_lmPairs.1 ha).2.2
      rw [List.mem_map] at hb
      obtain ⟨m, _, rfl⟩ := hb
      intro e; rw [e] at this; simp at this

theorem accumLM_of_le (n : ℕ) (f : ℕ → ℕ → ℂ) (a : ℤ → ℂ) {l m : ℕ} (h1 : 1 ≤ m) (h2 : m ≤ l) (h3 : l ≤ n) :
    accumLM n f a (lm2index l m) = a (lm2index l m) + f l m := by
  rw [accumLM_eq]
  have hmem : (l, m) ∈ lmPairs n := mem_lmPairs.2 ⟨h1, h2, h3⟩
  have key : ∀ (L : List (ℕ × ℕ)) (a : ℤ → ℂ), L.Nodup → (∀ p ∈ L, 1 ≤ p.2 ∧ p.2 ≤ p.1) → (l, m) ∈ L →
      (L.foldl (fun a p => Function.update a (lm2index p.1 p.2) (a (lm2index p.1 p.2) + f p.1 p.2)) a)
        (lm2index l m) = a (lm2index l m) + f l m := by
    intro L
    induction L with
    | nil => intro a _ _ h; simp at h
    | cons x L ih =>
      intro a hn hL hx
      rw [List.foldl_cons]
      have hx' := hL x List.mem_cons_self
      by_cases e : x = (l, m)
      · subst e
        rw [foldl_update_not_mem L (fun p : ℕ × ℕ => lm2index p.1 p.2)]
        · simp
        · intro y hy he
          have hy' := hL y (List.mem_cons_of_mem _ hy)
          obtain ⟨e1, e2⟩ := lm2index_inj hy'.1 hy'.2 h1 h2 he
          have : y = (l, m) := Prod.ext e1 e2
          subst this
          exact (List.nodup_cons.1 hn).1 hy
      · rw [ih _ (List.nodup_cons.1 hn).2 (fun p hp => hL p (List.mem_cons_of_mem _ hp))]
        · rw [Function.update_of_ne]
          intro he
          obtain ⟨e1, e2⟩ := lm2index_inj h1 h2 hx'.1 hx'.2 he
          exact e (Prod.ext e1.symm e2.symm)
        · rcases List.mem_cons.1 hx with h | h
          · exact absurd h.symm e
          · exact h
  exact key _ a (lmPairs_nodup n) (fun p hp => ⟨(mem_lmPairs.1 hp).1, (mem_lmPairs.1 hp).2.1⟩) hmem

/-! ### Legendre functions -/

theorem derivative_rodriguesW (l : ℕ) : derivative (rodriguesW (l + 1)) = X * rodriguesW l := by
  unfold rodriguesW
  have h1 : ((l : ℝ) + 1) ≠ 0 := by positivity
  have h2 : (l.factorial : ℝ) ≠ 0 := by positivity
  rw [derivative_C_mul, derivative_pow]
  simp only [derivative_sub, derivative_X_pow, derivative_one, sub_zero, Nat.add_sub_cancel,
    pow_one, Nat.cast_ofNat]
  have : C (1 / (2 ^ (l + 1) * ((l + 1).factorial : ℝ))) * (C ((l + 1 : ℕ) : ℝ) * (X ^ 2 - 1) ^ l * (C 2 * X))
      = C (1 / (2 ^ (l + 1) * ((l + 1).factorial : ℝ)) * ((l + 1 : ℕ) : ℝ) * 2) * (X ^ 2 - 1) ^ l * X := by
    simp only [C_mul]; ring
  have e : 1 / (2 ^ (l + 1) * ((l + 1).factorial : ℝ)) * ((l + 1 : ℕ) : ℝ) * 2 = 1 / (2 ^ l * (l.factorial : ℝ)) := by
    rw [Nat.factorial_succ]; push_cast; field_simp; ring
  rw [e] at this
  simp only [map_natCast] at *
  rw [show (2 - 1 : ℕ) = 1 from rfl, pow_one]
  rw [show (C (2:ℝ) : ℝ[X]) = 2 from rfl] at *
  rw [this]; ring

theorem derivative2_rodriguesW (l : ℕ) :
    derivative (derivative (rodriguesW (l + 2))) = (2 * (l : ℝ[X]) + 3) * rodriguesW (l + 1) + rodriguesW l := by
  rw [derivative_rodriguesW, derivative_mul, derivative_X, derivative_rodriguesW]
  have : (X ^ 2 - 1) * rodriguesW l = (2 * (l : ℝ[X]) + 2) * rodriguesW (l + 1) := by
    unfold rodriguesW
    have h1 : ((l : ℝ) + 1) ≠ 0 := by positivity
    have h2 : (l.factorial : ℝ) ≠ 0 := by positivity
    have e : (1 / (2 ^ l * (l.factorial : ℝ))) = (2 * (l : ℝ) + 2) * (1 / (2 ^ (l + 1) * ((l + 1).factorial : ℝ))) := by
      rw [Nat.factorial_succ]; push_cast; field_simp; ring
    rw [e, C_mul]
    have : (C (2 * (l : ℝ) + 2) : ℝ[X]) = 2 * (l : ℝ[X]) + 2 := by
      rw [C_add, C_mul]; simp only [map_natCast]; rfl
    rw [this]; ring
  linear_combination this

/-- `Q_l^m`, the polynomial part. -/
noncomputable def legQ (l m : ℕ) : ℝ[X] := (derivative^[l + m]) (rodriguesW l)

theorem iter_mul_natCast (k n : ℕ) (f : ℝ[X]) :
    derivative^[k] ((n : ℝ[X]) * f) = (n : ℝ[X]) * derivative^[k] f := by
  induction k generalizing f with
  | zero => rfl
  | succ k ih => rw [Function.iterate_succ_apply, Function.iterate_succ_apply, derivative_natCast_mul, ih]

theorem iter_add (k : ℕ) (f g : ℝ[X]) :
    derivative^[k] (f + g) = derivative^[k] f + derivative^[k] g := by
  induction k generalizing f g with
  | zero => rfl
  | succ k ih => simp only [Function.iterate_succ_apply, derivative_add, ih]

theorem iter_X_mul (k : ℕ) (f : ℝ[X]) :
    derivative^[k + 1] (X * f) = X * derivative^[k + 1] f + ((k : ℝ[X]) + 1) * derivative^[k] f := by
  induction k with
  | zero => simp; ring
  | succ k ih =>
    rw [Function.iterate_succ_apply', ih]
    simp only [derivative_add, derivative_mul, derivative_X, derivative_natCast, derivative_one]
    rw [Function.iterate_succ_apply' _ (k + 1), Function.iterate_succ_apply' _ k]
    push_cast
    ring

theorem legQ_A (l m : ℕ) : legQ (l + 2) m =
    (2 * (l : ℝ[X]) + 3) * derivative^[l + m] (rodriguesW (l + 1)) + legQ l m := by
  unfold legQ
  rw [show l + 2 + m = (l + m) + 1 + 1 by ring, Function.iterate_succ_apply, Function.iterate_succ_apply,
    derivative2_rodriguesW, iter_add]
  congr 1
  have := iter_mul_natCast (l + m) (2 * l + 3) (rodriguesW (l + 1))
  push_cast at this
  exact this

theorem legQ_B (l m : ℕ) : legQ (l + 2) m =
    X * legQ (l + 1) m + ((l : ℝ[X]) + 1 + (m : ℝ[X])) * derivative^[l + m] (rodriguesW (l + 1)) := by
  unfold legQ
  rw [show l + 2 + m = (l + m) + 1 + 1 by ring, Function.iterate_succ_apply, derivative_rodriguesW,
    iter_X_mul, show l + 1 + m = l + m + 1 by ring]
  push_cast; ring

theorem legQ_three (l m : ℕ) : ((l : ℝ[X]) + 2 - (m : ℝ[X])) * legQ (l + 2) m =
    (2 * (l : ℝ[X]) + 3) * X * legQ (l + 1) m - ((l : ℝ[X]) + 1 + (m : ℝ[X])) * legQ l m := by
  linear_combination (2 * (l : ℝ[X]) + 3) * legQ_B l m - ((l : ℝ[X]) + 1 + (m : ℝ[X])) * legQ_A l m

theorem rodriguesW_natDegree (l : ℕ) : (rodriguesW l).natDegree ≤ 2 * l := by
  unfold rodriguesW
  refine (natDegree_C_mul_le _ _).trans ?_
  refine natDegree_pow_le.trans ?_
  have : (X ^ 2 - 1 : ℝ[X]).natDegree ≤ 2 := by
    refine (natDegree_sub_le _ _).trans ?_
    simp
  nlinarith

theorem legQ_eq_zero (l m : ℕ) (h : l < m) : legQ l m = 0 := by
  unfold legQ
  apply iterate_derivative_eq_zero
  have := rodriguesW_natDegree l
  omega

theorem legQ_top (l : ℕ) : legQ (l + 2) (l + 2) = (2 * (l : ℝ[X]) + 3) * legQ (l + 1) (l + 1) := by
  have := legQ_A l (l + 2)
  rw [legQ_eq_zero l (l + 2) (by omega), add_zero] at this
  rw [this]; unfold legQ
  rw [show l + (l + 2) = l + 1 + (l + 1) by ring]

theorem legQ_next (l : ℕ) : legQ (l + 2) (l + 1) = (2 * (l : ℝ[X]) + 3) * X * legQ (l + 1) (l + 1) := by
  have := legQ_three l (l + 1)
  rw [legQ_eq_zero l (l + 1) (by omega)] at this
  push_cast at this
  linear_combination this

theorem legQ_zero : legQ 0 0 = 1 := by simp [legQ, rodriguesW]

theorem legQ_one_zero : legQ 1 0 = X := by
  have := derivative_rodriguesW 0
  simp only [zero_add] at this
  have h0 : rodriguesW 0 = 1 := by simp [rodriguesW]
  rw [h0] at this
  simp [legQ, this]

theorem legQ_one_one : legQ 1 1 = 1 := by
  have := derivative_rodriguesW 0
  simp only [zero_add] at this
  have h0 : rodriguesW 0 = 1 := by simp [rodriguesW]
  rw [h0] at this
  simp [legQ, this]

/-- The array of `solid_harmonic_R` holds `P_l^m/(l+m)!`. -/
theorem legR_eq (c s : ℝ) : ∀ l m : ℕ, m ≤ l →
    legR c s l m = (-1) ^ m * s ^ m * (legQ l m).eval c / ((l + m).factorial : ℝ)
  | 0, m, h => by
    have : m = 0 := by omega
    subst this; simp [legR, legQ_zero]
  | 1, m, h => by
    have : m = 0 ∨ m = 1 := by omega
    rcases this with rfl | rfl
    · simp [legR, legQ_one_zero]
    · simp [legR, legQ_one_one, Nat.factorial]
  | l + 2, m, h => by
    rw [legR]
    by_cases h1 : m = l + 2
    · subst h1
      rw [if_pos rfl, legR_eq c s (l + 1) (l + 1) le_rfl, legQ_top]
      have e : (l + 2 + (l + 2)).factorial = (2 * l + 4) * (2 * l + 3) * (l + 1 + (l + 1)).factorial := by
        rw [show l + 2 + (l + 2) = (l + 1 + (l + 1)) + 1 + 1 by ring, Nat.factorial_succ, Nat.factorial_succ]; ring
      have hf : ((l + 1 + (l + 1)).factorial : ℝ) ≠ 0 := by positivity
      rw [e]; simp; push_cast; field_simp; ring
    rw [if_neg h1]
    by_cases h2 : m = l + 1
    · subst h2
      rw [if_pos rfl, legR_eq c s (l + 1) (l + 1) le_rfl, legQ_next]
      have e : (l + 2 + (l + 1)).factorial = (2 * l + 3) * (l + 1 + (l + 1)).factorial := by
        rw [show l + 2 + (l + 1) = (l + 1 + (l + 1)) + 1 by ring, Nat.factorial_succ]; ring
      have hf : ((l + 1 + (l + 1)).factorial : ℝ) ≠ 0 := by positivity
      rw [e]; simp; push_cast; field_simp
    rw [if_neg h2]
    have h3 : m ≤ l := by omega
    rw [if_pos h3, legR_eq c s (l + 1) m (by omega), legR_eq c s l m h3]
    have q := congrArg (Polynomial.eval c) (legQ_three l m)
    simp only [eval_mul, eval_sub, eval_add, eval_natCast, eval_X, eval_ofNat, eval_one] at q
    have e1 : (l + 2 + m).factorial = (l + m + 2) * (l + m + 1) * (l + m).factorial := by
      rw [show l + 2 + m = (l + m) + 1 + 1 by ring, Nat.factorial_succ, Nat.factorial_succ]; ring
    have e2 : (l + 1 + m).factorial = (l + m + 1) * (l + m).factorial := by
      rw [show l + 1 + m = (l + m) + 1 by ring, Nat.factorial_succ]
    have hf : ((l + m).factorial : ℝ) ≠ 0 := by positivity
    have hm : (m : ℝ) ≤ l := by exact_mod_cast h3
    have g1 : ((l : ℝ) + 2 - m) ≠ 0 := by linarith
    have g2 : ((l : ℝ) + 2 + m) ≠ 0 := by positivity
    have g3 : ((l : ℝ) + m + 1) ≠ 0 := by positivity
    have g4 : ((l : ℝ) + m + 2) ≠ 0 := by positivity
    rw [e1, e2]; push_cast
    field_simp
    linear_combination (-1) * ((l : ℝ) + m + 2) * s ^ m * q

/-- The array of `solid_harmonic_R` in terms of the polynomials. -/
theorem legR_solS (x c s : ℝ) (w w' : ℂ) (hw : w * w' = 1) (hcs : c ^ 2 + s ^ 2 = 1) : ∀ l m : ℕ, m ≤ l →
    (x : ℂ) ^ l * legR c s l m * w ^ m = solS (x * s * w) (x * s * w') (x * c) l m
  | 0, m, h => by
    have : m = 0 := by omega
    subst this; simp [legR, solS]
  | 1, m, h => by
    have : m = 0 ∨ m = 1 := by omega
    rcases this with rfl | rfl
    · simp [legR, solS]
    · simp [legR, solS]; ring
  | l + 2, m, h => by
    rw [legR]
    have hl2 : ((l : ℂ) + 2) ≠ 0 := by exact_mod_cast (by omega : l + 2 ≠ 0)
    by_cases h1 : m = l + 2
    · subst h1
      rw [if_pos rfl]
      have i := legR_solS x c s w w' hw hcs (l + 1) (l + 1) le_rfl
      have t := solS_top (x * s * w) (x * s * w') (x * c) (l + 1)
      push_cast at *
      have : (l : ℂ) + 1 + 1 = l + 2 := by ring
      rw [this] at t
      have : (l : ℤ) + 1 + 1 = l + 2 := by ring
      rw [this, show l + 1 + 1 = l + 2 from rfl] at t
      apply mul_left_cancel₀ hl2
      rw [t, ← i]
      field_simp; ring
    rw [if_neg h1]
    by_cases h2 : m = l + 1
    · subst h2
      rw [if_pos rfl]
      have i := legR_solS x c s w w' hw hcs (l + 1) (l + 1) le_rfl
      have t := solS_next (x * s * w) (x * s * w') (x * c) (l + 1)
      push_cast at *
      rw [show l + 1 + 1 = l + 2 from rfl] at t
      rw [t, ← i]; ring
    rw [if_neg h2]
    have h3 : m ≤ l := by omega
    rw [if_pos h3]
    have i1 := legR_solS x c s w w' hw hcs (l + 1) m (by omega)
    have i0 := legR_solS x c s w w' hw hcs l m h3
    have t := solS_three (x * s * w) (x * s * w') (x * c) l m
    have g1 : ((l : ℂ) + 2 - m) ≠ 0 := by
      have : ((l + 2 - m : ℕ) : ℂ) ≠ 0 := by exact_mod_cast (by omega : l + 2 - m ≠ 0)
      rw [Nat.cast_sub (by omega)] at this; push_cast at this; exact this
    have g2 : ((l : ℂ) + 2 + m) ≠ 0 := by exact_mod_cast (by omega : l + 2 + m ≠ 0)
    rw [← i1, ← i0] at t
    push_cast at *
    apply mul_left_cancel₀ (mul_ne_zero g2 g1)
    rw [t]
    have hcs' : (c : ℂ) ^ 2 + s ^ 2 = 1 := by exact_mod_cast hcs
    field_simp
    linear_combination ((-1 : ℂ)) * x ^ (l + 2) * legR c s l m * w ^ m * (hcs' + s ^ 2 * hw) * (-1)

/-! ### Solid harmonics of real vectors -/

/-- Solid harmonic of a real vector, any sign of `m`. -/
noncomputable def solV (l : ℕ) (m : ℤ) (r : Vec) : ℂ :=
  solS (r 0 + r 1 * I) (r 0 - r 1 * I) (r 2) l m

theorem conj_pq (r : Vec) : starRingEnd ℂ ((r 0 : ℂ) + r 1 * I) = r 0 - r 1 * I := by
  simp [sub_eq_add_neg]

theorem solV_neg_m (l : ℕ) (m : ℤ) (r : Vec) :
    solV l (-m) r = (-1) ^ m * starRingEnd ℂ (solV l m r) := by
  have := solS_conj ((r 0 : ℂ) + r 1 * I) (r 2) l m
  rw [conj_pq] at this
  exact this

theorem solV_zero_of_lt (l : ℕ) (m : ℤ) (r : Vec) (h : (l : ℤ) < |m|) : solV l m r = 0 :=
  solS_zero_of_lt _ _ _ l m h

theorem solV_real (l : ℕ) (r : Vec) : ((solV l 0 r).re : ℂ) = solV l 0 r := by
  have := solV_neg_m l 0 r
  simp only [neg_zero, zpow_zero, one_mul] at this
  exact Complex.conj_eq_iff_re.1 this.symm

theorem solV_add (l : ℕ) (m : ℤ) (u v : Vec) :
    solV l m (u + v) = ∑ k ∈ Finset.range (l + 1), ∑ μ ∈ Finset.Icc (-(k : ℤ)) k,
      solV k μ u * solV (l - k) (m - μ) v := by
  have := solS_add (u 0 + u 1 * I) (u 0 - u 1 * I) (u 2) (v 0 + v 1 * I) (v 0 - v 1 * I) (v 2) l m
  unfold solV
  rw [show (((u + v) 0 : ℝ) : ℂ) + ((u + v) 1 : ℝ) * I = (u 0 + u 1 * I) + (v 0 + v 1 * I) by
        simp only [Pi.add_apply, ofReal_add]; ring,
    show (((u + v) 0 : ℝ) : ℂ) - ((u + v) 1 : ℝ) * I = (u 0 - u 1 * I) + (v 0 - v 1 * I) by
        simp only [Pi.add_apply, ofReal_add]; ring,
    show (((u + v) 2 : ℝ) : ℂ) = (u 2) + (v 2) by simp only [Pi.add_apply, ofReal_add], this]
  rfl

theorem solV_origin (l : ℕ) (m : ℤ) : solV l m 0 = if l = 0 ∧ m = 0 then 1 else 0 := by
  have := solS_origin l m
  unfold solV
  simpa using this

theorem spherical_cs (r : Vec) (h : r ≠ 0) :
    (r 2 / norm3 r) ^ 2 + Real.sqrt (1 - (r 2 / norm3 r) ^ 2) ^ 2 = 1 := by
  have hp := norm3_pos h
  have : (r 2 / norm3 r) ^ 2 ≤ 1 := by
    rw [div_pow, norm3_sq, div_le_one (by rw [← norm3_sq]; positivity)]
    nlinarith [sq_nonneg (r 0), sq_nonneg (r 1)]
  rw [Real.sq_sqrt (by linarith)]; ring

theorem spherical_xs (r : Vec) (h : r ≠ 0) :
    norm3 r * Real.sqrt (1 - (r 2 / norm3 r) ^ 2) = ‖((r 0 : ℂ) + r 1 * I)‖ := by
  have hp := norm3_pos h
  rw [Complex.norm_add_mul_I]
  symm
  rw [Real.sqrt_eq_iff_mul_self_eq (by positivity) (by positivity)]
  have h1 := spherical_cs r h
  have h2 := norm3_sq r
  have h3 : (norm3 r * (r 2 / norm3 r)) = r 2 := by field_simp
  have : (norm3 r * √(1 - (r 2 / norm3 r) ^ 2)) * (norm3 r * √(1 - (r 2 / norm3 r) ^ 2)) =
      norm3 r ^ 2 - (norm3 r * (r 2 / norm3 r)) ^ 2 := by
    linear_combination norm3 r ^ 2 * h1
  rw [this, h3, h2]; ring

theorem exp_m (m : ℕ) (φ : ℝ) : exp (I * m * φ) = exp (φ * I) ^ m := by
  rw [← Complex.exp_nat_mul]; congr 1; ring

/-- What `solid_harmonic_R` stores is the polynomial, for every angle that describes the vector. -/
theorem legR_solV_angle (r : Vec) (h : r ≠ 0) (φ : ℝ)
    (hφ : ((‖((r 0 : ℂ) + r 1 * I)‖ : ℝ) : ℂ) * exp (φ * I) = r 0 + r 1 * I) (l m : ℕ) (hm : m ≤ l) :
    ((norm3 r : ℝ) : ℂ) ^ l * legR (r 2 / norm3 r) (Real.sqrt (1 - (r 2 / norm3 r) ^ 2)) l m
      * exp (I * m * φ) = solV l m r := by
  have hp := norm3_pos h
  have hw : exp (φ * I) * exp (-(φ * I)) = 1 := by rw [← Complex.exp_add]; simp
  have e := legR_solS (norm3 r) (r 2 / norm3 r) (Real.sqrt (1 - (r 2 / norm3 r) ^ 2)) _ _ hw (spherical_cs r h) l m hm
  rw [exp_m, e]
  have hxs : ((norm3 r : ℂ)) * (Real.sqrt (1 - (r 2 / norm3 r) ^ 2) : ℝ) = (‖((r 0 : ℂ) + r 1 * I)‖ : ℝ) := by
    rw [← spherical_xs r h]; push_cast; rfl
  have h1 : ((norm3 r : ℂ)) * (Real.sqrt (1 - (r 2 / norm3 r) ^ 2) : ℝ) * exp (φ * I) = r 0 + r 1 * I := by
    rw [hxs]; exact hφ
  have h2 : ((norm3 r : ℂ)) * (Real.sqrt (1 - (r 2 / norm3 r) ^ 2) : ℝ) * exp (-(φ * I)) = r 0 - r 1 * I := by
    rw [← conj_pq, ← h1]
    simp only [map_mul, Complex.conj_ofReal, ← Complex.exp_conj, Complex.conj_I, mul_neg]
  have h3 : ((norm3 r : ℂ)) * ((r 2 / norm3 r : ℝ) : ℂ) = r 2 := by
    rw [← ofReal_mul]; congr 1; field_simp
  rw [h1, h2, h3]; rfl

theorem legR_solV (r : Vec) (h : r ≠ 0) (l m : ℕ) (hm : m ≤ l) :
    ((norm3 r : ℝ) : ℂ) ^ l * legR (r 2 / norm3 r) (Real.sqrt (1 - (r 2 / norm3 r) ^ 2)) l m
      * exp (I * m * (arg (r 0 + r 1 * I) : ℝ)) = solV l m r :=
  legR_solV_angle r h _ (Complex.norm_mul_exp_arg_mul_I _) l m hm

/-- The regular solid harmonic is the polynomial. -/
theorem regularR_eq (l m : ℕ) (hm : m ≤ l) (r : Vec) : regularR l m r = solV l m r := by
  by_cases h : r = 0
  · subst h
    rw [solV_origin]
    unfold regularR
    have h0 : norm3 (0 : Vec) = 0 := norm3_eq_zero.2 rfl
    by_cases hl : l = 0
    · subst hl
      have : m = 0 := by omega
      subst this
      simp [assocLegendre, rodriguesW]
    · rw [if_neg (by tauto), h0, zero_pow hl]; simp
  · rw [← legR_solV r h l m hm, legR_eq _ _ l m hm]
    unfold regularR assocLegendre cosTheta azimuth legQ
    push_cast
    ring

theorem cartToSph_fst (r : Vec) : (cartToSph r).1 = norm3 r := rfl

theorem mul_self_sqrt_arg (c : ℝ) : Real.sqrt (1 - c * c) = Real.sqrt (1 - c ^ 2) := by rw [sq]

/-- The arrays `R` of a vector. -/
def IsSolid (lmax : ℕ) (R : Moments) (r : Vec) : Prop :=
  (∀ l ≤ lmax, (R.l0 l : ℂ) = solV l 0 r) ∧
  ∀ l m : ℕ, 1 ≤ m → m ≤ l → l ≤ lmax → R.lm (lm2index l m) = solV l m r

theorem solidR_isSolid (r : Vec) (h : r ≠ 0) (lmax : ℕ) (junk : Moments) :
    IsSolid lmax (solidR (cartToSph r).1 (cartToSph r).2.1 (cartToSph r).2.2 lmax junk) r := by
  constructor
  · intro l hl
    have := legR_solV r h l 0 (by omega)
    simp only [Nat.cast_zero, mul_zero, zero_mul, Complex.exp_zero, mul_one] at this
    simp only [solidR, storeL0, if_pos hl, cartToSph, mul_self_sqrt_arg]
    push_cast at *
    exact this
  · intro l m h1 h2 h3
    simp only [solidR, cartToSph, mul_self_sqrt_arg]
    rw [storeLM_of_le _ _ _ h1 h2 h3]
    exact legR_solV r h l m h2

theorem vec_eq_zero (r : Vec) : (r 0 = 0 ∧ r 1 = 0 ∧ r 2 = 0) ↔ r = 0 := by
  constructor
  · rintro ⟨a, b, c⟩; ext i; fin_cases i <;> simp [a, b, c]
  · rintro rfl; simp

theorem pySolidR_isSolid (r : Vec) (lmax : ℕ) : IsSolid lmax (pySolidR r lmax) r := by
  unfold pySolidR
  by_cases h : r = 0
  · rw [if_pos ((vec_eq_zero r).2 h)]
    subst h
    constructor
    · intro l _
      rw [solV_origin]
      by_cases hl : l = 0
      · subst hl; simp [Moments.zero]
      · simp [Moments.zero, hl]
    · intro l m h1 h2 _
      rw [solV_origin, if_neg]
      · rfl
      · rintro ⟨_, hm⟩; omega
  · rw [if_neg (fun h' => h ((vec_eq_zero r).1 h'))]
    exact solidR_isSolid r h lmax _

theorem IsSolid.at_eq {lmax : ℕ} {R : Moments} {r : Vec} (hR : IsSolid lmax R r) {l : ℕ} (hl : l ≤ lmax)
    {k : ℤ} (hk : |k| ≤ l) : R.at l k = solV l k r := by
  unfold Moments.at
  by_cases h : k < 0
  · rw [if_pos h]
    obtain ⟨n, hn⟩ : ∃ n : ℕ, -k = n := ⟨(-k).toNat, by omega⟩
    have hk' : k = -(n : ℤ) := by omega
    subst hk'
    rw [neg_neg, hR.2 l n (by omega) (by rw [abs_neg, abs_of_nonneg (by omega)] at hk; omega) hl, solV_neg_m]
  · rw [if_neg h]
    by_cases h0 : k = 0
    · rw [if_pos h0, h0]; exact hR.1 l hl
    · rw [if_neg h0]
      obtain ⟨n, hn⟩ : ∃ n : ℕ, k = n := ⟨k.toNat, by omega⟩
      subst hn
      rw [abs_of_nonneg (by omega)] at hk
      exact hR.2 l n (by omega) (by omega) hl

/-- Moment of charges, any sign of `m`. -/
noncomputable def momV (qr : List (ℝ × Vec)) (c : Vec) (l : ℕ) (m : ℤ) : ℂ :=
  (qr.map fun a => (a.1 : ℂ) * starRingEnd ℂ (solV l m (a.2 - c))).sum

theorem pointMoment_eq (qr : List (ℝ × Vec)) (c : Vec) (l m : ℕ) (h : m ≤ l) :
    pointMoment qr c l m = momV qr c l m := by
  unfold pointMoment momV
  simp only [regularR_eq l m h]

theorem list_sum_conj (L : List ℂ) : starRingEnd ℂ L.sum = (L.map (starRingEnd ℂ)).sum := by
  rw [map_list_sum]

theorem momV_neg_m (qr : List (ℝ × Vec)) (c : Vec) (l : ℕ) (m : ℤ) :
    momV qr c l (-m) = (-1) ^ m * starRingEnd ℂ (momV qr c l m) := by
  unfold momV
  induction qr with
  | nil => simp
  | cons a qr ih =>
    simp only [List.map_cons, List.sum_cons, map_add, mul_add, ih]
    congr 1
    rw [solV_neg_m]
    simp only [map_mul, map_zpow₀, map_neg, map_one, Complex.conj_ofReal]
    ring

theorem momV_real (qr : List (ℝ × Vec)) (c : Vec) (l : ℕ) : ((momV qr c l 0).re : ℂ) = momV qr c l 0 := by
  have := momV_neg_m qr c l 0
  simp only [neg_zero, zpow_zero, one_mul] at this
  exact Complex.conj_eq_iff_re.1 this.symm

theorem isMoments_iff (lmax : ℕ) (M : Moments) (qr : List (ℝ × Vec)) (c : Vec) :
    IsMoments lmax M qr c ↔ (∀ l ≤ lmax, (M.l0 l : ℂ) = momV qr c l 0) ∧
      ∀ l m : ℕ, 1 ≤ m → m ≤ l → l ≤ lmax → M.lm (lm2index l m) = momV qr c l m := by
  unfold IsMoments
  constructor
  · rintro ⟨h0, h1⟩
    exact ⟨fun l hl => by simpa using (h0 l hl).trans (pointMoment_eq qr c l 0 (by omega)),
      fun l m a b d => (h1 l m a b d).trans (pointMoment_eq qr c l m b)⟩
  · rintro ⟨h0, h1⟩
    exact ⟨fun l hl => by simpa using (h0 l hl).trans (pointMoment_eq qr c l 0 (by omega)).symm,
      fun l m a b d => (h1 l m a b d).trans (pointMoment_eq qr c l m b).symm⟩

theorem IsMoments.at_eq {lmax : ℕ} {M : Moments} {qr : List (ℝ × Vec)} {c : Vec} (hM : IsMoments lmax M qr c)
    {l : ℕ} (hl : l ≤ lmax) {k : ℤ} (hk : |k| ≤ l) : M.at l k = momV qr c l k := by
  rw [isMoments_iff] at hM
  unfold Moments.at
  by_cases h : k < 0
  · rw [if_pos h]
    obtain ⟨n, hn⟩ : ∃ n : ℕ, -k = n := ⟨(-k).toNat, by omega⟩
    have hk' : k = -(n : ℤ) := by omega
    subst hk'
    rw [neg_neg, hM.2 l n (by omega) (by rw [abs_neg, abs_of_nonneg (by omega)] at hk; omega) hl, momV_neg_m]
  · rw [if_neg h]
    by_cases h0 : k = 0
    · rw [if_pos h0, h0]; exact hM.1 l hl
    · rw [if_neg h0]
      obtain ⟨n, hn⟩ : ∃ n : ℕ, k = n := ⟨k.toNat, by omega⟩
      subst hn
      rw [abs_of_nonneg (by omega)] at hk
      exact hM.2 l n (by omega) (by omega) hl

theorem momV_add (lst : List (ℝ × Vec)) (c c' : Vec) (l : ℕ) (m : ℤ) :
    momV lst c' l m = ∑ k ∈ Finset.range (l + 1), ∑ μ ∈ Finset.Icc (-(k : ℤ)) k,
      momV lst c (l - k) (m - μ) * starRingEnd ℂ (solV k μ (c - c')) := by
  unfold momV
  induction lst with
  | nil => simp
  | cons a lst ih =>
    simp only [List.map_cons, List.sum_cons, add_mul, Finset.sum_add_distrib, ih]
    congr 1
    rw [show a.2 - c' = (c - c') + (a.2 - c) by abel, solV_add]
    simp only [map_sum, map_mul, Finset.mul_sum]
    exact Finset.sum_congr rfl fun k _ => Finset.sum_congr rfl fun μ _ => by ring

theorem momV_append (a b : List (ℝ × Vec)) (c : Vec) (l : ℕ) (m : ℤ) :
    momV (a ++ b) c l m = momV a c l m + momV b c l m := by
  unfold momV; simp

theorem sum_Icc_sym (k : ℕ) (g : ℤ → ℂ) :
    ∑ μ ∈ Finset.Icc (-(k : ℤ)) k, g μ = g 0 + ∑ μ ∈ Finset.Icc 1 k, (g (μ : ℕ) + g (-((μ : ℕ) : ℤ))) := by
  induction k with
  | zero => simp
  | succ k ih =>
    have e : Finset.Icc (-((k + 1 : ℕ) : ℤ)) ((k + 1 : ℕ) : ℤ) =
        insert ((k + 1 : ℕ) : ℤ) (insert (-((k + 1 : ℕ) : ℤ)) (Finset.Icc (-(k : ℤ)) k)) := by
      ext x; simp only [Finset.mem_insert, Finset.mem_Icc]; push_cast; omega
    rw [e, Finset.sum_insert, Finset.sum_insert, ih, Finset.sum_Icc_succ_top (by omega)]
    · ring
    · simp
    · simp only [Finset.mem_insert, Finset.mem_Icc, not_or]; push_cast; omega

theorem momV_zero_of_lt (qr : List (ℝ × Vec)) (c : Vec) (l : ℕ) (m : ℤ) (h : (l : ℤ) < |m|) :
    momV qr c l m = 0 := by
  unfold momV
  apply List.sum_eq_zero
  intro x hx
  rw [List.mem_map] at hx
  obtain ⟨a, _, rfl⟩ := hx
  rw [solV_zero_of_lt l m _ h]; simp

/-- A product with its mirror image. -/
theorem re_pair (M R : ℂ) (μ : ℕ) :
    (((2 : ℝ) * (-1) ^ μ * (M * R).re : ℝ) : ℂ) =
      ((-1) ^ (μ : ℤ) * starRingEnd ℂ M) * starRingEnd ℂ R
        + M * starRingEnd ℂ ((-1) ^ (μ : ℤ) * starRingEnd ℂ R) := by
  have h : ((M * R).re : ℂ) = (M * R + starRingEnd ℂ (M * R)) / 2 := Complex.re_eq_add_conj _
  simp only [map_mul, map_pow, map_neg, map_one, Complex.conj_conj, zpow_natCast] at *
  push_cast
  rw [h]
  ring

end Hotbit
