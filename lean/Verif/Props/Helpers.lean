import Verif.Model.Helpers
import Verif.Lemmas.Containers
import Verif.Lemmas.KPoints
import Mathlib.Data.Int.GCD
import Mathlib.Algebra.BigOperators.Group.List.Basic
import Mathlib.Algebra.BigOperators.Group.Finset.Basic
import Mathlib.Tactic.Linarith

/-!
# C50, C51, C58, C68: helpers
-/

namespace Hotbit

set_option linter.unusedSimpArgs false

/-! ## C50: work distribution -/

private theorem fillCpu_all {α : Type} (lim : ℚ) (items : List (α × ℕ)) : ∀ acc : ℕ,
    (fillCpu lim acc items).1 ++ (fillCpu lim acc items).2.map Prod.fst = items.map Prod.fst := by
  induction items with
  | nil => intro acc; rfl
  | cons p items ih =>
    intro acc
    obtain ⟨x, t⟩ := p
    rw [fillCpu]
    split_ifs
    · rfl
    · simpa using ih (acc + t)

private theorem fillCpu_rest {α : Type} (lim : ℚ) (items : List (α × ℕ)) : ∀ acc : ℕ,
    (fillCpu lim acc items).2 ≠ [] →
      lim < ((acc + (items.map Prod.snd).sum : ℕ) : ℚ)
        - (((fillCpu lim acc items).2.map Prod.snd).sum : ℕ) := by
  induction items with
  | nil => intro acc h; exact absurd rfl h
  | cons p items ih =>
    intro acc
    obtain ⟨x, t⟩ := p
    rw [fillCpu]
    split_ifs with h
    · intro _
      simp only [List.map_cons, List.sum_cons]
      push_cast at h ⊢
      linarith
    · intro h'
      have := ih (acc + t) h'
      simp only [List.map_cons, List.sum_cons]
      push_cast at this ⊢
      linarith

private theorem fillCpus_length {α : Type} (lim : ℚ) (n : ℕ) : ∀ items : List (α × ℕ),
    (fillCpus lim n items).length = n := by
  induction n with
  | zero => intro items; rfl
  | succ n ih => intro items; cases items <;> simp [fillCpus, ih]

private theorem fillCpus_nil {α : Type} (lim : ℚ) (n : ℕ) :
    (fillCpus lim n ([] : List (α × ℕ))).flatten = [] := by
  induction n with
  | zero => rfl
  | succ n ih => simp [fillCpus, ih]

private theorem fillCpus_all {α : Type} (lim : ℚ) (n : ℕ) : ∀ items : List (α × ℕ), 0 < n →
    (((items.map Prod.snd).sum : ℕ) : ℚ) ≤ n * lim →
    (fillCpus lim n items).flatten = items.map Prod.fst := by
  induction n with
  | zero => intro items h; exact absurd h (lt_irrefl _)
  | succ n ih =>
    intro items _ hs
    cases items with
    | nil => exact fillCpus_nil lim (n + 1)
    | cons it items =>
      rw [fillCpus]
      simp only [List.flatten_cons]
      rw [← fillCpu_all lim (it :: items) 0]
      congr 1
      by_cases hr : (fillCpu lim 0 (it :: items)).2 = []
      · rw [hr]
        exact fillCpus_nil lim n
      · have h1 := fillCpu_rest lim (it :: items) 0 hr
        rw [zero_add] at h1
        push_cast at hs
        rcases Nat.eq_zero_or_pos n with hn | hn
        · subst hn
          exfalso
          have : (0 : ℚ) ≤ ((((fillCpu lim 0 (it :: items)).2.map Prod.snd).sum : ℕ) : ℚ) :=
            Nat.cast_nonneg _
          push_cast at h1 hs this
          linarith
        · apply ih _ hn
          push_cast at h1 hs ⊢
          linarith

private theorem zipIdx_map_snd (N : List ℕ) (power : ℕ) (indices : Bool) :
    ((loadItems N power indices).map Prod.snd).sum = (N.map (· ^ power)).sum := by
  have h : (loadItems N power indices).map Prod.snd = (N.map (· ^ power)).reverse := by
    unfold loadItems
    rw [List.map_map, List.map_reverse]
    congr 1
    rw [show ((Prod.snd ∘ fun p : ℕ × ℕ => (if indices = true then p.2 else p.1, p.1 ^ power))
        : ℕ × ℕ → ℕ) = (fun x => x ^ power) ∘ Prod.fst from rfl, ← List.map_map, List.zipIdx_map_fst]
  rw [h, List.sum_reverse]

/-- C50: with at least one cpu and no more cpus than items there is one list per cpu and together they
are the given sizes, each exactly once (in reversed order). -/
theorem c50_partition (N : List ℕ) (ncpu power : ℕ) (h0 : 0 < ncpu) (hn : ncpu ≤ N.length) :
    ∃ L, evenCpuLoad N ncpu power false = .ok L ∧ L.length = ncpu ∧ L.flatten = N.reverse := by
  refine ⟨_, by rw [evenCpuLoad, if_neg (by omega), if_neg (by omega)], fillCpus_length _ _ _, ?_⟩
  rw [fillCpus_all _ _ _ h0]
  · unfold loadItems
    rw [List.map_map, List.map_reverse]
    congr 1
    simp only [Bool.false_eq_true, if_false]
    exact List.zipIdx_map_fst 0 N
  · rw [zipIdx_map_snd, mul_div_cancel₀ _ (by positivity)]

/-- C50: with `indices=True` every index of the list is given to exactly one cpu. -/
theorem c50_indices (N : List ℕ) (ncpu power : ℕ) (h0 : 0 < ncpu) (hn : ncpu ≤ N.length) :
    ∃ L, evenCpuLoad N ncpu power true = .ok L ∧ L.length = ncpu ∧
      L.flatten.Perm (List.range N.length) := by
  refine ⟨_, by rw [evenCpuLoad, if_neg (by omega), if_neg (by omega)], fillCpus_length _ _ _, ?_⟩
  rw [fillCpus_all _ _ _ h0]
  · unfold loadItems
    rw [List.map_map, List.map_reverse]
    refine (List.reverse_perm _).trans ?_
    simp only [if_true]
    have : N.zipIdx.map (Prod.fst ∘ fun p : ℕ × ℕ => (p.2, p.1 ^ power)) = N.zipIdx.map Prod.snd := rfl
    rw [this, List.zipIdx_map_snd, List.range_eq_range']
  · rw [zipIdx_map_snd, mul_div_cancel₀ _ (by positivity)]

/-- C50: fewer items than cpus raise. -/
theorem c50_too_many_cpus (N : List ℕ) (ncpu power : ℕ) (ind : Bool) (h : N.length < ncpu) :
    evenCpuLoad N ncpu power ind = .error .assertionError := by
  rw [evenCpuLoad, if_pos h]

private theorem fillCpu_load {α : Type} (w : α → ℕ) (lim : ℚ) (items : List (α × ℕ)) :
    ∀ acc : ℕ, (∀ p ∈ items, p.2 = w p.1) → (acc : ℚ) ≤ lim →
    ((acc + ((fillCpu lim acc items).1.dropLast.map w).sum : ℕ) : ℚ) ≤ lim := by
  induction items with
  | nil => intro acc _ h; simpa [fillCpu] using h
  | cons p items ih =>
    intro acc hw hacc
    obtain ⟨x, t⟩ := p
    have hx : t = w x := hw (x, t) List.mem_cons_self
    rw [fillCpu]
    split_ifs with h
    · simpa using hacc
    · have h3 := ih (acc + t) (fun p hp => hw p (List.mem_cons_of_mem _ hp)) (not_lt.1 h)
      simp only
      cases hr : (fillCpu lim (acc + t) items).1 with
      | nil => simpa using hacc
      | cons y ys =>
        rw [hr] at h3
        rw [List.dropLast_cons_cons, List.map_cons, List.sum_cons, ← hx]
        push_cast at h3 ⊢
        linarith

private theorem fillCpu_sub {α : Type} (lim : ℚ) (items : List (α × ℕ)) : ∀ acc : ℕ,
    ∀ p ∈ (fillCpu lim acc items).2, p ∈ items := by
  induction items with
  | nil => intro acc p hp; exact absurd hp (by simp [fillCpu])
  | cons q items ih =>
    intro acc p
    obtain ⟨x, t⟩ := q
    rw [fillCpu]
    split_ifs
    · intro hp; exact List.mem_cons_of_mem _ hp
    · intro hp; exact List.mem_cons_of_mem _ (ih _ p hp)

/-- C50: the load of a cpu without its last item is at most the average load. -/
theorem c50_balanced (N : List ℕ) (ncpu power : ℕ) (L : List (List ℕ))
    (h : evenCpuLoad N ncpu power false = .ok L) :
    ∀ c ∈ L, (((c.dropLast.map (· ^ power)).sum : ℕ) : ℚ)
      ≤ (((N.map (· ^ power)).sum : ℕ) : ℚ) / ncpu := by
  have key : ∀ (lim : ℚ), 0 ≤ lim → ∀ (n : ℕ) (items : List (ℕ × ℕ)),
      (∀ p ∈ items, p.2 = p.1 ^ power) → ∀ c ∈ fillCpus lim n items,
      (((c.dropLast.map (· ^ power)).sum : ℕ) : ℚ) ≤ lim := by
    intro lim hl n
    induction n with
    | zero => intro items _ c hc; simp [fillCpus] at hc
    | succ n ih =>
      intro items hi c hc
      cases items with
      | nil =>
        rw [fillCpus, List.mem_cons] at hc
        rcases hc with rfl | hc
        · simpa using hl
        · exact ih [] (by simp) c hc
      | cons it items =>
        rw [fillCpus] at hc
        simp only [List.mem_cons] at hc
        rcases hc with rfl | hc
        · have := fillCpu_load (· ^ power) lim (it :: items) 0 hi (by simpa using hl)
          simpa using this
        · exact ih _ (fun p hp => hi p (fillCpu_sub lim _ 0 p hp)) c hc
  unfold evenCpuLoad at h
  split_ifs at h
  intro c hc
  cases h
  refine key _ (by positivity) _ _ ?_ c hc
  intro p hp
  unfold loadItems at hp
  simp only [Bool.false_eq_true, if_false, List.mem_map] at hp
  obtain ⟨q, -, rfl⟩ := hp
  rfl

/-- C50: a cpu may stay idle although there is one item for each. -/
theorem c50_idle_fails : evenCpuLoad [10, 1] 2 3 false = .ok [[1, 10], []] := by
  simp [evenCpuLoad, loadItems, fillCpus, fillCpu, List.zipIdx]
  norm_num [fillCpus, fillCpu]

/-- The hypotheses: three systems on two cpus. -/
example : evenCpuLoad [5, 6, 7] 2 3 false = .ok [[7], [6, 5]] := by
  simp [evenCpuLoad, loadItems, fillCpus, fillCpu, List.zipIdx]
  norm_num [fillCpus, fillCpu]

/-! ## C51: number theory -/

/-- C51: exactly the positive divisors, each once. -/
theorem c51_divisors (x : ℤ) (hx : 0 < x) :
    (∀ d, d ∈ divisors x ↔ 0 < d ∧ d ∣ x) ∧ (divisors x).Nodup :=
  ⟨fun d => mem_divisors x d hx, divisors_nodup x hx⟩

/-- C51: up to sign, the greatest common divisor, for all integers. -/
theorem c51_gcd (a b : ℤ) : (pyGcd a b).natAbs = Int.gcd a b := by
  induction a, b using pyGcd.induct with
  | case1 a => rw [pyGcd]; simp
  | case2 a b h ih =>
    rw [pyGcd, dif_neg h, ih]
    have h1 : a.fmod b = a - b * a.fdiv b := Int.fmod_def a b
    rw [h1, Int.gcd_comm]
    have h2 : a - b * a.fdiv b = a + b * (-(a.fdiv b)) := by ring
    rw [h2, Int.gcd_add_mul_left_left]

/-- C51: for non-negative arguments it is the greatest common divisor itself. -/
theorem c51_gcd_nonneg (a b : ℤ) (ha : 0 ≤ a) (hb : 0 ≤ b) : pyGcd a b = Int.gcd a b := by
  have h0 : 0 ≤ pyGcd a b := by
    induction a, b using pyGcd.induct with
    | case1 a => rw [pyGcd]; simpa using ha
    | case2 a b h ih =>
      rw [pyGcd, dif_neg h]
      exact ih hb (Int.fmod_nonneg_of_pos a (lt_of_le_of_ne hb (Ne.symm h)))
  have := c51_gcd a b
  omega

/-- C51: a negative argument can give a negative result. -/
theorem c51_gcd_negative_fails : pyGcd 4 (-2) = -2 := by
  rw [pyGcd, dif_neg (by norm_num), pyGcd, dif_pos (by decide)]

/-! ## C58: formatting -/

private theorem mod_bounds (x m : ℝ) (hm : 0 < m) : 0 ≤ pyMod x m ∧ pyMod x m < m := by
  unfold pyMod
  have h1 := Int.floor_le (x / m)
  have h2 := Int.lt_floor_add_one (x / m)
  rw [le_div_iff₀ hm] at h1
  rw [div_lt_iff₀ hm] at h2
  constructor <;> linarith

private theorem floor_step (x a b : ℝ) (k : ℤ) (hb : 0 < b) (hab : a = k * b) :
    ⌊pyMod x a / b⌋ = ⌊x / b⌋ - k * ⌊x / a⌋ := by
  unfold pyMod
  rw [show (x - a * ⌊x / a⌋) / b = x / b - ((k * ⌊x / a⌋ : ℤ) : ℝ) by
    rw [hab]; push_cast; field_simp]
  exact Int.floor_sub_intCast _ _

/-- C58: the four fields add up to the time rounded to the nearest second, and hours and minutes are in
range, for every time. -/
theorem c58_total (secs : ℝ) : let r := secToTime secs
    86400 * r.1 + 3600 * r.2.1 + 60 * r.2.2.1 + r.2.2.2 = ⌊secs + 1 / 2⌋ ∧
      0 ≤ r.2.1 ∧ r.2.1 < 24 ∧ 0 ≤ r.2.2.1 ∧ r.2.2.1 < 60 ∧ 0 ≤ r.2.2.2 ∧ r.2.2.2 ≤ 60 := by
  intro r
  have b1 := mod_bounds secs 86400 (by norm_num)
  have b2 := mod_bounds secs 3600 (by norm_num)
  have b3 := mod_bounds secs 60 (by norm_num)
  have hs : pyInt (pyMod secs 60 + 1 / 2) = ⌊pyMod secs 60 + 1 / 2⌋ := by
    unfold pyInt
    rw [if_pos (by linarith)]
  have e1 : r.1 = ⌊secs / 86400⌋ := pyInt_intCast _
  have e2 : r.2.1 = ⌊pyMod secs 86400 / 3600⌋ := pyInt_intCast _
  have e3 : r.2.2.1 = ⌊pyMod secs 3600 / 60⌋ := pyInt_intCast _
  have e4 : r.2.2.2 = ⌊pyMod secs 60 + 1 / 2⌋ := hs
  have f1 := floor_step secs 86400 3600 24 (by norm_num) (by norm_num)
  have f2 := floor_step secs 3600 60 60 (by norm_num) (by norm_num)
  have f3 : ⌊pyMod secs 60 + 1 / 2⌋ = ⌊secs + 1 / 2⌋ - 60 * ⌊secs / 60⌋ := by
    unfold pyMod
    rw [show secs - 60 * (⌊secs / 60⌋ : ℝ) + 1 / 2
      = secs + 1 / 2 - ((60 * ⌊secs / 60⌋ : ℤ) : ℝ) by push_cast; ring]
    exact Int.floor_sub_intCast _ _
  refine ⟨?_, ?_, ?_, ?_, ?_, ?_, ?_⟩
  · rw [e1, e2, e3, e4, f1, f2, f3]; ring
  · rw [e2]; exact Int.floor_nonneg.2 (by linarith [b1.1, div_nonneg b1.1 (by norm_num : (0:ℝ) ≤ 3600)])
  · rw [e2, Int.floor_lt]; push_cast; rw [div_lt_iff₀ (by norm_num)]; linarith [b1.2]
  · rw [e3]; exact Int.floor_nonneg.2 (div_nonneg b2.1 (by norm_num))
  · rw [e3, Int.floor_lt]; push_cast; rw [div_lt_iff₀ (by norm_num)]; linarith [b2.2]
  · rw [e4]; exact Int.floor_nonneg.2 (by linarith [b3.1])
  · rw [e4]; exact Int.lt_add_one_iff.1 (Int.floor_lt.2 (by push_cast; linarith [b3.2]))

/-- C58: the seconds field can be 60. -/
theorem c58_sixty_seconds_fails : secToTime 59.7 = (0, 0, 0, 60) := by
  have h1 : ⌊(59.7 : ℝ) / 86400⌋ = 0 := by rw [Int.floor_eq_iff]; norm_num
  have h2 : ⌊(59.7 : ℝ) / 3600⌋ = 0 := by rw [Int.floor_eq_iff]; norm_num
  have h3 : ⌊(59.7 : ℝ) / 60⌋ = 0 := by rw [Int.floor_eq_iff]; norm_num
  have h4 : ⌊(59.7 : ℝ) + 1 / 2⌋ = 60 := by rw [Int.floor_eq_iff]; norm_num
  unfold secToTime pyMod
  rw [h1, h2, h3]
  simp only [Int.cast_zero, mul_zero, sub_zero, h2, h3]
  rw [show (0 : ℝ) = ((0 : ℤ) : ℝ) by simp, pyInt_intCast]
  have : pyInt (59.7 + 1 / 2) = 60 := by unfold pyInt; rw [if_pos (by norm_num), h4]
  rw [this]

/-- C58: the total time printed by the timer is always given in full hours, with zero minutes and zero
seconds. -/
theorem c58_human_readable_fails (s : ℝ) :
    humanReadable s = (pyInt ((pyRound s : ℝ) / 3600), 0, 0) := by
  have h0 : pyInt (0 : ℝ) = 0 := by simpa using pyInt_intCast 0
  simp only [humanReadable]
  rw [show (pyRound s : ℝ) - (pyRound s : ℝ) / 3600 * 3600 = 0 by ring]
  simp [h0]

theorem rfind_neg {c : Char} {s : List Char} (h : c ∉ s) : rfind c s = -1 := by
  induction s with
  | nil => rfl
  | cons x xs ih =>
    simp only [List.mem_cons, not_or] at h
    rw [rfind, ih h.2, if_neg (by decide), if_neg (Ne.symm h.1)]

theorem rfind_append (c : Char) (a b : List Char) (h : c ∉ b) :
    rfind c (a ++ c :: b) = a.length := by
  induction a with
  | nil => simp [rfind, rfind_neg h]
  | cons x xs ih =>
    rw [List.cons_append, rfind, ih, if_pos (by positivity)]
    simp

/-- C58: a file name with an extension is split at its last dot. -/
theorem c58_extension (base ext : List Char) (h : '.' ∉ ext) :
    baseAndExtension (base ++ '.' :: ext) = (base, ext) := by
  have hr := rfind_append '.' base ext h
  unfold baseAndExtension
  simp only [hr, sliceTo, sliceFrom]
  rw [if_neg (by omega), if_neg (by omega)]
  refine Prod.ext ?_ ?_
  · simp
  · show List.drop ((base.length : ℤ) + 1).toNat (base ++ '.' :: ext) = ext
    rw [show ((base.length : ℤ) + 1).toNat = base.length + 1 by omega, ← List.drop_drop]
    simp

/-- C58: without a dot the last letter of the name is lost and the whole name is the extension. -/
theorem c58_extension_fails (f : List Char) (h : '.' ∉ f) :
    baseAndExtension f = (f.dropLast, f) := by
  unfold baseAndExtension
  simp only [rfind_neg h, sliceTo, sliceFrom]
  simp [List.dropLast_eq_take]

/-- C58: the appendix is inserted before the last dot, or at the end if there is none. -/
theorem c58_appendix (app : List Char) :
    (∀ base ext : List Char, '.' ∉ ext →
      addFileAppendix (base ++ '.' :: ext) app = base ++ '_' :: app ++ '.' :: ext) ∧
    (∀ f : List Char, '.' ∉ f → addFileAppendix f app = f ++ '_' :: app) := by
  constructor
  · intro base ext h
    unfold addFileAppendix
    simp only [rfind_append '.' base ext h, sliceTo, sliceFrom]
    rw [if_neg (by omega), if_neg (by omega), if_neg (by omega)]
    simp
  · intro f h
    unfold addFileAppendix
    simp only [rfind_neg h]
    simp

/-- C58: a dot in a directory name is taken for the dot of the extension: the appendix changes the
directory. -/
theorem c58_appendix_directory_fails :
    addFileAppendix "run.d/out".toList "1".toList = "run_1.d/out".toList := by decide

example : '.' ∉ "xyz".toList := by decide

/-! ## C68: text and vector conversions -/

/-- A flat array can never be converted back to a list of vectors. -/
theorem c68_vector_mode_fails {α : Type} (a : List α) :
    ∃ e, selectVectorMode (.inr a) "default" = .error e := by
  unfold selectVectorMode
  by_cases h : a.length % 3 ≠ 0
  · exact ⟨.assertionError, by simp [h]⟩
  · exact ⟨.typeError, by simp at h; simp [h]⟩

/-- The other conversions: unchanged, or flattened in order. -/
theorem c68_vector_mode_partial {α : Type} (l : List (List α)) (a : List α) (hl : l ≠ []) :
    selectVectorMode (.inl l) "default" = .ok (some (.inl l)) ∧
    selectVectorMode (.inl l) "global" = .ok (some (.inr l.flatten)) ∧
    selectVectorMode (.inr a) "global" = .ok (some (.inr a)) := by
  refine ⟨by simp [selectVectorMode], ?_, by simp [selectVectorMode]⟩
  cases l with
  | nil => exact absurd rfl hl
  | cons x xs => simp [selectVectorMode]

private theorem foldl_min_le (ls : List (List Char)) : ∀ m : ℕ,
    ls.foldl (fun mn l => min (indentation l) mn) m ≤ m ∧
    ∀ l ∈ ls, ls.foldl (fun mn l => min (indentation l) mn) m ≤ indentation l := by
  induction ls with
  | nil => intro m; simp
  | cons x xs ih =>
    intro m
    obtain ⟨h1, h2⟩ := ih (min (indentation x) m)
    refine ⟨h1.trans (min_le_right _ _), ?_⟩
    intro l hl
    rcases List.mem_cons.1 hl with rfl | hl
    · exact h1.trans (min_le_left _ _)
    · exact h2 l hl

/-- Only blanks are removed from lines of more than one character, the same number from each. -/
theorem c68_indentation_partial (lines : List (List Char)) (l : List Char) (hl : l ∈ lines)
    (h1 : 1 < l.length) :
    l = List.replicate (minIndentation lines) ' ' ++ l.drop (minIndentation lines) := by
  have hm : minIndentation lines ≤ indentation l :=
    (foldl_min_le _ 100).2 l (List.mem_filter.2 ⟨hl, by simpa using h1⟩)
  have key : ∀ (n : ℕ) (s : List Char), n ≤ indentation s → s = List.replicate n ' ' ++ s.drop n := by
    intro n
    induction n with
    | zero => intro s _; simp
    | succ n ih =>
      intro s hs
      cases s with
      | nil => simp [indentation] at hs
      | cons c s =>
        unfold indentation at hs
        rw [List.takeWhile_cons] at hs
        by_cases hc : c = ' '
        · subst hc
          simp only [decide_true, if_true, List.length_cons, Nat.add_le_add_iff_right] at hs
          have := ih s hs
          rw [List.replicate_succ, List.cons_append, List.drop_succ_cons, ← this]
        · simp [hc] at hs
  exact key _ _ hm

/-- A line with a single character loses it. -/
theorem c68_indentation_fails :
    cleanLines ["  ab".toList, "}".toList] = ["ab".toList, []] := by decide

example : cleanLines [[], "  ab".toList, "   c".toList] = ["ab".toList, " c".toList] := by decide

/-- Names count every symbol: the numbers of the name add up to the number of atoms, and no symbol
appears twice. -/
theorem c68_name (symbols : List String) :
    ((parseName symbols).map fun p => p.2.getD 1).sum = symbols.length ∧
      ((parseName symbols).map Prod.fst).Nodup := by
  have hd : ∀ (ss d : List String), d.Nodup →
      (ss.foldl (fun (d : List String) s => if s ∈ d then d else d ++ [s]) d).Nodup ∧
      ∀ s, s ∈ ss.foldl (fun (d : List String) s => if s ∈ d then d else d ++ [s]) d ↔
        s ∈ d ∨ s ∈ ss := by
    intro ss
    induction ss with
    | nil => intro d hd; exact ⟨hd, by simp⟩
    | cons x xs ih =>
      intro d hd
      rw [List.foldl_cons]
      by_cases hx : x ∈ d
      · rw [if_pos hx]
        obtain ⟨a, b⟩ := ih d hd
        refine ⟨a, fun s => ?_⟩
        rw [b, List.mem_cons]
        constructor
        · rintro (h | h)
          · exact .inl h
          · exact .inr (.inr h)
        · rintro (h | rfl | h)
          · exact .inl h
          · exact .inl hx
          · exact .inr h
      · rw [if_neg hx]
        obtain ⟨a, b⟩ := ih (d ++ [x]) (by
          rw [List.nodup_append]
          refine ⟨hd, by simp, ?_⟩
          intro a ha b hb
          rw [List.mem_singleton.1 hb]
          rintro rfl
          exact hx ha)
        refine ⟨a, fun s => ?_⟩
        rw [b, List.mem_append, List.mem_singleton, List.mem_cons, or_assoc]
  obtain ⟨hn, hm⟩ := hd symbols [] (by simp)
  unfold parseName
  generalize symbols.foldl (fun (d : List String) s => if s ∈ d then d else d ++ [s]) [] = d at hn hm
  constructor
  · rw [List.map_map]
    have e : d.map ((fun p : String × Option ℕ => p.2.getD 1) ∘
        fun s => (s, if symbols.count s < 2 then none else some (symbols.count s)))
        = d.map fun s => symbols.count s := by
      apply List.map_congr_left
      intro s hs
      have : 0 < symbols.count s := List.count_pos_iff.2 (by simpa using (hm s).1 hs)
      simp only [Function.comp]
      split_ifs
      · simp; omega
      · rfl
    rw [e]
    rw [((List.perm_ext_iff_of_nodup hn (List.nodup_dedup symbols)).2 fun s => by
      rw [hm s, List.mem_dedup]; simp).map _ |>.sum_eq]
    exact List.sum_map_count_dedup_eq_length symbols
  · rw [List.map_map]
    simpa [Function.comp_def] using hn

example : parseName ["H", "O", "H"] = [("H", some 2), ("O", none)] := by decide

end Hotbit
