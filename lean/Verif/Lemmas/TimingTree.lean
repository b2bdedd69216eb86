import Verif.Lemmas.Timing
import Mathlib.Tactic.Ring
import Mathlib.Tactic.NormNum

/-! Time of the children compared with the time of the parent. -/

namespace Hotbit

set_option linter.unusedSimpArgs false
set_option linter.unnecessarySeqFocus false

open TNode

/-! ## Children and parents -/

/-- Time counted so far. -/
def TNode.busy (now : ℝ) : TNode → ℝ
  | .mk _ r t1 e _ _ => e + if r then now - t1 else 0

/-- Number of running timers in a list. -/
def runningCount (ts : List TNode) : ℕ := (ts.filter fun t => t.running).length

mutual
/-- A property of every timer of the tree. -/
def TNode.All (p : TNode → Prop) : TNode → Prop
  | .mk l r t e c k => p (.mk l r t e c k) ∧ AllL p k
def TNode.AllL (p : TNode → Prop) : List TNode → Prop
  | [] => True
  | t :: ts => All p t ∧ AllL p ts
end

/-- Sub-timers run only while their parent runs, one at a time. -/
def Hierarchical (T : TNode) : Prop :=
  T.All fun n => runningCount n.kids ≤ if n.running then 1 else 0

/-- The claim: the children of every timer together do not take longer than the timer. -/
def ChildrenWithin (now : ℝ) (T : TNode) : Prop :=
  T.All fun n => (n.kids.map (TNode.busy now)).sum ≤ n.busy now

theorem busy_advance (now now' : ℝ) (n : TNode) :
    n.busy now' = n.busy now + if n.running then now' - now else 0 := by
  cases n with
  | mk l r t e c k => cases r <;> simp [TNode.busy, TNode.running] <;> ring

theorem sum_advance (now now' : ℝ) (ts : List TNode) :
    (ts.map (TNode.busy now')).sum = (ts.map (TNode.busy now)).sum +
      runningCount ts * (now' - now) := by
  induction ts with
  | nil => simp [runningCount]
  | cons t ts ih =>
    simp only [List.map_cons, List.sum_cons, ih]
    rw [busy_advance now now' t]
    unfold runningCount
    rw [List.filter_cons]
    by_cases h : t.running = true
    · simp [h]; ring
    · simp [h]; ring

mutual
theorem within_advance {now now' : ℝ} (h : now ≤ now') : (T : TNode) → Hierarchical T →
    ChildrenWithin now T → ChildrenWithin now' T
  | .mk l r t e c k => by
    unfold Hierarchical ChildrenWithin
    rw [TNode.All, TNode.All, TNode.All]
    rintro ⟨h1, h2⟩ ⟨h3, h4⟩
    refine ⟨?_, within_advanceL h k h2 h4⟩
    rw [sum_advance now now', busy_advance now now']
    have h5 : (runningCount (TNode.mk l r t e c k).kids : ℝ) * (now' - now) ≤
        if (TNode.mk l r t e c k).running then now' - now else 0 := by
      have h6 : (0 : ℝ) ≤ now' - now := by linarith
      split_ifs at h1 ⊢ with hr
      · have : (runningCount (TNode.mk l r t e c k).kids : ℝ) ≤ 1 := by exact_mod_cast h1
        nlinarith
      · have : runningCount (TNode.mk l r t e c k).kids = 0 := by omega
        rw [this]; simp
    linarith
theorem within_advanceL {now now' : ℝ} (h : now ≤ now') : (ts : List TNode) →
    TNode.AllL (fun n => runningCount n.kids ≤ if n.running then 1 else 0) ts →
    TNode.AllL (fun n => (n.kids.map (TNode.busy now)).sum ≤ n.busy now) ts →
    TNode.AllL (fun n => (n.kids.map (TNode.busy now')).sum ≤ n.busy now') ts
  | [] => by intros; rw [TNode.AllL]; trivial
  | t :: ts => by
    rw [TNode.AllL, TNode.AllL, TNode.AllL]
    rintro ⟨h1, h2⟩ ⟨h3, h4⟩
    exact ⟨within_advance h t h1 h3, within_advanceL h ts h2 h4⟩
end

abbrev TNode.W (now : ℝ) : TNode → Prop := fun n => (n.kids.map (TNode.busy now)).sum ≤ n.busy now

mutual
theorem update_isSome (l : String) (g : TNode → TNode) : (T : TNode) →
    (TNode.getTimer l T).isSome → T.update l g ≠ none
  | .mk l0 r t e c k => by
    rw [TNode.getTimer, TNode.update]
    by_cases hl : l0 = l
    · simp [hl]
    · simp only [hl, if_false]
      intro h
      have := updateL_isSome l g k h
      cases hu : TNode.updateL l g k with
      | none => exact absurd hu this
      | some k' => simp
theorem updateL_isSome (l : String) (g : TNode → TNode) : (ts : List TNode) →
    (TNode.getTimerL l ts).isSome → TNode.updateL l g ts ≠ none
  | [] => by rw [TNode.getTimerL]; simp
  | t :: ts => by
    rw [TNode.getTimerL, TNode.updateL]
    intro h
    cases hu : TNode.update l g t with
    | some t' => simp
    | none =>
      have ht : TNode.getTimer l t = none := by
        cases hq : TNode.getTimer l t with
        | none => rfl
        | some n => exact absurd hu (update_isSome l g t (by rw [hq]; rfl))
      rw [ht] at h
      have := updateL_isSome l g ts h
      cases hv : TNode.updateL l g ts with
      | none => exact absurd hv this
      | some ts' => simp
end

mutual
theorem update_within (now : ℝ) (l : String) (g : TNode → TNode)
    (hk : ∀ n, (g n).kids = n.kids) : (T T' : TNode) →
    (∀ n, TNode.getTimer l T = some n → (g n).busy now = n.busy now) →
    T.update l g = some T' → TNode.All (TNode.W now) T → TNode.All (TNode.W now) T' ∧ T'.busy now = T.busy now
  | .mk l0 r t e c k, T' => by
    intro hg hu hw
    rw [TNode.update] at hu
    rw [TNode.getTimer] at hg
    by_cases hl : l0 = l
    · simp only [hl, if_true, Option.some.injEq] at hu hg
      have hb := hg _ rfl
      have hkk := hk (TNode.mk l r t e c k)
      rw [hu] at hb hkk
      rw [TNode.All] at hw
      refine ⟨?_, by rw [hb]; rfl⟩
      cases T' with
      | mk l1 r1 t1 e1 c1 k1 =>
        rw [TNode.All]
        simp only [TNode.kids] at hkk
        subst hkk
        refine ⟨?_, hw.2⟩
        have := hw.1
        simp only [TNode.W, TNode.kids] at this ⊢
        rw [hb]
        exact this
    · simp only [hl, if_false] at hu hg
      cases hv : TNode.updateL l g k with
      | none => rw [hv] at hu; simp at hu
      | some k' =>
        rw [hv] at hu
        simp only [Option.some.injEq] at hu
        subst hu
        rw [TNode.All] at hw
        obtain ⟨a, b⟩ := updateL_within now l g hk k k' hg hv hw.2
        rw [TNode.All]
        refine ⟨⟨?_, a⟩, rfl⟩
        have := hw.1
        simp only [TNode.W, TNode.kids] at this ⊢
        rw [b]
        exact this
theorem updateL_within (now : ℝ) (l : String) (g : TNode → TNode)
    (hk : ∀ n, (g n).kids = n.kids) : (ts ts' : List TNode) →
    (∀ n, TNode.getTimerL l ts = some n → (g n).busy now = n.busy now) →
    TNode.updateL l g ts = some ts' → TNode.AllL (TNode.W now) ts →
    TNode.AllL (TNode.W now) ts' ∧ (ts'.map (TNode.busy now)).sum = (ts.map (TNode.busy now)).sum
  | [], ts' => by
    intro _ hu
    rw [TNode.updateL] at hu
    simp at hu
  | t :: ts, ts' => by
    intro hg hu hw
    rw [TNode.updateL] at hu
    rw [TNode.getTimerL] at hg
    rw [TNode.AllL] at hw
    cases hv : TNode.update l g t with
    | some t' =>
      rw [hv] at hu
      simp only [Option.some.injEq] at hu
      subst hu
      have hgt : ∀ n, TNode.getTimer l t = some n → (g n).busy now = n.busy now := by
        intro n hn
        exact hg n (by rw [hn])
      obtain ⟨a, b⟩ := update_within now l g hk t t' hgt hv hw.1
      rw [TNode.AllL]
      exact ⟨⟨a, hw.2⟩, by simp [b]⟩
    | none =>
      rw [hv] at hu
      simp only at hu
      cases hv2 : TNode.updateL l g ts with
      | none => rw [hv2] at hu; simp at hu
      | some ts2 =>
        rw [hv2] at hu
        simp only [Option.some.injEq] at hu
        subst hu
        have hnone : TNode.getTimer l t = none := by
          rw [getTimer_none]
          cases hq : TNode.getTimer l t with
          | none => exact (getTimer_none l t).1 hq
          | some n =>
            exfalso
            exact (update_isSome l g t (by rw [hq]; rfl)) hv
        have hgt : ∀ n, TNode.getTimerL l ts = some n → (g n).busy now = n.busy now := by
          intro n hn
          exact hg n (by rw [hnone]; exact hn)
        obtain ⟨a, b⟩ := updateL_within now l g hk ts ts2 hgt hv2 hw.2
        rw [TNode.AllL]
        exact ⟨⟨hw.1, a⟩, by simp [b]⟩
end

mutual
theorem addOutmost_within (now : ℝ) (l : String) : (T : TNode) → TNode.All (TNode.W now) T →
    TNode.All (TNode.W now) (addOutmost (child l) T) ∧
      (addOutmost (child l) T).busy now = T.busy now
  | .mk l0 r t e c k => by
    intro hw
    rw [TNode.All] at hw
    rw [addOutmost]
    have ih := addOutmostL_within now l k
    cases ha : addOutmostL (child l) k with
    | some k' =>
      obtain ⟨a, b⟩ := ih k' ha hw.2
      simp only
      rw [TNode.All]
      refine ⟨⟨?_, a⟩, rfl⟩
      have := hw.1
      simp only [TNode.W, TNode.kids] at this ⊢
      rw [b]
      exact this
    | none =>
      simp only
      rw [TNode.All]
      refine ⟨⟨?_, ?_⟩, rfl⟩
      · have := hw.1
        simp only [TNode.W, TNode.kids] at this ⊢
        simp only [List.map_append, List.sum_append, List.map_cons, List.map_nil, List.sum_cons,
          List.sum_nil, child, TNode.busy, Bool.false_eq_true, if_false] at this ⊢
        simpa using this
      · have hc : ∀ ts : List TNode, TNode.AllL (TNode.W now) ts →
            TNode.AllL (TNode.W now) (ts ++ [child l]) := by
          intro ts
          induction ts with
          | nil =>
            intro _
            simp [TNode.AllL, child, TNode.All, TNode.kids, TNode.busy]
          | cons t ts ih =>
            rw [List.cons_append, TNode.AllL, TNode.AllL]
            rintro ⟨a, b⟩
            exact ⟨a, ih b⟩
        exact hc k hw.2
theorem addOutmostL_within (now : ℝ) (l : String) : (ts ts' : List TNode) →
    addOutmostL (child l) ts = some ts' → TNode.AllL (TNode.W now) ts →
    TNode.AllL (TNode.W now) ts' ∧ (ts'.map (TNode.busy now)).sum = (ts.map (TNode.busy now)).sum
  | [], ts' => by
    intro h
    rw [addOutmostL] at h
    simp at h
  | t :: ts, ts' => by
    intro h hw
    rw [addOutmostL] at h
    rw [TNode.AllL] at hw
    by_cases hr : t.running = true
    · simp only [hr, if_true, Option.some.injEq] at h
      subst h
      obtain ⟨a, b⟩ := addOutmost_within now l t hw.1
      rw [TNode.AllL]
      exact ⟨⟨a, hw.2⟩, by simp [b]⟩
    · simp only [hr, if_false, Bool.false_eq_true] at h
      cases ha : addOutmostL (child l) ts with
      | none => rw [ha] at h; simp at h
      | some ts2 =>
        rw [ha] at h
        simp only [Option.some.injEq] at h
        subst h
        obtain ⟨a, b⟩ := addOutmostL_within now l ts ts2 ha hw.2
        rw [TNode.AllL]
        exact ⟨⟨hw.1, a⟩, by simp [b]⟩
end

theorem start_within {now : ℝ} {l : String} {T T' : TNode} (h : T.start l now = .ok T')
    (hw : ChildrenWithin now T) : ChildrenWithin now T' := by
  unfold TNode.start at h
  have hst : ∀ n : TNode, n.running = false → (started now n).busy now = n.busy now := by
    rintro ⟨l, r, t, e, c, k⟩ hr
    simp only [TNode.running] at hr
    simp [started, TNode.busy, hr]
  have hk : ∀ n : TNode, (started now n).kids = n.kids := by
    rintro ⟨l, r, t, e, c, k⟩; rfl
  split_ifs at h with hr
  generalize hT1 : ensure l T = T1 at h
  have hw1 : TNode.All (TNode.W now) T1 := by
    rw [← hT1, ensure]
    cases T.getTimer l with
    | some x => exact hw
    | none => exact (addOutmost_within now l T hw).1
  cases hg : T1.getTimer l with
  | none => rw [hg] at h; simp at h
  | some tr =>
    rw [hg] at h
    simp only at h
    split_ifs at h with hrun
    cases hu : T1.update l (started now) with
    | none => rw [hu] at h; simp at h
    | some T2 =>
      rw [hu] at h
      simp only [Except.ok.injEq] at h
      subst h
      exact (update_within now l _ hk T1 T2 (by
        intro n hn
        rw [hg] at hn
        rw [← Option.some.inj hn]
        exact hst tr (by simpa using hrun)) hu hw1).1

theorem stop_within {now : ℝ} {l : String} {T T' : TNode} (h : T.stop l now = .ok T')
    (hw : ChildrenWithin now T) : ChildrenWithin now T' := by
  unfold TNode.stop at h
  have hst : ∀ n : TNode, n.running = true → (stopped now n).busy now = n.busy now := by
    rintro ⟨l, r, t, e, c, k⟩ hr
    simp only [TNode.running] at hr
    simp [stopped, TNode.busy, hr]
  have hk : ∀ n : TNode, (stopped now n).kids = n.kids := by
    rintro ⟨l, r, t, e, c, k⟩; rfl
  cases hg : T.getTimer l with
  | none => rw [hg] at h; simp at h
  | some tr =>
    rw [hg] at h
    simp only at h
    split_ifs at h with hrun
    cases hu : T.update l (stopped now) with
    | none => rw [hu] at h; simp at h
    | some T2 =>
      rw [hu] at h
      simp only [Except.ok.injEq] at h
      subst h
      exact (update_within now l _ hk T T2 (by
        intro n hn
        rw [hg] at hn
        rw [← Option.some.inj hn]
        exact hst tr (by simpa using hrun)) hu hw).1

end Hotbit
