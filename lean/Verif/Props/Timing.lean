import Verif.Lemmas.TimingTree
import Mathlib.Tactic.NormNum

/-!
# C39: nested timers
-/

namespace Hotbit

set_option linter.unusedSimpArgs false

open TNode

/-! ## Specification: what a sequence of calls says about one label -/

/-- The completed intervals (start reading, stop reading) of label `l` in a sequence of calls;
`s` is the reading of a start that is still open. -/
def intervals (l : String) : List TEvent → Option ℝ → List (ℝ × ℝ)
  | [], _ => []
  | .start l' t :: es, s => if l' = l then intervals l es (some t) else intervals l es s
  | .stop l' t :: es, s =>
    if l' = l then match s with
      | some t0 => (t0, t) :: intervals l es none
      | none => intervals l es none
    else intervals l es s

/-- The reading of the start that is still open at the end. -/
def openStart (l : String) : List TEvent → Option ℝ → Option ℝ
  | [], s => s
  | .start l' t :: es, s => if l' = l then openStart l es (some t) else openStart l es s
  | .stop l' _ :: es, s => if l' = l then openStart l es none else openStart l es s

/-- Properly nested calls while the timers `o` are running: a `start` of a label that is not open, a
nested block, the `stop` of the same label, and so on. -/
inductive Nested : List String → List TEvent → Prop
  | nil (o) : Nested o []
  | block (o l t w t' w') : l ∉ o → Nested (l :: o) w → Nested o w' →
      Nested o (TEvent.start l t :: (w ++ TEvent.stop l t' :: w'))

/-- The label names a timer that is running. -/
def RunningIn (T : TNode) (l : String) : Prop := ∃ x, look l T = some x ∧ x.running = true

/-! ## The two calls on the records -/

theorem c39_start_raises (T : TNode) (l : String) (now : ℝ)
    (h : RunningIn T l ∨ ¬ RunningIn T T.label) : T.start l now = .error .assertionError := by
  by_cases hr : T.running = true
  · rcases h with h | h
    · exact (start_spec l now T).2.1 hr h
    · exact absurd ⟨_, look_self T, (look_running T).trans hr⟩ h
  · exact (start_spec l now T).1 (by simpa using hr)

/-- Stopping a timer that is not running, or that was never started, raises. -/
theorem c39_stop_raises (T : TNode) (l : String) (now : ℝ) (h : ¬ RunningIn T l) :
    T.stop l now = .error .assertionError := by
  refine (stop_spec l now T).1 fun x hx => ?_
  by_contra hr
  exact h ⟨x, hx, by simpa using hr⟩

private theorem run_append (es fs : List TEvent) (T : TNode) :
    runTimer (es ++ fs) T = (runTimer es T >>= runTimer fs) := by
  induction es generalizing T with
  | nil => rfl
  | cons e es ih =>
    cases e with
    | start l t =>
      simp only [List.cons_append, runTimer]
      cases T.start l t with
      | error x => rfl
      | ok T' => simpa [bind, Except.bind] using ih T'
    | stop l t =>
      simp only [List.cons_append, runTimer]
      cases T.stop l t with
      | error x => rfl
      | ok T' => simpa [bind, Except.bind] using ih T'

private theorem start_ok_inv {T T' : TNode} {l : String} {now : ℝ} (h : T.start l now = .ok T') :
    T'.label = T.label ∧ (∀ l', l' ≠ l → look l' T' = look l' T) ∧
      (∀ x, look l T = some x → x.running = false) ∧
      look l T' = some { ((look l T).getD ⟨false, 0, 0, 0⟩) with running := true, t1 := now } := by
  by_cases hr : T.running = true
  · by_cases hx : ∃ x, look l T = some x ∧ x.running = true
    · rw [(start_spec l now T).2.1 hr hx] at h
      simp at h
    · have hx' : ∀ x, look l T = some x → x.running = false := by
        intro x h1
        by_contra h2
        exact hx ⟨x, h1, by simpa using h2⟩
      obtain ⟨T'', h1, h2, h3, h4⟩ := (start_spec l now T).2.2 hr hx'
      rw [h] at h1
      rw [Except.ok.inj h1]
      exact ⟨h2, h3, hx', h4⟩
  · rw [(start_spec l now T).1 (by simpa using hr)] at h
    simp at h

private theorem stop_ok_inv {T T' : TNode} {l : String} {now : ℝ} (h : T.stop l now = .ok T') :
    T'.label = T.label ∧ (∀ l', l' ≠ l → look l' T' = look l' T) ∧
      ∃ x, look l T = some x ∧ x.running = true ∧ look l T' = some { x with
          running := false, elapsed := x.elapsed + (now - x.t1), calls := x.calls + 1 } := by
  by_cases hx : ∃ x, look l T = some x ∧ x.running = true
  · obtain ⟨x, hx, hr⟩ := hx
    obtain ⟨T'', h1, h2, h3, h4⟩ := (stop_spec l now T).2 x hx hr
    rw [h] at h1
    rw [Except.ok.inj h1]
    exact ⟨h2, h3, x, hx, hr, h4⟩
  · rw [c39_stop_raises T l now hx] at h
    simp at h

/-! ## Every sequence of calls -/

/-- The record after any sequence of calls, from any record. -/
private theorem run_rec (l : String) (es : List TEvent) : ∀ (T T' : TNode), runTimer es T = .ok T' →
    ∀ (x : TRec), look l T = some x →
    ∃ y, look l T' = some y ∧
      y.elapsed = x.elapsed +
        ((intervals l es (if x.running then some x.t1 else none)).map fun p => p.2 - p.1).sum ∧
      y.calls = x.calls + (intervals l es (if x.running then some x.t1 else none)).length ∧
      (if y.running then some y.t1 else none)
        = openStart l es (if x.running then some x.t1 else none) := by
  induction es with
  | nil =>
    intro T T' h x hx
    cases h
    exact ⟨x, hx, by simp [intervals], by simp [intervals], by simp [openStart]⟩
  | cons e es ih =>
    intro T T' h x hx
    cases e with
    | start l' t =>
      simp only [runTimer] at h
      cases hs : T.start l' t with
      | error z => rw [hs] at h; simp [bind, Except.bind] at h
      | ok T1 =>
        rw [hs] at h
        obtain ⟨h1, h2, h3, h4⟩ := start_ok_inv hs
        by_cases hl : l' = l
        · subst hl
          rw [hx] at h4
          obtain ⟨y, y1, y2, y3, y4⟩ := ih T1 T' h _ h4
          refine ⟨y, y1, ?_, ?_, ?_⟩
          · simpa [intervals] using y2
          · simpa [intervals] using y3
          · simpa [openStart] using y4
        · rw [← h2 l (Ne.symm hl)] at hx
          obtain ⟨y, y1, y2, y3, y4⟩ := ih T1 T' h _ hx
          refine ⟨y, y1, ?_, ?_, ?_⟩
          · simpa [intervals, hl] using y2
          · simpa [intervals, hl] using y3
          · simpa [openStart, hl] using y4
    | stop l' t =>
      simp only [runTimer] at h
      cases hs : T.stop l' t with
      | error z => rw [hs] at h; simp [bind, Except.bind] at h
      | ok T1 =>
        rw [hs] at h
        obtain ⟨h1, h2, z, h3, h4, h5⟩ := stop_ok_inv hs
        by_cases hl : l' = l
        · subst hl
          rw [hx] at h3
          have hz := Option.some.inj h3
          subst hz
          obtain ⟨y, y1, y2, y3, y4⟩ := ih T1 T' h _ h5
          refine ⟨y, y1, ?_, ?_, ?_⟩
          · simp [intervals, h4] at y2 ⊢
            linarith
          · simp [intervals, h4] at y3 ⊢
            omega
          · simpa [openStart] using y4
        · rw [← h2 l (Ne.symm hl)] at hx
          obtain ⟨y, y1, y2, y3, y4⟩ := ih T1 T' h _ hx
          refine ⟨y, y1, ?_, ?_, ?_⟩
          · simpa [intervals, hl] using y2
          · simpa [intervals, hl] using y3
          · simpa [openStart, hl] using y4

private theorem run_fresh (l : String) (es : List TEvent) : ∀ (T T' : TNode),
    runTimer es T = .ok T' → look l T = none →
    ((∀ t, TEvent.start l t ∉ es) → look l T' = none) ∧
    ((∃ t, TEvent.start l t ∈ es) → ∃ y, look l T' = some y ∧
      y.elapsed = ((intervals l es none).map fun p => p.2 - p.1).sum ∧
      y.calls = (intervals l es none).length ∧
      (if y.running then some y.t1 else none) = openStart l es none) := by
  induction es with
  | nil =>
    intro T T' h hx
    cases h
    exact ⟨fun _ => hx, by simp⟩
  | cons e es ih =>
    intro T T' h hx
    cases e with
    | start l' t =>
      simp only [runTimer] at h
      cases hs : T.start l' t with
      | error z => rw [hs] at h; simp [bind, Except.bind] at h
      | ok T1 =>
        rw [hs] at h
        obtain ⟨h1, h2, h3, h4⟩ := start_ok_inv hs
        by_cases hl : l' = l
        · subst hl
          refine ⟨fun hn => absurd (List.mem_cons_self) (hn t), fun _ => ?_⟩
          rw [hx] at h4
          obtain ⟨y, y1, y2, y3, y4⟩ := run_rec l' es T1 T' h _ h4
          refine ⟨y, y1, ?_, ?_, ?_⟩
          · simpa [intervals] using y2
          · simpa [intervals] using y3
          · simpa [openStart] using y4
        · rw [← h2 l (Ne.symm hl)] at hx
          obtain ⟨a, b⟩ := ih T1 T' h hx
          constructor
          · intro hn
            exact a fun t' ht' => hn t' (List.mem_cons_of_mem _ ht')
          · rintro ⟨t', ht'⟩
            have : TEvent.start l t' ∈ es := by
              rcases List.mem_cons.1 ht' with h' | h'
              · simp only [TEvent.start.injEq] at h'
                exact absurd h'.1.symm hl
              · exact h'
            simpa [intervals, openStart, hl] using b ⟨t', this⟩
    | stop l' t =>
      simp only [runTimer] at h
      cases hs : T.stop l' t with
      | error z => rw [hs] at h; simp [bind, Except.bind] at h
      | ok T1 =>
        rw [hs] at h
        obtain ⟨h1, h2, z, h3, h4, h5⟩ := stop_ok_inv hs
        have hl : l' ≠ l := by
          rintro rfl
          rw [hx] at h3
          simp at h3
        rw [← h2 l (Ne.symm hl)] at hx
        obtain ⟨a, b⟩ := ih T1 T' h hx
        constructor
        · intro hn
          exact a fun t' ht' => hn t' (List.mem_cons_of_mem _ ht')
        · rintro ⟨t', ht'⟩
          have : TEvent.start l t' ∈ es := by
            rcases List.mem_cons.1 ht' with h' | h'
            · simp at h'
            · exact h'
          simpa [intervals, openStart, hl] using b ⟨t', this⟩

/-- After any sequence of calls that does not raise, the timer of label `l` exists iff it was started;
its elapsed time is the sum over all its completed intervals and its call count their number; it is
running exactly when its last start is still open. -/
theorem c39_accumulates (root : String) (t0 : ℝ) (es : List TEvent) (T : TNode)
    (h : runTimer es (TNode.root root t0) = .ok T) (l : String) (hl : l ≠ root) :
    ((∀ t, TEvent.start l t ∉ es) → look l T = none) ∧
    ((∃ t, TEvent.start l t ∈ es) → ∃ y, look l T = some y ∧
      y.elapsed = ((intervals l es none).map fun p => p.2 - p.1).sum ∧
      y.calls = (intervals l es none).length ∧
      (y.running = true ↔ (openStart l es none).isSome)) := by
  have h0 : look l (TNode.root root t0) = none := by
    rw [TNode.root, look_mk, if_neg (Ne.symm hl), lookL_nil]
  obtain ⟨a, b⟩ := run_fresh l es _ T h h0
  refine ⟨a, fun hs => ?_⟩
  obtain ⟨y, y1, y2, y3, y4⟩ := b hs
  refine ⟨y, y1, y2, y3, ?_⟩
  rw [← y4]
  cases y.running <;> simp

/-- The same for the top-level timer, which runs from its creation at `t0`. -/
theorem c39_root_accumulates (root : String) (t0 : ℝ) (es : List TEvent) (T : TNode)
    (h : runTimer es (TNode.root root t0) = .ok T) : ∃ y, look root T = some y ∧
      y.elapsed = ((intervals root es (some t0)).map fun p => p.2 - p.1).sum ∧
      y.calls = (intervals root es (some t0)).length := by
  have h0 : look root (TNode.root root t0) = some ⟨true, t0, 0, 0⟩ := by
    rw [TNode.root, look_mk, if_pos rfl]
  obtain ⟨y, y1, y2, y3, -⟩ := run_rec root es _ T h _ h0
  exact ⟨y, y1, by simpa using y2, by simpa using y3⟩

/-! ## Properly nested calls -/

private theorem start_running {T T' : TNode} {l : String} {now : ℝ} (h : T.start l now = .ok T')
    (l' : String) : RunningIn T' l' ↔ l' = l ∨ RunningIn T l' := by
  obtain ⟨-, h2, -, h4⟩ := start_ok_inv h
  by_cases hl : l' = l
  · subst hl
    simp only [true_or, iff_true]
    exact ⟨_, h4, rfl⟩
  · unfold RunningIn
    rw [h2 l' hl]
    simp [hl]

private theorem stop_running {T T' : TNode} {l : String} {now : ℝ} (h : T.stop l now = .ok T')
    (l' : String) : RunningIn T' l' ↔ l' ≠ l ∧ RunningIn T l' := by
  obtain ⟨-, h2, x, -, -, h4⟩ := stop_ok_inv h
  by_cases hl : l' = l
  · subst hl
    simp only [ne_eq, not_true_eq_false, false_and, iff_false]
    rintro ⟨y, h1, h3⟩
    rw [h4] at h1
    rw [← Option.some.inj h1] at h3
    simp at h3
  · unfold RunningIn
    rw [h2 l' hl]
    simp [hl]

private theorem nested_run (o : List String) (es : List TEvent) (h : Nested o es) : ∀ (T : TNode),
    T.label ∈ o → (∀ l, RunningIn T l ↔ l ∈ o) →
    ∃ T', runTimer es T = .ok T' ∧ T'.label = T.label ∧ (∀ l, RunningIn T' l ↔ l ∈ o) := by
  induction h with
  | nil o =>
    intro T _ hr
    exact ⟨T, rfl, rfl, hr⟩
  | block o l t w t' w' hl hw hw' ih1 ih2 =>
    intro T hT hr
    have hT' : T.running = true := by
      obtain ⟨x, hx, hx2⟩ := (hr _).2 hT
      rw [look_self] at hx
      rw [← look_running, Option.some.inj hx, hx2]
    obtain ⟨T1, s1, s2, -, -⟩ := (start_spec l t T).2.2 hT' (by
      intro x hx
      by_contra hc
      exact hl ((hr l).1 ⟨x, hx, by simpa using hc⟩))
    have r1 : ∀ l', RunningIn T1 l' ↔ l' ∈ l :: o := by
      intro l'
      rw [start_running s1, hr]
      simp
    obtain ⟨T2, e1, e2, e3⟩ := ih1 T1 (by rw [s2]; exact List.mem_cons_of_mem _ hT) r1
    obtain ⟨x, x1, x2⟩ := (e3 l).2 List.mem_cons_self
    obtain ⟨T3, p1, p2, -, -⟩ := (stop_spec l t' T2).2 x x1 x2
    have r3 : ∀ l', RunningIn T3 l' ↔ l' ∈ o := by
      intro l'
      rw [stop_running p1, e3]
      constructor
      · rintro ⟨a, b⟩
        exact (List.mem_cons.1 b).resolve_left a
      · intro a
        exact ⟨fun e => hl (e ▸ a), List.mem_cons_of_mem _ a⟩
    obtain ⟨T4, f1, f2, f3⟩ := ih2 T3 (by rw [p2, e2, s2]; exact hT) r3
    refine ⟨T4, ?_, by rw [f2, p2, e2, s2], f3⟩
    simp only [runTimer, s1]
    show runTimer (w ++ TEvent.stop l t' :: w') T1 = _
    rw [run_append, e1]
    show (T2.stop l t' >>= runTimer w') = _
    rw [p1]
    exact f1

/-- Properly nested start/stop calls never raise and leave no timer running except the top-level one. -/
theorem c39_nested (root : String) (t0 : ℝ) (es : List TEvent) (h : Nested [root] es) :
    ∃ T, runTimer es (TNode.root root t0) = .ok T ∧ ∀ l, RunningIn T l ↔ l = root := by
  obtain ⟨T, h1, -, h3⟩ := nested_run [root] es h (TNode.root root t0)
    (by simp [TNode.root, TNode.label]) (by
      intro l
      unfold RunningIn
      rw [TNode.root, look_mk]
      by_cases hl : root = l
      · simp [hl]
      · simp [hl, lookL_nil, Ne.symm hl])
  exact ⟨T, h1, by simpa using h3⟩

/-- A nested sequence with a repeated label. -/
example : Nested ["root"] [.start "a" 1, .start "b" 2, .stop "b" 3, .stop "a" 5, .start "b" 6,
    .stop "b" 7] :=
  .block _ "a" 1 [.start "b" 2, .stop "b" 3] 5 [.start "b" 6, .stop "b" 7] (by decide)
    (.block _ "b" 2 [] 3 [] (by decide) (.nil _) (.nil _))
    (.block _ "b" 6 [] 7 [] (by decide) (.nil _) (.nil _))

/-- A start that is never stopped (an exception skipped the stop) makes every later start of the same
label raise, whatever happened in between, as long as the label itself is not stopped. -/
theorem c39_skipped_stop (T T1 T2 : TNode) (l : String) (t t' : ℝ) (es : List TEvent)
    (h1 : T.start l t = .ok T1) (h2 : runTimer es T1 = .ok T2) (hn : ∀ s, TEvent.stop l s ∉ es) :
    T2.start l t' = .error .assertionError := by
  apply c39_start_raises
  left
  obtain ⟨-, -, -, h4⟩ := start_ok_inv h1
  obtain ⟨y, y1, -, -, y4⟩ := run_rec l es T1 T2 h2 _ h4
  refine ⟨y, y1, ?_⟩
  have key : ∀ (es : List TEvent) (s : ℝ), (∀ u, TEvent.stop l u ∉ es) →
      (openStart l es (some s)).isSome := by
    intro es
    induction es with
    | nil => intro s _; rfl
    | cons e es ih =>
      intro s hs
      have hs' : ∀ u, TEvent.stop l u ∉ es := fun u hu => hs u (List.mem_cons_of_mem _ hu)
      cases e with
      | start l' u =>
        rw [openStart]
        split_ifs
        · exact ih _ hs'
        · exact ih _ hs'
      | stop l' u =>
        rw [openStart]
        rw [if_neg]
        · exact ih _ hs'
        · rintro rfl
          exact hs u List.mem_cons_self
  have := key es t hn
  simp only [if_true] at y4
  rw [← y4] at this
  by_contra hc
  simp [hc] at this

/-! ## After `summary()` -/

/-- `summary()` stops the top-level timer as well; every later `start` raises. -/
theorem c39_summary_fails (root : String) (t0 now t : ℝ) (es : List TEvent) (T : TNode)
    (h : runTimer es (TNode.root root t0) = .ok T) (l : String) :
    (stopAll now T).start l t = .error .assertionError := by
  refine (start_spec l t _).1 ?_
  cases T with
  | mk l0 r t1 e c k =>
    rw [stopAll]
    by_cases hr : r = true
    · simp [hr, TNode.running]
    · simp [hr, TNode.running]

/-! ## Children and parents -/

/-- The clock reading of a call. -/
def TEvent.time : TEvent → ℝ
  | .start _ t => t
  | .stop _ t => t

/-- Execute the calls, requiring the clock not to run backwards and the tree to be `Hierarchical` before
every call. -/
inductive OrderedRun : ℝ → TNode → List TEvent → ℝ → TNode → Prop
  | nil (now T) : OrderedRun now T [] now T
  | cons (now T e T1 es now' T') : now ≤ e.time → Hierarchical T → runTimer [e] T = .ok T1 →
      OrderedRun e.time T1 es now' T' → OrderedRun now T (e :: es) now' T'

/-- As long as sub-timers run only inside their parents, one at a time, the children of every timer
together never take longer than the timer itself. Missing from the full claim: sequences in which an
existing timer is restarted under another timer than the one it was first started in
(`c39_children_fails`). -/
theorem c39_children_partial (root : String) (t0 : ℝ) (es : List TEvent) (now : ℝ) (T : TNode)
    (h : OrderedRun t0 (TNode.root root t0) es now T) : ChildrenWithin now T := by
  have h0 : ChildrenWithin t0 (TNode.root root t0) := by
    unfold ChildrenWithin
    simp [TNode.root, TNode.All, TNode.AllL, TNode.kids, TNode.busy]
  generalize TNode.root root t0 = T0 at h h0
  induction h with
  | nil now T => exact h0
  | cons now T e T1 es now' T' ht hh hr _ ih =>
    apply ih
    have hw := within_advance ht T hh h0
    cases e with
    | start l t =>
      simp only [runTimer] at hr
      cases hs : T.start l t with
      | error z => rw [hs] at hr; simp [bind, Except.bind] at hr
      | ok T2 =>
        rw [hs] at hr
        simp only [bind, Except.bind, Except.ok.injEq] at hr
        subst hr
        exact start_within hs hw
    | stop l t =>
      simp only [runTimer] at hr
      cases hs : T.stop l t with
      | error z => rw [hs] at hr; simp [bind, Except.bind] at hr
      | ok T2 =>
        rw [hs] at hr
        simp only [bind, Except.bind, Except.ok.injEq] at hr
        subst hr
        exact stop_within hs hw

/-- A timer first started inside `a` and restarted outside: it stays a child of `a` and its time exceeds
its parent's, although the calls are properly nested. -/
theorem c39_children_fails : ∃ es : List TEvent, Nested ["root"] es ∧
    ∃ T, runTimer es (TNode.root "root" 0) = .ok T ∧ ¬ ChildrenWithin 9 T := by
  refine ⟨[.start "a" 1, .start "b" 2, .stop "b" 3, .stop "a" 4, .start "b" 5, .stop "b" 9],
    .block _ "a" 1 [.start "b" 2, .stop "b" 3] 4 [.start "b" 5, .stop "b" 9] (by decide)
      (.block _ "b" 2 [] 3 [] (by decide) (.nil _) (.nil _))
      (.block _ "b" 5 [] 9 [] (by decide) (.nil _) (.nil _)),
    .mk "root" true 0 0 0 [.mk "a" false 1 (0 + (4 - 1)) 1
      [.mk "b" false 5 (0 + (3 - 2) + (9 - 5)) 2 []]], ?_, ?_⟩
  · simp [runTimer, TNode.start, TNode.ensure, TNode.stop, TNode.root, TNode.child, TNode.getTimer,
      TNode.getTimerL, TNode.addOutmost, TNode.addOutmostL, TNode.update, TNode.updateL,
      TNode.started, TNode.stopped, TNode.running, bind, Except.bind]
  · unfold ChildrenWithin
    simp only [TNode.All, TNode.AllL, TNode.kids, TNode.busy, List.map_cons, List.map_nil,
      List.sum_cons, List.sum_nil, if_true, if_false, Bool.false_eq_true]
    norm_num

/-- Two nested timers with an ordered clock. -/
example : ∃ T, OrderedRun 0 (TNode.root "root" 0)
    [.start "a" 1, .start "b" 2, .stop "b" 3, .stop "a" 5] 5 T ∧ T.kids ≠ [] := by
  refine ⟨_, .cons _ _ _ (.mk "root" true 0 0 0 [.mk "a" true 1 0 0 []]) _ _ _ (by simp [TEvent.time])
    ?_ ?_ (.cons _ _ _ (.mk "root" true 0 0 0 [.mk "a" true 1 0 0 [.mk "b" true 2 0 0 []]]) _ _ _
      (by simp [TEvent.time]) ?_ ?_ (.cons _ _ _
      (.mk "root" true 0 0 0 [.mk "a" true 1 0 0 [.mk "b" false 2 (0 + (3 - 2)) 1 []]]) _ _ _
      (by norm_num [TEvent.time]) ?_ ?_ (.cons _ _ _
      (.mk "root" true 0 0 0 [.mk "a" false 1 (0 + (5 - 1)) 1 [.mk "b" false 2 (0 + (3 - 2)) 1 []]])
      _ _ _ (by norm_num [TEvent.time]) ?_ ?_ (.nil _ _)))), ?_⟩
  all_goals simp [Hierarchical, TNode.All, TNode.AllL, TNode.kids, runningCount, TNode.root,
    TNode.running, runTimer, TNode.start, TNode.ensure, TNode.stop, TNode.child, TNode.getTimer, TNode.getTimerL,
    TNode.addOutmost, TNode.addOutmostL, TNode.update, TNode.updateL, TNode.started, TNode.stopped,
    bind, Except.bind]

end Hotbit
