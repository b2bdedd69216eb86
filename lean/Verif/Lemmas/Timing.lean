import Verif.Model.Timing
import Mathlib.Algebra.BigOperators.Group.List.Basic
import Mathlib.Tactic.Linarith

/-! Lookup in the timer tree after each operation. -/

namespace Hotbit

set_option linter.unusedSimpArgs false

/-- What a timer records. -/
structure TRec where
  running : Bool
  t1 : ℝ
  elapsed : ℝ
  calls : ℕ

namespace TNode

def toRec : TNode → TRec | mk _ r t e c _ => ⟨r, t, e, c⟩

/-- The record of the timer with label `l`. -/
def look (l : String) (T : TNode) : Option TRec := (getTimer l T).map toRec

def lookL (l : String) (ts : List TNode) : Option TRec := (getTimerL l ts).map toRec

theorem look_mk (l l' r t e c k) :
    look l (mk l' r t e c k) = if l' = l then some ⟨r, t, e, c⟩ else lookL l k := by
  unfold look lookL
  rw [getTimer]
  split_ifs <;> rfl

theorem lookL_nil (l) : lookL l [] = none := rfl

theorem lookL_cons (l t ts) : lookL l (t :: ts) = match look l t with
    | some x => some x
    | none => lookL l ts := by
  unfold lookL look
  rw [getTimerL]
  cases getTimer l t <;> rfl

theorem look_self (T : TNode) : look T.label T = some T.toRec := by
  cases T
  simp [look_mk, label, toRec]

theorem look_running (T : TNode) : T.toRec.running = T.running := by cases T; rfl

/-- `g` changes the record by `h` and keeps label and children. -/
def Local (g : TNode → TNode) (h : TRec → TRec) : Prop :=
  ∀ l r t e c k, g (mk l r t e c k) =
    mk l (h ⟨r, t, e, c⟩).running (h ⟨r, t, e, c⟩).t1 (h ⟨r, t, e, c⟩).elapsed
      (h ⟨r, t, e, c⟩).calls k

mutual
theorem update_look (l : String) (g : TNode → TNode) (h : TRec → TRec) (hg : Local g h) :
    (T : TNode) → (match update l g T with
      | none => look l T = none
      | some T' => (∃ x, look l T = some x ∧ look l T' = some (h x)) ∧ T'.label = T.label ∧
          ∀ l', l' ≠ l → look l' T' = look l' T)
  | mk l0 r t e c k => by
    rw [update]
    by_cases hl : l0 = l
    · subst hl
      simp only [if_true]
      refine ⟨⟨⟨r, t, e, c⟩, by rw [look_mk, if_pos rfl], by rw [hg, look_mk, if_pos rfl]⟩,
        by rw [hg]; rfl, ?_⟩
      intro l' hl'
      rw [hg, look_mk, look_mk, if_neg (Ne.symm hl'), if_neg (Ne.symm hl')]
    · have ih := updateL_look l g h hg k
      simp only [hl, if_false]
      cases hu : updateL l g k with
      | none =>
        rw [hu] at ih
        simp only at ih ⊢
        rw [look_mk, if_neg hl, ih]
      | some k' =>
        rw [hu] at ih
        simp only at ih ⊢
        obtain ⟨⟨x, h1, h2⟩, h3⟩ := ih
        refine ⟨⟨x, by rw [look_mk, if_neg hl, h1], by rw [look_mk, if_neg hl, h2]⟩, rfl, ?_⟩
        intro l' hl'
        rw [look_mk, look_mk, h3 l' hl']
theorem updateL_look (l : String) (g : TNode → TNode) (h : TRec → TRec) (hg : Local g h) :
    (ts : List TNode) → (match updateL l g ts with
      | none => lookL l ts = none
      | some ts' => (∃ x, lookL l ts = some x ∧ lookL l ts' = some (h x)) ∧
          ∀ l', l' ≠ l → lookL l' ts' = lookL l' ts)
  | [] => by rw [updateL]; exact lookL_nil l
  | t :: ts => by
    rw [updateL]
    have ih1 := update_look l g h hg t
    have ih2 := updateL_look l g h hg ts
    cases hu : update l g t with
    | some t' =>
      rw [hu] at ih1
      simp only at ih1 ⊢
      obtain ⟨⟨x, h1, h2⟩, -, h3⟩ := ih1
      refine ⟨⟨x, by rw [lookL_cons, h1], by rw [lookL_cons, h2]⟩, ?_⟩
      intro l' hl'
      rw [lookL_cons, lookL_cons, h3 l' hl']
    | none =>
      rw [hu] at ih1
      simp only at ih1 ⊢
      cases hv : updateL l g ts with
      | none =>
        rw [hv] at ih2
        simp only at ih2 ⊢
        rw [lookL_cons, ih1, ih2]
      | some ts' =>
        rw [hv] at ih2
        simp only at ih2 ⊢
        obtain ⟨⟨x, h1, h2⟩, h3⟩ := ih2
        refine ⟨⟨x, by rw [lookL_cons, ih1, h1], by rw [lookL_cons, ih1, h2]⟩, ?_⟩
        intro l' hl'
        rw [lookL_cons, lookL_cons, h3 l' hl']
end

theorem lookL_append (l : String) (ts us : List TNode) :
    lookL l (ts ++ us) = match lookL l ts with
      | some x => some x
      | none => lookL l us := by
  induction ts with
  | nil => rw [lookL_nil]; rfl
  | cons t ts ih =>
    rw [List.cons_append, lookL_cons, lookL_cons, ih]
    cases look l t <;> rfl

mutual
theorem addOutmost_look (l : String) : (T : TNode) → look l T = none →
    (addOutmost (child l) T).label = T.label ∧ (addOutmost (child l) T).running = T.running ∧
    (∀ l', look l' (addOutmost (child l) T) =
      if l' = l then some ⟨false, 0, 0, 0⟩ else look l' T)
  | mk l0 r t e c k => by
    intro hn
    have hl0 : l0 ≠ l := by
      rintro rfl
      rw [look_mk, if_pos rfl] at hn
      simp at hn
    rw [look_mk, if_neg hl0] at hn
    have ih := addOutmostL_look l k hn
    rw [addOutmost]
    cases ha : addOutmostL (child l) k with
    | some k' =>
      rw [ha] at ih
      simp only at ih ⊢
      refine ⟨rfl, rfl, ?_⟩
      intro l'
      rw [look_mk, look_mk, ih l']
      by_cases h1 : l0 = l'
      · rw [if_pos h1, if_neg (by rw [← h1]; exact hl0), if_pos h1]
      · rw [if_neg h1, if_neg h1]
    | none =>
      simp only
      refine ⟨rfl, rfl, ?_⟩
      intro l'
      rw [look_mk, look_mk, lookL_append, lookL_cons, lookL_nil, child, look_mk]
      by_cases h1 : l0 = l'
      · rw [if_pos h1, if_neg (by rw [← h1]; exact hl0), if_pos h1]
      · rw [if_neg h1, if_neg h1]
        by_cases h2 : l' = l
        · subst h2
          simp [hn, lookL_nil]
        · rw [if_neg h2, if_neg (Ne.symm h2)]
          cases lookL l' k <;> rfl
theorem addOutmostL_look (l : String) : (ts : List TNode) → lookL l ts = none →
    (match addOutmostL (child l) ts with
      | none => True
      | some ts' => ∀ l', lookL l' ts' = if l' = l then some ⟨false, 0, 0, 0⟩ else lookL l' ts)
  | [] => by intro _; rw [addOutmostL]; trivial
  | t :: ts => by
    intro hn
    rw [addOutmostL]
    rw [lookL_cons] at hn
    have hnt : look l t = none := by
      cases h : look l t with
      | none => rfl
      | some x => rw [h] at hn; simp at hn
    rw [hnt] at hn
    simp only at hn
    have ih1 := addOutmost_look l t hnt
    have ih2 := addOutmostL_look l ts hn
    by_cases hr : t.running = true
    · simp only [hr, if_true]
      intro l'
      rw [lookL_cons, lookL_cons, ih1.2.2 l']
      by_cases h : l' = l
      · simp [h]
      · simp only [h, if_false]
    · simp only [hr, if_false, Bool.false_eq_true]
      cases ha : addOutmostL (child l) ts with
      | none => trivial
      | some ts' =>
        rw [ha] at ih2
        simp only at ih2 ⊢
        intro l'
        rw [lookL_cons, lookL_cons, ih2 l']
        by_cases h : l' = l
        · subst h
          simp [hnt]
        · simp only [h, if_false]
end

theorem local_started (now : ℝ) :
    Local (started now) fun x => { x with running := true, t1 := now } := by
  intro l r t e c k; rfl

theorem local_stopped (now : ℝ) :
    Local (stopped now) fun x =>
      { x with running := false, elapsed := x.elapsed + (now - x.t1), calls := x.calls + 1 } := by
  intro l r t e c k; rfl

theorem getTimer_running (l : String) (T : TNode) (x : TNode) (h : getTimer l T = some x) :
    ∃ r, look l T = some r ∧ r.running = x.running := by
  refine ⟨x.toRec, by rw [look, h]; rfl, look_running x⟩

theorem getTimer_none (l : String) (T : TNode) : getTimer l T = none ↔ look l T = none := by
  unfold look
  cases getTimer l T <;> simp

/-- `start(label)`: effect on every record. -/
theorem start_spec (l : String) (now : ℝ) (T : TNode) :
    (T.running = false → T.start l now = .error .assertionError) ∧
    (T.running = true → (∃ x, look l T = some x ∧ x.running = true) →
      T.start l now = .error .assertionError) ∧
    (T.running = true → (∀ x, look l T = some x → x.running = false) →
      ∃ T', T.start l now = .ok T' ∧ T'.label = T.label ∧
        (∀ l', l' ≠ l → look l' T' = look l' T) ∧
        look l T' = some { ((look l T).getD ⟨false, 0, 0, 0⟩) with running := true, t1 := now }) := by
  refine ⟨?_, ?_, ?_⟩
  · intro h
    unfold start ensure
    simp [h]
  · rintro h ⟨x, hx, hr⟩
    unfold start ensure
    cases hg : getTimer l T with
    | none => rw [(getTimer_none l T).1 hg] at hx; simp at hx
    | some y =>
      obtain ⟨r, h1, h2⟩ := getTimer_running l T y hg
      rw [hx] at h1
      have : y.running = true := by rw [← h2, ← Option.some.inj h1]; exact hr
      simp [h, hg, this]
  · intro h hx
    unfold start ensure
    cases hg : getTimer l T with
    | none =>
      have hn := (getTimer_none l T).1 hg
      obtain ⟨a1, a2, a3⟩ := addOutmost_look l T hn
      have hl := a3 l
      rw [if_pos rfl] at hl
      have hu := update_look l (started now) _ (local_started now) (addOutmost (child l) T)
      simp only [h, Bool.not_true, if_false, Bool.false_eq_true]
      cases hg2 : getTimer l (addOutmost (child l) T) with
      | none => rw [(getTimer_none _ _).1 hg2] at hl; simp at hl
      | some y =>
        obtain ⟨r, h1, h2⟩ := getTimer_running l _ y hg2
        rw [hl] at h1
        have hy : y.running = false := by rw [← h2, ← Option.some.inj h1]
        simp only [hy, Bool.false_eq_true, if_false]
        cases hup : update l (started now) (addOutmost (child l) T) with
        | none => rw [hup] at hu; simp only at hu; rw [hu] at hl; simp at hl
        | some T' =>
          rw [hup] at hu
          obtain ⟨⟨x, b1, b2⟩, b3, b4⟩ := hu
          refine ⟨T', rfl, b3.trans a1, ?_, ?_⟩
          · intro l' hl'
            rw [b4 l' hl', a3 l', if_neg hl']
          · rw [hl] at b1
            rw [b2, ← Option.some.inj b1, hn]
            rfl
    | some y =>
      obtain ⟨r, h1, h2⟩ := getTimer_running l T y hg
      have hy : y.running = false := by rw [← h2]; exact hx r h1
      simp only [h, Bool.not_true, if_false, Bool.false_eq_true, hg, hy]
      have hu := update_look l (started now) _ (local_started now) T
      cases hup : update l (started now) T with
      | none => rw [hup] at hu; simp only at hu; rw [hu] at h1; simp at h1
      | some T' =>
        rw [hup] at hu
        obtain ⟨⟨x, b1, b2⟩, b3, b4⟩ := hu
        refine ⟨T', rfl, b3, b4, ?_⟩
        rw [b2, b1]
        rfl

/-- `stop(label)`: effect on every record. -/
theorem stop_spec (l : String) (now : ℝ) (T : TNode) :
    ((∀ x, look l T = some x → x.running = false) → T.stop l now = .error .assertionError) ∧
    (∀ x, look l T = some x → x.running = true →
      ∃ T', T.stop l now = .ok T' ∧ T'.label = T.label ∧
        (∀ l', l' ≠ l → look l' T' = look l' T) ∧
        look l T' = some { x with
          running := false, elapsed := x.elapsed + (now - x.t1), calls := x.calls + 1 }) := by
  constructor
  · intro h
    unfold stop
    cases hg : getTimer l T with
    | none => rfl
    | some y =>
      obtain ⟨r, h1, h2⟩ := getTimer_running l T y hg
      have : y.running = false := by rw [← h2]; exact h r h1
      simp [this]
  · intro x hx hr
    unfold stop
    cases hg : getTimer l T with
    | none => rw [(getTimer_none l T).1 hg] at hx; simp at hx
    | some y =>
      obtain ⟨r, h1, h2⟩ := getTimer_running l T y hg
      rw [hx] at h1
      have hy : y.running = true := by rw [← h2, ← Option.some.inj h1]; exact hr
      simp only [hy, Bool.not_true, if_false, Bool.false_eq_true]
      have hu := update_look l (stopped now) _ (local_stopped now) T
      cases hup : update l (stopped now) T with
      | none => rw [hup] at hu; simp only at hu; rw [hu] at hx; simp at hx
      | some T' =>
        rw [hup] at hu
        obtain ⟨⟨x', b1, b2⟩, b3, b4⟩ := hu
        refine ⟨T', rfl, b3, b4, ?_⟩
        rw [hx] at b1
        rw [b2, ← Option.some.inj b1]

end TNode

end Hotbit
