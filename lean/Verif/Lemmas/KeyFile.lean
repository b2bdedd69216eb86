import Verif.Model.Native
import Verif.Spec.KeyFile
import Verif.Lemmas.Text
import Mathlib.Data.List.TakeWhile
import Mathlib.Tactic

/-!
# Lemmas about `key=value` files
-/

namespace Hotbit

theorem splitWsAux_post {post : List Char} (hp : ∀ c ∈ post, isWs c = true) (acc s : List Char) :
    splitWsAux acc (s ++ post) = splitWsAux acc s := by
  induction s generalizing acc with
  | nil =>
    rw [List.nil_append, splitWsAux_blank hp]
    rfl
  | cons c s ih =>
    rw [List.cons_append, splitWsAux, splitWsAux]
    split_ifs <;> simp [ih]

theorem dropWhile_ws_append {pre rest : List Char} (hp : ∀ c ∈ pre, isWs c = true)
    (hr : ∀ c, rest.head? = some c → isWs c = false) : (pre ++ rest).dropWhile isWs = rest := by
  induction pre with
  | nil =>
    cases rest with
    | nil => rfl
    | cons c r => simp [List.dropWhile_cons, hr c rfl]
  | cons c pre ih =>
    rw [List.cons_append, List.dropWhile_cons, if_pos (hp c (by simp))]
    exact ih (fun d hd => hp d (by simp [hd]))

/-- Trimming gives the text without the blanks around it, and nothing else does. -/
theorem isTrim_iff (s w : List Char) : IsTrim s w ↔ stripWs s = w := by
  constructor
  · rintro ⟨pre, post, rfl, h1, h2, h3, h4⟩
    have h1' : ∀ c ∈ pre, isWs c = true := fun c hc => (isWs_iff c).2 (h1 c hc)
    have h2' : ∀ c ∈ post, isWs c = true := fun c hc => (isWs_iff c).2 (h2 c hc)
    unfold stripWs
    rcases w with _ | ⟨a, w⟩
    · have : (pre ++ [] ++ post).dropWhile isWs = [] := by
        rw [List.dropWhile_eq_nil_iff]
        intro c hc
        simp at hc
        rcases hc with hc | hc
        · exact h1' c hc
        · exact h2' c hc
      rw [this]
      rfl
    · rw [List.append_assoc, dropWhile_ws_append h1' (by
        intro c hc
        exact (isWs_false_iff c).2 (h3 c (by simpa using hc))), List.reverse_append,
        dropWhile_ws_append (by simpa using h2') (by
          intro c hc
          rw [List.head?_reverse] at hc
          exact (isWs_false_iff c).2 (h4 c hc)), List.reverse_reverse]
  · rintro rfl
    refine ⟨s.takeWhile isWs, ((s.dropWhile isWs).reverse.takeWhile isWs).reverse, ?_, ?_, ?_, ?_, ?_⟩
    · unfold stripWs
      rw [List.append_assoc, ← List.reverse_append, List.takeWhile_append_dropWhile,
        List.reverse_reverse, List.takeWhile_append_dropWhile]
    · intro c hc
      exact (isWs_iff c).1 (List.mem_takeWhile_imp hc)
    · intro c hc
      rw [List.mem_reverse] at hc
      exact (isWs_iff c).1 (List.mem_takeWhile_imp hc)
    · intro c hc
      rw [← isWs_false_iff]
      -- the first character is that of the text without leading blanks
      have hd : ∀ t : List Char, (t.dropWhile isWs).head? = some c → isWs c = false := by
        intro t ht
        have := List.head?_dropWhile_not isWs t
        rw [ht] at this
        simpa using this
      have hpre : stripWs s <+: s.dropWhile isWs := by
        unfold stripWs
        have := List.dropWhile_suffix isWs (l := (s.dropWhile isWs).reverse)
        rw [← List.reverse_prefix] at this
        simpa using this
      obtain ⟨u, hu⟩ := hpre
      apply hd s
      rw [← hu]
      rcases h : stripWs s with _ | ⟨a, w⟩
      · rw [h] at hc; simp at hc
      · rw [h] at hc; simpa using hc
    · intro c hc
      rw [← isWs_false_iff]
      unfold stripWs at hc
      rw [List.getLast?_reverse] at hc
      have := List.head?_dropWhile_not isWs (s.dropWhile isWs).reverse
      rw [hc] at this
      simpa using this

theorem splitWs_strip (l : List Char) : splitWs (stripWs l) = splitWs l := by
  obtain ⟨pre, post, h, h1, h2, -, -⟩ := (isTrim_iff l (stripWs l)).2 rfl
  conv_rhs => rw [h]
  unfold splitWs
  rw [splitWsAux_post (fun c hc => (isWs_iff c).2 (h2 c hc)),
    splitWsAux_pre (fun c hc => (isWs_iff c).2 (h1 c hc))]

theorem stripWs_nil_iff (l : List Char) : stripWs l = [] ↔ ∀ c ∈ l, Blank c := by
  rw [← isTrim_iff]
  constructor
  · rintro ⟨pre, post, rfl, h1, h2, -, -⟩ c hc
    simp at hc
    rcases hc with hc | hc
    · exact h1 c hc
    · exact h2 c hc
  · intro h
    exact ⟨l, [], by simp, h, by simp, by simp, by simp⟩

theorem comment_iff (l : List Char) : (stripWs l).head? = some '#' ↔ CommentLine l := by
  have hb : ¬ Blank '#' := by unfold Blank; decide
  constructor
  · intro h
    obtain ⟨pre, post, e, h1, h2, -, -⟩ := (isTrim_iff l (stripWs l)).2 rfl
    rcases hs : stripWs l with _ | ⟨a, w⟩
    · rw [hs] at h; simp at h
    · rw [hs] at h e
      simp at h
      subst h
      exact ⟨pre, w ++ post, by rw [e]; simp, h1⟩
  · rintro ⟨pre, rest, rfl, h1⟩
    unfold stripWs
    rw [dropWhile_ws_append (fun c hc => (isWs_iff c).2 (h1 c hc)) (by
      intro c hc
      simp at hc
      subst hc
      exact (isWs_false_iff _).2 hb)]
    rw [List.head?_reverse]
    have hne : (List.dropWhile isWs ('#' :: rest).reverse) ≠ [] := by
      rw [Ne, List.dropWhile_eq_nil_iff]
      intro h
      have := h '#' (by simp)
      rw [isWs_iff] at this
      exact hb this
    obtain ⟨u, hu⟩ := List.dropWhile_suffix isWs (l := ('#' :: rest).reverse)
    have h2 : ('#' :: rest).reverse.getLast? = some '#' := by simp
    rw [← hu, List.getLast?_append_of_ne_nil _ hne] at h2
    exact h2

theorem splitChar_cons {c : Char} {k v : List Char} (h : c ∉ k) :
    splitChar c (k ++ c :: v) = k :: splitChar c v := by
  induction k with
  | nil => simp [splitChar]
  | cons d k ih =>
    simp only [List.mem_cons, not_or] at h
    rw [List.cons_append, splitChar, if_neg (Ne.symm h.1), ih h.2]

theorem splitChar_self {c : Char} {s : List Char} (h : c ∉ s) : splitChar c s = [s] := by
  induction s with
  | nil => rfl
  | cons d s ih =>
    simp only [List.mem_cons, not_or] at h
    rw [splitChar, if_neg (Ne.symm h.1), ih h.2]

/-- The text before the next occurrence. -/
theorem splitChar_head (c : Char) (v : List Char) :
    (splitChar c v).headD [] = v.takeWhile (· ≠ c) := by
  induction v with
  | nil => rfl
  | cons d v ih =>
    rw [splitChar, List.takeWhile_cons]
    by_cases h : d = c
    · simp [h]
    · rw [if_neg h, if_pos (by simpa using h), ← ih]
      rcases splitChar c v with _ | ⟨w, ws⟩ <;> rfl

/-- The test of `find_value` finds the lines with the key. -/
theorem lineHasKey_iff {key : List Char} (hk : IsTrim key key) (line : List Char) :
    lineHasKey key line = true ↔ HasKey key line := by
  have hkey : stripWs key = key := (isTrim_iff key key).1 hk
  unfold lineHasKey
  rw [decide_eq_true_eq, hkey, splitChar_head]
  constructor
  · rintro ⟨h1, h2⟩
    obtain ⟨k, v, e, hn⟩ : ∃ k v, line = k ++ '=' :: v ∧ '=' ∉ k := by
      have := List.takeWhile_append_dropWhile (p := (fun x : Char => decide (x ≠ '='))) (l := line)
      rcases hd : line.dropWhile (fun x : Char => decide (x ≠ '=')) with _ | ⟨a, v⟩
      · rw [List.dropWhile_eq_nil_iff] at hd
        have := hd '=' h2
        simp at this
      · have ha : a = '=' := by
          have := List.head?_dropWhile_not (fun x : Char => decide (x ≠ '=')) line
          rw [hd] at this
          simpa using this
        rw [hd, ha] at this
        refine ⟨_, v, this.symm, fun hm => ?_⟩
        have := List.mem_takeWhile_imp hm
        simp at this
    refine ⟨v, k, e, hn, (isTrim_iff k key).2 ?_⟩
    rw [← h1, ← splitChar_head, e, splitChar_cons hn]
    rfl
  · rintro ⟨v, k, rfl, hn, ht⟩
    refine ⟨?_, by simp⟩
    rw [← splitChar_head, splitChar_cons hn]
    exact (isTrim_iff k key).1 ht

theorem keyLine_value {key line v : List Char} (h : KeyLine key line v) :
    ((splitChar '=' line).drop 1).headD [] = v.takeWhile (· ≠ '=') := by
  obtain ⟨k, rfl, hn, -⟩ := h
  rw [splitChar_cons hn, List.drop_one, List.tail_cons, splitChar_head]

theorem findKey_none {key : List Char} (hk : IsTrim key key) (file : List (List Char)) :
    findKey key file = none ↔ ∀ l ∈ file, ¬ HasKey key l := by
  induction file with
  | nil => simp [findKey]
  | cons l ls ih =>
    rw [findKey]
    by_cases h : lineHasKey key l = true
    · rw [if_pos h]
      simp only [reduceCtorEq, false_iff]
      intro hall
      exact hall l (by simp) ((lineHasKey_iff hk l).1 h)
    · rw [if_neg h, ih]
      rw [lineHasKey_iff hk] at h
      simp [h]

theorem findKey_some {key : List Char} (hk : IsTrim key key) {before rest : List (List Char)}
    {line : List Char} (hb : ∀ l ∈ before, ¬ HasKey key l) (hl : HasKey key line) :
    findKey key (before ++ line :: rest) = some (line, rest) := by
  induction before with
  | nil => rw [List.nil_append, findKey, if_pos ((lineHasKey_iff hk line).2 hl)]
  | cons l ls ih =>
    rw [List.cons_append, findKey, if_neg (by
      rw [lineHasKey_iff hk]
      exact hb l (by simp))]
    exact ih (fun m hm => hb m (by simp [hm]))

/-- Rows of a data set, line by line. -/
theorem dataLines_rows {α : Type} {num : List Char → α → Prop} {pf : List Char → Option α}
    (hnum : ∀ w v, num w v → pf w = some v) {ls : List (List Char)} {r : List (List α)}
    (h : NumberRows num ls r) :
    (dataLines false ls).mapM (fun line => (splitWs line).mapM (conv pf)) = .ok r := by
  induction h with
  | fin => rfl
  | blank l ls hl =>
    rw [dataLines]
    simp only [(stripWs_nil_iff l).2 hl]
    rfl
  | comment l ls r hc _ ih =>
    rw [dataLines]
    have := (comment_iff l).2 hc
    rw [if_neg (by intro h; rw [h] at this; simp at this), if_pos this]
    exact ih
  | row l ls ws v r hc hw hne hv _ ih =>
    rw [dataLines]
    have hs : splitWs l = ws := splitWs_of_isWords hw
    rw [if_neg (by
      intro h
      rw [stripWs_nil_iff] at h
      rw [splitWs_blank (fun c hc => (isWs_iff c).2 (h c hc))] at hs
      exact hne hs.symm), if_neg (by rw [comment_iff]; exact hc), List.mapM_cons, splitWs_strip, hs]
    have hm : ws.mapM (conv pf) = Except.ok v := by
      clear hs hne hw
      induction hv with
      | nil => rfl
      | cons h1 _ ih => rw [List.mapM_cons, conv, hnum _ _ h1, ih]; rfl
    rw [hm, ih]
    rfl

theorem dataLines_set {α : Type} {num : List Char → α → Prop} {pf : List Char → Option α}
    (hnum : ∀ w v, num w v → pf w = some v) {ls : List (List Char)} {r : List (List α)}
    (h : DataSet num ls r) (hr : r ≠ []) :
    (dataLines true ls).mapM (fun line => (splitWs line).mapM (conv pf)) = .ok r := by
  induction h with
  | blank l ls r hl _ ih =>
    rw [dataLines]
    simp only [(stripWs_nil_iff l).2 hl]
    exact ih hr
  | comment l ls r hc _ ih =>
    rw [dataLines]
    simp only
    have := (comment_iff l).2 hc
    rw [if_neg (by intro h; rw [h] at this; simp at this), if_pos this]
    exact ih hr
  | rows ls r h =>
    -- before the first row, blank lines and comments are skipped
    induction h with
    | fin => exact absurd rfl hr
    | blank l ls hl => exact absurd rfl hr
    | comment l ls r hc _ ih =>
      rw [dataLines]
      simp only
      have := (comment_iff l).2 hc
      rw [if_neg (by intro h; rw [h] at this; simp at this), if_pos this]
      exact ih hr
    | row l ls ws v r hc hw hne hv hrow _ =>
      have h1 := dataLines_rows hnum (NumberRows.row l ls ws v r hc hw hne hv hrow)
      have hnil : stripWs l ≠ [] := by
        intro h
        rw [stripWs_nil_iff] at h
        have := splitWs_of_isWords hw
        rw [splitWs_blank (fun c hc => (isWs_iff c).2 (h c hc))] at this
        exact hne this.symm
      have hcm : (stripWs l).head? ≠ some '#' := by rw [Ne, comment_iff]; exact hc
      have e : ∀ b, dataLines b (l :: ls) = stripWs l :: dataLines false ls := by
        intro b
        rw [dataLines]
        rw [if_neg hnil, if_neg hcm]
      rw [e] at h1 ⊢
      exact h1

end Hotbit
