import Verif.Props.FittingFit
import Verif.Props.ParWriter

/-!
# C112: the fitted repulsion in a parameter file
-/

namespace Hotbit

/-- A line beginning with another letter does not have the key. -/
theorem noKey_head {key : List Char} {c : Char} {l : List Char} (hc : ¬ Blank c) (hk : key.head? ≠ some c) (hne : key ≠ []) :
    ¬ HasKey key (c :: l) := by
  rintro ⟨v, k, h, -, pre, post, hk', hpre, -⟩
  rw [hk'] at h
  cases pre with
  | nil =>
    cases key with
    | nil => exact hne rfl
    | cons d ds =>
      simp only [List.nil_append, List.cons_append, List.cons.injEq] at h
      exact hk (by rw [h.1]; rfl)
  | cons p ps =>
    simp only [List.cons_append, List.cons.injEq] at h
    exact hc (h.1 ▸ hpre p List.mem_cons_self)

theorem repKey_trim : IsTrim "repulsion".toList "repulsion".toList := (isTrim_iff _ _).2 (by decide)

theorem repComment_noKey : ¬ HasKey "repulsion".toList "repulsion_comment=\n".toList := by
  intro h
  have := (keyLine_of "repulsion_comment".toList ((isTrim_iff _ _).2 (by decide)) (by decide) _).1 h
  revert this
  decide

/-- One line of the repulsion. -/
theorem pairRow_facts {a b : List Char} (ha : TableWord a) (hb : TableWord b) :
    IsWords (a ++ [' '] ++ b ++ ['\n']) [a, b] ∧ ¬ CommentLine (a ++ [' '] ++ b ++ ['\n']) := by
  refine ⟨?_, ?_⟩
  · have hnl : IsWords ['\n'] [] := .blank _ (by intro c hc; rw [List.mem_singleton.1 hc]; unfold Blank; decide)
    have h1 : IsWords ([' '] ++ b ++ ['\n']) [b] := by
      refine .word [' '] b ['\n'] [] (by intro c hc; rw [List.mem_singleton.1 hc]; exact Or.inl rfl) hb.1
        (fun c hc => (hb.2 c hc).1) ?_ hnl
      intro c hc
      simp only [List.head?_cons, Option.some.injEq] at hc
      rw [← hc]; unfold Blank; decide
    have := IsWords.word [] a ([' '] ++ b ++ ['\n']) [b] (by simp) ha.1 (fun c hc => (ha.2 c hc).1) (by
      intro c hc
      simp only [List.cons_append, List.head?_cons, Option.some.injEq] at hc
      rw [← hc]; exact Or.inl rfl) h1
    simpa only [List.nil_append, List.append_assoc] using this
  · rintro ⟨pre, rest, h, hp⟩
    obtain ⟨h1, h2⟩ := ha
    cases a with
    | nil => exact h1 rfl
    | cons c cs =>
      have hc := h2 c List.mem_cons_self
      cases pre with
      | nil =>
        simp only [List.nil_append, List.cons_append, List.cons.injEq] at h
        exact hc.2.1 h.1
      | cons p ps =>
        simp only [List.cons_append, List.cons.injEq] at h
        exact hc.1 (h.1 ▸ hp p List.mem_cons_self)

theorem pairRows {pf : List Char → Option ℝ} {shw : ℝ → List Char} {rd : ℝ → ℝ}
    (hshw : ∀ x, TableWord (shw x) ∧ pf (shw x) = some (rd x)) (f g : ℝ → ℝ) (l : List ℝ) :
    DataSet (fun w v => pf w = some v) (l.map fun r => shw (f r) ++ [' '] ++ shw (g r) ++ ['\n'])
      ((l.map fun r => (rd (f r), rd (g r))).map fun p => [p.1, p.2]) := by
  refine .rows _ _ ?_
  induction l with
  | nil => exact .fin
  | cons r l ih =>
    obtain ⟨h1, h2⟩ := pairRow_facts (hshw (f r)).1 (hshw (g r)).1
    exact .row _ _ _ _ _ h2 h1 (by simp) (.cons (hshw _).2 (.cons (hshw _).2 .nil)) ih

/-- The lines of the comments. -/
def Fitting.commentLines (F : Fitting) : List (List Char) :=
  if F.comments.length > 0 then (splitChar '\n' F.comments).map fun l => l ++ ['\n'] else []

/-- What is written between the input and the table. -/
theorem writePar_form (F : Fitting) (bohr hartree : ℝ) (time : List Char) (fmt4 : ℝ → List Char) (fmt3 : ℕ → List Char)
    (shw : ℝ → List Char) (input : List (List Char)) {s : ℝ} (hs : F.s = some s) :
    ∃ par : List Char, F.writePar bohr hartree time fmt4 fmt3 shw input =
      (((input ++ ("repulsion_comment=\n".toList :: (time ++ ['\n']) :: ('p' :: par) :: (F.commentLines ++ [['\n'], ['\n']]))) ++
        "repulsion=\n".toList :: match F.v with
          | none => []
          | some (v, _) => (fitLinspace 0.1 F.rcut 100).map fun r => shw (r / bohr) ++ [' '] ++ shw (v r / hartree) ++ ['\n']),
        match F.v with
          | none => .error .assertionError
          | some _ => .ok ()) := by
  have hp : ∃ par, "parameters r_cut = ".toList = 'p' :: par := ⟨_, rfl⟩
  obtain ⟨par, hpar⟩ := hp
  refine ⟨par ++ fmt4 F.rcut ++ " Ang, s = ".toList ++ fmt4 s ++ ", k = ".toList ++ fmt3 F.k ++ ['\n'], ?_⟩
  unfold Fitting.writePar Fitting.commentLines
  rw [hs, hpar]
  generalize "repulsion=\n".toList = k1
  generalize "repulsion_comment=\n".toList = k2
  generalize " Ang, s = ".toList = k3
  generalize ", k = ".toList = k4
  by_cases hc : F.comments.length > 0
  · simp only [if_pos hc]
    cases F.v with
    | none => simp
    | some p => simp
  · simp only [if_neg hc]
    cases F.v with
    | none => simp
    | some p => simp

theorem before_noKey {F : Fitting} {time par : List Char} {input : List (List Char)}
    (hin : ∀ l ∈ input, ¬ HasKey "repulsion".toList l) (ht : '=' ∉ time)
    (hc : ∀ l ∈ F.commentLines, ¬ HasKey "repulsion".toList l) :
    ∀ l ∈ input ++ ("repulsion_comment=\n".toList :: (time ++ ['\n']) :: ('p' :: par) :: (F.commentLines ++ [['\n'], ['\n']])),
      ¬ HasKey "repulsion".toList l := by
  intro l hl
  rcases List.mem_append.1 hl with hl | hl
  · exact hin l hl
  rcases List.mem_cons.1 hl with rfl | hl
  · exact repComment_noKey
  rcases List.mem_cons.1 hl with rfl | hl
  · refine noKey_noEq ?_
    rw [List.mem_append, not_or]
    exact ⟨ht, by decide⟩
  rcases List.mem_cons.1 hl with rfl | hl
  · exact noKey_head (by unfold Blank; decide) (by decide) (by decide)
  rcases List.mem_append.1 hl with hl | hl
  · exact hc l hl
  · refine noKey_noEq ?_
    simp only [List.mem_cons, List.not_mem_nil, or_false, or_self] at hl
    rw [hl]; decide

/-- **C112.** The written file begins with the input file, and its repulsion is read as the fitted potential at 100 distances from 0.1 Å to
the cutoff, in atomic units, up to the rounding `rd` of printed numbers; the input and the comments must not hold a repulsion. -/
theorem c112_roundtrip (F : Fitting) (bohr hartree : ℝ) {time : List Char} (fmt4 : ℝ → List Char) (fmt3 : ℕ → List Char)
    {shw : ℝ → List Char} {pf : List Char → Option ℝ} {rd : ℝ → ℝ} {input : List (List Char)} {s : ℝ} {v dv : ℝ → ℝ}
    (hs : F.s = some s) (hv : F.v = some (v, dv)) (hshw : ∀ x, TableWord (shw x) ∧ pf (shw x) = some (rd x))
    (hin : ∀ l ∈ input, ¬ HasKey "repulsion".toList l) (ht : '=' ∉ time)
    (hc : ∀ l ∈ F.commentLines, ¬ HasKey "repulsion".toList l) :
    let o := F.writePar bohr hartree time fmt4 fmt3 shw input
    o.2 = .ok () ∧ input <+: o.1 ∧
      readRepulsionPar pf o.1 = .ok (
        (List.range 100).map (fun i : ℕ => rd ((0.1 + i * ((F.rcut - 0.1) / 99)) / bohr)),
        (List.range 100).map (fun i : ℕ => rd (v (0.1 + i * ((F.rcut - 0.1) / 99)) / hartree))) := by
  intro o
  obtain ⟨par, ho⟩ := writePar_form F bohr hartree time fmt4 fmt3 shw input hs
  rw [hv] at ho
  simp only at ho
  have h1 := c91_repulsion (num := fun w x => pf w = some x) (fun w x h => h) (before_noKey (par := par) hin ht hc)
    ((keyLine_of "repulsion".toList repKey_trim (by decide) _).2 rfl)
    (pairRows hshw (fun r => r / bohr) (fun r => v r / hartree) (fitLinspace 0.1 F.rcut 100)) (by
      intro h
      have := congrArg List.length h
      simp [fitLinspace] at this)
  refine ⟨?_, ?_, ?_⟩
  · simp only [o, ho]
  · simp only [o, ho, List.append_assoc]
    exact List.prefix_append _ _
  · have e : ((100 - 1 : ℕ) : ℝ) = 99 := by norm_num
    have e2 : "repulsion".toList ++ "=\n".toList = "repulsion=\n".toList := by decide
    rw [e2] at h1
    simp only [o, ho]
    rw [h1]
    unfold fitLinspace
    simp only [List.map_map, Function.comp_def, e]

/-- Numbers in exponent form with seven digits are such words, and there is an input without repulsion. -/
example : ∃ rd : ℝ → ℝ, (∀ x, TableWord (fmtE 6 x) ∧ floatOfStr (fmtE 6 x) = some (rd x)) ∧
    (∀ x, |rd x - x| ≤ |x| / (2 * 10 ^ 6)) ∧ ∀ l ∈ ["a comment\n".toList], ¬ HasKey "repulsion".toList l := by
  choose rd h1 h2 using c100_number 6
  refine ⟨rd, fun x => ⟨fmtE_word 6 x, h1 x⟩, h2, ?_⟩
  intro l hl
  rw [List.mem_singleton.1 hl]
  exact noKey_noEq (by decide)

/-- **C112.** Every table of the input which ends with a blank line is read from the written file as from the input. -/
theorem c112_tables (F : Fitting) (bohr hartree : ℝ) (time : List Char) (fmt4 : ℝ → List Char) (fmt3 : ℕ → List Char)
    (shw : ℝ → List Char) {pf : List Char → Option ℝ} {num : List Char → ℝ → Prop} (hnum : ∀ w x, num w x → pf w = some x)
    {key line : List Char} {before rest : List (List Char)} (hk : IsTrim key key) (hb : ∀ l ∈ before, ¬ HasKey key l)
    (hl : HasKey key line) {r : List (List ℝ)} (hr : ∀ tail, DataSet num (rest ++ tail) r) (hne : r ≠ []) {n : ℕ}
    (hn : ∀ row ∈ r, row.length = n) :
    findValue pf (F.writePar bohr hartree time fmt4 fmt3 shw (before ++ line :: rest)).1 key .matrix none = .ok (.matrix r) ∧
      findValue pf (before ++ line :: rest) key .matrix none = .ok (.matrix r) := by
  have hpre : ∃ tail, (F.writePar bohr hartree time fmt4 fmt3 shw (before ++ line :: rest)).1 = before ++ line :: (rest ++ tail) := by
    cases hs : F.s with
    | none =>
      refine ⟨["repulsion_comment=\n".toList], ?_⟩
      unfold Fitting.writePar
      rw [hs]
      generalize "repulsion_comment=\n".toList = k2
      simp
    | some s =>
      obtain ⟨par, ho⟩ := writePar_form F bohr hartree time fmt4 fmt3 shw (before ++ line :: rest) hs
      rw [ho]
      simp only [List.append_assoc, List.cons_append]
      exact ⟨_, rfl⟩
  obtain ⟨tail, ht⟩ := hpre
  rw [ht]
  refine ⟨c90_matrix hnum hk hb hl (hr tail) hne hn none, ?_⟩
  have := c90_matrix hnum hk hb hl (hr []) hne hn none
  rwa [List.append_nil] at this

/-- A table of one row and a blank line. -/
theorem oneRow_stable {num : List Char → ℝ → Prop} {a b : List Char} {x y : ℝ} (ha : TableWord a) (hb : TableWord b) (hx : num a x)
    (hy : num b y) (tail : List (List Char)) : DataSet num ([a ++ [' '] ++ b ++ ['\n'], ['\n']] ++ tail) [[x, y]] := by
  obtain ⟨h1, h2⟩ := pairRow_facts ha hb
  refine .rows _ _ (.row _ _ _ _ _ h2 h1 (by simp) (.cons hx (.cons hy .nil)) (.blank _ _ ?_))
  intro c hc
  rw [List.mem_singleton.1 hc]; unfold Blank; decide

example (x y : ℝ) : ∀ tail, DataSet (fun w z => floatOfStr w = some z ∨ (w = fmtE 6 x ∧ z = x) ∨ (w = fmtE 6 y ∧ z = y))
    ([fmtE 6 x ++ [' '] ++ fmtE 6 y ++ ['\n'], ['\n']] ++ tail) [[x, y]] :=
  oneRow_stable (fmtE_word 6 x) (fmtE_word 6 y) (Or.inr (Or.inl ⟨rfl, rfl⟩)) (Or.inr (Or.inr ⟨rfl, rfl⟩))

/-- **C112 fails with an input having a repulsion.** The repulsion read from the written file is the old one, whatever was fitted. -/
theorem c112_existing_fails (F : Fitting) (bohr hartree : ℝ) (time : List Char) (fmt4 : ℝ → List Char) (fmt3 : ℕ → List Char)
    (shw : ℝ → List Char) {pf : List Char → Option ℝ} {num : List Char → ℝ → Prop} (hnum : ∀ w x, num w x → pf w = some x)
    {line : List Char} {before rest : List (List Char)} (hb : ∀ l ∈ before, ¬ HasKey "repulsion".toList l)
    (hl : HasKey "repulsion".toList line) {r : List (ℝ × ℝ)} (hr : ∀ tail, DataSet num (rest ++ tail) (r.map fun p => [p.1, p.2]))
    (hne : r ≠ []) :
    readRepulsionPar pf (F.writePar bohr hartree time fmt4 fmt3 shw (before ++ line :: rest)).1 =
      .ok (r.map Prod.fst, r.map Prod.snd) := by
  have h := (c112_tables F bohr hartree time fmt4 fmt3 shw hnum repKey_trim hb hl hr (by simpa using hne) (n := 2) (by
    intro row hrow
    obtain ⟨p, -, rfl⟩ := List.mem_map.1 hrow
    rfl)).1
  unfold readRepulsionPar
  simp only [h]
  rw [if_pos (by simp)]
  simp [Function.comp_def]

/-- A file holding the repulsion one at distance zero. -/
example (F : Fitting) (bohr hartree : ℝ) (time : List Char) (fmt4 : ℝ → List Char) (fmt3 : ℕ → List Char) (shw : ℝ → List Char) :
    ∃ x y, floatOfStr (fmtE 6 0) = some x ∧ floatOfStr (fmtE 6 1) = some y ∧
      readRepulsionPar floatOfStr (F.writePar bohr hartree time fmt4 fmt3 shw
        ([] ++ ("repulsion".toList ++ "=\n".toList) :: [fmtE 6 0 ++ [' '] ++ fmtE 6 1 ++ ['\n'], ['\n']])).1 = .ok ([x], [y]) := by
  obtain ⟨x, hx, -⟩ := c100_number 6 0
  obtain ⟨y, hy, -⟩ := c100_number 6 1
  exact ⟨x, y, hx, hy, c112_existing_fails F bohr hartree time fmt4 fmt3 shw (num := fun w z => floatOfStr w = some z)
    (fun w z h => h) (r := [(x, y)]) (by simp) ((keyLine_of "repulsion".toList repKey_trim (by decide) _).2 rfl)
    (oneRow_stable (fmtE_word 6 0) (fmtE_word 6 1) hx hy) (by simp)⟩

/-- **C112 fails without a fit.** The error comes after the file was begun: `TypeError` if no fit was tried (and no smoothing given),
`AssertionError` otherwise; the file left is read as one with zero repulsion. -/
theorem c112_unfitted_fails (F : Fitting) (bohr hartree : ℝ) {time : List Char} (fmt4 : ℝ → List Char) (fmt3 : ℕ → List Char)
    (shw : ℝ → List Char) (pf : List Char → Option ℝ) {input : List (List Char)} (hv : F.v = none)
    (hin : ∀ l ∈ input, ¬ HasKey "repulsion".toList l) (ht : '=' ∉ time)
    (hc : ∀ l ∈ F.commentLines, ¬ HasKey "repulsion".toList l) :
    let o := F.writePar bohr hartree time fmt4 fmt3 shw input
    o.2 = .error (if F.s = none then .typeError else .assertionError) ∧ input <+: o.1 ∧
      readRepulsionPar pf o.1 = .ok ([0, 1, 2, 3], [0, 0, 0, 0]) := by
  intro o
  cases hs : F.s with
  | none =>
    have ho : o = (input ++ ["repulsion_comment=\n".toList], .error .typeError) := by
      simp only [o]
      unfold Fitting.writePar
      rw [hs]
    rw [ho]
    refine ⟨by simp, List.prefix_append _ _, ?_⟩
    refine c91_malformed_fails ((c90_missing pf repKey_trim ?_ .matrix).2.2 (by decide))
    intro l hl
    rcases List.mem_append.1 hl with hl | hl
    · exact hin l hl
    · rw [List.mem_singleton.1 hl]
      exact repComment_noKey
  | some s =>
    obtain ⟨par, ho⟩ := writePar_form F bohr hartree time fmt4 fmt3 shw input hs
    rw [hv] at ho
    simp only at ho
    have ho' : o = _ := ho
    rw [ho']
    refine ⟨by simp, by simp only [List.append_assoc]; exact List.prefix_append _ _, ?_⟩
    refine c91_malformed_fails (e := .runtimeError) ?_
    have hk : HasKey "repulsion".toList "repulsion=\n".toList := by
      have e2 : "repulsion".toList ++ "=\n".toList = "repulsion=\n".toList := by decide
      have := (keyLine_of "repulsion".toList repKey_trim (by decide) "repulsion".toList).2 rfl
      rwa [e2] at this
    have hf := findKey_some (rest := []) repKey_trim (before_noKey (par := par) hin ht hc) hk
    simp only [findValue, hf]
    rfl

/-- No comments and an empty input. -/
example (F : Fitting) : let F1 : Fitting := { F with v := none, s := some 1, comments := [] }
    F1.v = none ∧ (∀ l ∈ F1.commentLines, ¬ HasKey "repulsion".toList l) ∧ '=' ∉ "Mon Nov 16 12:00:00 2026".toList := by
  refine ⟨rfl, ?_, by decide⟩
  intro l hl
  simp [Fitting.commentLines] at hl

end Hotbit
