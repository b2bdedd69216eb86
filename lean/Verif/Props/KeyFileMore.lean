import Verif.Props.KeyFile
import Verif.Props.Records

/-!
# C90 and C91: logical values, texts and elements of `.skf` files
-/

namespace Hotbit

theorem blank_lower (c : Char) : Blank c.toLower ↔ Blank c := by
  by_cases h : 'A' ≤ c ∧ c ≤ 'Z'
  · have h1 : 65 ≤ c.toNat ∧ c.toNat ≤ 90 := by
      obtain ⟨a, b⟩ := h
      exact ⟨by simpa using UInt32.le_iff_toNat_le.1 (Char.le_def.1 a), by simpa using UInt32.le_iff_toNat_le.1 (Char.le_def.1 b)⟩
    have : ∀ n : ℕ, 65 ≤ n → n ≤ 90 → 97 ≤ (Char.ofNat n).toLower.toNat := by
      intro n h1 h2
      interval_cases n <;> decide
    have h2 := this c.toNat h1.1 h1.2
    rw [Char.ofNat_toNat] at h2
    unfold Blank
    omega
  · have : c.toLower = c := by
      unfold Char.toLower
      rw [dif_neg]
      intro h'
      exact h ⟨h'.1, h'.2⟩
    rw [this]

theorem isTrim_lower {s w : List Char} (h : IsTrim s w) : IsTrim (lowerStr s) (lowerStr w) := by
  obtain ⟨pre, post, rfl, h1, h2, h3, h4⟩ := h
  refine ⟨lowerStr pre, lowerStr post, by simp [lowerStr], ?_, ?_, ?_, ?_⟩
  · intro c hc
    obtain ⟨d, hd, rfl⟩ := List.mem_map.1 hc
    exact (blank_lower d).2 (h1 d hd)
  · intro c hc
    obtain ⟨d, hd, rfl⟩ := List.mem_map.1 hc
    exact (blank_lower d).2 (h2 d hd)
  · intro c hc
    rw [lowerStr, List.head?_map] at hc
    obtain ⟨d, hd, rfl⟩ := Option.map_eq_some_iff.1 hc
    rw [blank_lower]
    exact h3 d hd
  · intro c hc
    rw [lowerStr, List.getLast?_map] at hc
    obtain ⟨d, hd, rfl⟩ := Option.map_eq_some_iff.1 hc
    rw [blank_lower]
    exact h4 d hd

theorem ofList_mem (w a b c d : List Char) :
    (w = a ∨ w = b ∨ w = c ∨ w = d) ↔
      String.ofList w ∈ [String.ofList a, String.ofList b, String.ofList c, String.ofList d] := by
  have h : ∀ u : List Char, String.ofList w = String.ofList u ↔ w = u := fun u =>
    ⟨fun h => by simpa using congrArg String.toList h, fun h => by rw [h]⟩
  simp only [List.mem_cons, List.not_mem_nil, or_false, h]

theorem yes_iff (w : List Char) : YesWord w ↔
    (lowerStr w = "true".toList ∨ lowerStr w = "t".toList ∨ lowerStr w = "yes".toList ∨
      lowerStr w = "y".toList) := by
  rw [ofList_mem]
  rfl

theorem no_iff (w : List Char) : NoWord w ↔
    (lowerStr w = "false".toList ∨ lowerStr w = "f".toList ∨ lowerStr w = "no".toList ∨
      lowerStr w = "n".toList) := by
  rw [ofList_mem]
  rfl

theorem trueFalse_cases {t w : List Char} (hw : IsTrim t w) :
    (YesWord w → trueFalse t = .ok true) ∧ (¬ YesWord w → NoWord w → trueFalse t = .ok false) ∧
      (¬ YesWord w → ¬ NoWord w → trueFalse t = .error .runtimeError) := by
  have hs : stripWs (lowerStr t) = lowerStr w := (isTrim_iff _ _).1 (isTrim_lower hw)
  rw [yes_iff, no_iff]
  unfold trueFalse
  rw [hs]
  refine ⟨fun h => if_pos h, fun h1 h2 => ?_, fun h1 h2 => ?_⟩
  · rw [if_neg h1]; exact if_pos h2
  · rw [if_neg h1]; exact if_neg h2

/-- **C90, logical values.**  A value is true exactly for the words `true`, `t`, `yes`, `y` and false
exactly for `false`, `f`, `no`, `n`, in any letter case and with any blanks around them; every other
value is a `RuntimeError`, it is never taken for either. -/
theorem c90_bool {α : Type} (pf : List Char → Option α) {key line v w : List Char}
    {before rest : List (List Char)} (hk : IsTrim key key) (hb : ∀ l ∈ before, ¬ HasKey key l)
    (hl : KeyLine key line v) (hw : IsTrim (v.takeWhile (· ≠ '=')) w) (d : Option (FileVal α)) :
    (findValue pf (before ++ line :: rest) key .bool d = .ok (.bool true) ↔ YesWord w) ∧
    (findValue pf (before ++ line :: rest) key .bool d = .ok (.bool false) ↔ NoWord w) ∧
    (findValue pf (before ++ line :: rest) key .bool d = .error .runtimeError ↔
      ¬ YesWord w ∧ ¬ NoWord w) := by
  have hf := findKey_some (rest := rest) hk hb ⟨v, hl⟩
  have hv := keyLine_value hl
  obtain ⟨t1, t2, t3⟩ := trueFalse_cases hw
  have hex : YesWord w → ¬ NoWord w := by
    unfold YesWord NoWord
    generalize String.ofList (w.map Char.toLower) = s
    intro h1 h2
    simp only [List.mem_cons, List.not_mem_nil, or_false] at h1 h2
    rcases h1 with rfl | rfl | rfl | rfl <;> rcases h2 with h | h | h | h <;> exact absurd h (by decide)
  have key : findValue pf (before ++ line :: rest) key .bool d =
      match trueFalse (v.takeWhile (· ≠ '=')) with
      | .ok b => .ok (.bool b)
      | .error e => .error e := by
    simp only [findValue, hf, valueAt, hv]
    cases trueFalse (v.takeWhile (· ≠ '=')) <;> rfl
  rw [key]
  generalize trueFalse (v.takeWhile (· ≠ '=')) = x at t1 t2 t3
  by_cases h1 : YesWord w
  · have := hex h1
    simp [h1, this, t1 h1]
  · by_cases h2 : NoWord w
    · simp [h1, h2, t2 h1 h2]
    · simp [h1, h2, t3 h1 h2]

/-- **C90, one string.**  The whole text of a value (`onestr`) is the rest of the line without its
end-of-line character, blanks included. -/
theorem c90_onestr {α : Type} (pf : List Char → Option α) {key line v : List Char}
    {before rest : List (List Char)} (hk : IsTrim key key) (hb : ∀ l ∈ before, ¬ HasKey key l)
    (hl : KeyLine key line (v ++ ['\n'])) (hv : '=' ∉ v) (d : Option (FileVal α)) :
    findValue pf (before ++ line :: rest) key .onestr d = .ok (.str v) := by
  have hf := findKey_some (rest := rest) hk hb ⟨_, hl⟩
  have hval := keyLine_value hl
  have : (v ++ ['\n']).takeWhile (· ≠ '=') = v ++ ['\n'] := by
    rw [List.takeWhile_eq_self_iff]
    intro c hc
    rcases List.mem_append.1 hc with h | h
    · simp only [ne_eq, decide_eq_true_eq]
      rintro rfl
      exact hv h
    · rw [List.mem_singleton.1 h]; decide
  simp only [findValue, hf, valueAt, hval, this, List.dropLast_concat]
  rfl

/-- **C90 fails for a text in a last line that has no end-of-line character:** its last character is
lost. -/
theorem c90_onestr_fails {α : Type} (pf : List Char → Option α) {key line v : List Char} {c : Char}
    {before : List (List Char)} (hk : IsTrim key key) (hb : ∀ l ∈ before, ¬ HasKey key l)
    (hl : KeyLine key line (v ++ [c])) (hv : '=' ∉ v) (hc : c ≠ '=') (d : Option (FileVal α)) :
    findValue pf (before ++ [line]) key .onestr d = .ok (.str v) := by
  have hf := findKey_some (rest := []) hk hb ⟨_, hl⟩
  have hval := keyLine_value hl
  have : (v ++ [c]).takeWhile (· ≠ '=') = v ++ [c] := by
    rw [List.takeWhile_eq_self_iff]
    intro e he
    simp only [ne_eq, decide_eq_true_eq]
    rcases List.mem_append.1 he with h | h
    · rintro rfl
      exact hv h
    · rw [List.mem_singleton.1 h]; exact hc
  simp only [findValue, hf, valueAt, hval, this, List.dropLast_concat]
  rfl

theorem textRows_lines {ls r : List (List Char)} (h : TextRows ls r) : dataLines false ls = r := by
  induction h with
  | fin => rfl
  | blank l ls hl =>
    rw [dataLines]
    simp only [(stripWs_nil_iff l).2 hl]
    rfl
  | comment l ls r hc _ ih =>
    rw [dataLines]
    have := (comment_iff l).2 hc
    rw [if_neg (by intro h; rw [h] at this; simp at this), if_pos this]
    exact ih
  | row l w ls r hc hw hne _ ih =>
    rw [dataLines]
    have hs := (isTrim_iff _ _).1 hw
    rw [if_neg (by rw [hs]; exact hne), if_neg (by rw [comment_iff]; exact hc), hs, ih]

theorem textRows_lines_start {ls r : List (List Char)} (h : TextRows ls r) (hr : r ≠ []) :
    dataLines true ls = r := by
  induction h with
  | fin => exact absurd rfl hr
  | blank l ls hl => exact absurd rfl hr
  | comment l ls r hc _ ih =>
    rw [dataLines]
    have := (comment_iff l).2 hc
    rw [if_neg (by intro h; rw [h] at this; simp at this), if_pos this]
    exact ih hr
  | row l w ls r hc hw hne h _ =>
    rw [dataLines]
    have hs := (isTrim_iff _ _).1 hw
    rw [if_neg (by rw [hs]; exact hne), if_neg (by rw [comment_iff]; exact hc), hs, textRows_lines h]

theorem textSet_lines {ls r : List (List Char)} (h : TextSet ls r) :
    dataLines true ls = r ∧ r ≠ [] := by
  induction h with
  | blank l ls r hl _ ih =>
    rw [dataLines]
    simp only [(stripWs_nil_iff l).2 hl]
    exact ih
  | rows ls r h hr => exact ⟨textRows_lines_start h hr, hr⟩
  | comment l ls r hc _ ih =>
    rw [dataLines]
    have := (comment_iff l).2 hc
    rw [if_neg (by intro h; rw [h] at this; simp at this), if_pos this]
    exact ih

/-- **C90, texts.**  A text after the key (such as the comment of an element or of a repulsion) is
returned line by line without the blanks around the lines: blank lines and comments before it and
comments within it are skipped, it ends at a blank line or at the end of the file. -/
theorem c90_strings {α : Type} (pf : List Char → Option α) {key line : List Char}
    {before rest : List (List Char)} (hk : IsTrim key key) (hb : ∀ l ∈ before, ¬ HasKey key l)
    (hl : HasKey key line) {r : List (List Char)} (hr : TextSet rest r) (d : Option (FileVal α)) :
    findValue pf (before ++ line :: rest) key .strings d = .ok (.strings r) := by
  have hf := findKey_some (rest := rest) hk hb hl
  obtain ⟨h1, h2⟩ := textSet_lines hr
  have : readStrings rest = some r := by
    unfold readStrings
    rw [h1]
    exact if_neg h2
  simp only [findValue, hf, valueAt, this]
  rfl

/-! ### C91: elements from `.skf` files -/

/-- **C91, elements of `.skf` files.**  The second line gives the on-site energies (d, p, s order), the
spin energy, the Hubbard values and the occupations (Fortran notation with repeats and `d` exponents
allowed).  The Hubbard value of the s shell becomes `U`, the width of the charge distribution belongs to
it, each valence shell gets the energy of its letter, and the basis orbitals get the energies of their
shells. -/
theorem c91_skf_element {pf : List Char → Option ℝ} {first second : List Char}
    {rest : List (List Char)} {ed ep es espin Ud Up Us qd qp qs : ℝ}
    (h : FortranText (fun w v => pf w = some v) second [ed, ep, es, espin, Ud, Up, Us, qd, qp, qs])
    (hU : Us ≠ 0) {valence : List (List Char)} (hv : GoodShells valence) :
    ∃ E : SkfElement, readElementSkf pf (first :: second :: rest) (some valence) = .ok E ∧
      E.U = Us ∧ E.U * E.FWHM = Real.sqrt (8 * Real.log 2 / Real.pi) ∧
      E.epsilon = valence.map (fun o => (o, some (letterEnergy ed ep es o))) ∧
      EnergiesMatch valence (letterEnergy ed ep es) (orbitalTypes E.onsite.length) E.onsite := by
  obtain ⟨E, hE, hm⟩ := c89_skf (ed := ed) (ep := ep) (es := es) hv
  refine ⟨⟨Us, Real.sqrt (8 * Real.log 2 / Real.pi) / Us,
    valence.map (fun o => (o, skfEpsilon ed ep es o)), E⟩, ?_, rfl, ?_, ?_, hm⟩
  · simp only [readElementSkf, nextLine, c48_expand pf second _ h, Bind.bind, Except.bind, hE]
    rw [if_neg (by simpa using hU)]
    rfl
  · change Us * (_ / Us) = _
    field_simp
  · apply List.map_congr_left
    intro o ho
    obtain ⟨ls, hls, names, hp, hf⟩ := hv
    have ho' := hp.mem_iff.1 ho
    obtain ⟨l, hl, n, hn, rfl⟩ : ∃ l ∈ ls, ∃ n : Char, n.isDigit = true ∧ o = [n, l] := by
      clear hp hls ho hm hE
      induction hf with
      | nil => simp at ho'
      | cons h _ ih =>
        rcases List.mem_cons.1 ho' with rfl | h'
        · exact ⟨_, List.mem_cons_self, h⟩
        · obtain ⟨l, hl, hh⟩ := ih h'
          exact ⟨l, List.mem_cons_of_mem _ hl, hh⟩
    have hl' : l = 's' ∨ l = 'p' ∨ l = 'd' := by
      rcases hls with rfl | rfl | rfl <;> simp at hl <;> tauto
    have := skf_shell ed ep es (l := l) hn
    rcases hl' with rfl | rfl | rfl
    · simpa [letterEnergy] using this
    · simpa [letterEnergy] using this
    · simpa [letterEnergy] using this

/-- **C91, elements of `.skf` files.**  A file whose second line does not hold ten numbers, as in a file
for two different elements, is a `ValueError`; an element without data in the data base is a `KeyError`,
and a vanishing Hubbard value a `ZeroDivisionError`: no element is made up. -/
theorem c91_skf_element_errors {pf : List Char → Option ℝ} {first second : List Char}
    {rest : List (List Char)} {vals : List ℝ}
    (h : FortranText (fun w v => pf w = some v) second vals) :
    (vals.length ≠ 10 → ∀ valence, readElementSkf pf (first :: second :: rest) valence =
      .error .valueError) ∧
    (vals.length = 10 → readElementSkf pf (first :: second :: rest) none = .error .keyError) ∧
    (vals.length = 10 → vals[6]? = some 0 → ∀ valence,
      readElementSkf pf (first :: second :: rest) (some valence) = .error .zeroDivisionError) := by
  refine ⟨fun hn valence => ?_, fun hn => ?_, fun hn h0 valence => ?_⟩
  · simp only [readElementSkf, nextLine, c48_expand pf second _ h, Bind.bind, Except.bind]
    split
    · simp at hn
    · rfl
  · obtain ⟨a, b, c, d, e, f, g, i, j, k, rfl⟩ : ∃ a b c d e f g i j k : ℝ,
        vals = [a, b, c, d, e, f, g, i, j, k] := by
      match vals, hn with
      | [a, b, c, d, e, f, g, i, j, k], _ => exact ⟨a, b, c, d, e, f, g, i, j, k, rfl⟩
    simp only [readElementSkf, nextLine, c48_expand pf second _ h, Bind.bind, Except.bind]
    rfl
  · obtain ⟨a, b, c, d, e, f, g, i, j, k, rfl⟩ : ∃ a b c d e f g i j k : ℝ,
        vals = [a, b, c, d, e, f, g, i, j, k] := by
      match vals, hn with
      | [a, b, c, d, e, f, g, i, j, k], _ => exact ⟨a, b, c, d, e, f, g, i, j, k, rfl⟩
    have : g = 0 := by simpa using h0
    simp only [readElementSkf, nextLine, c48_expand pf second _ h, Bind.bind, Except.bind]
    rw [if_pos (by simpa using this)]
    rfl

/-! ### Examples -/

/-- `c90_bool`: the value ` YES ` is true. -/
example : findValue parseDec ["scc=1\n".toList, "x = YES \n".toList] "x".toList .bool none =
    .ok (.bool true) := by
  refine (c90_bool (before := ["scc=1\n".toList]) (rest := []) (v := " YES \n".toList) (w := "YES".toList)
    parseDec (trim_of (by decide)) (noKey_of (by decide) (by decide))
    ⟨"x ".toList, rfl, by decide, (isTrim_iff _ _).2 (by decide)⟩ ((isTrim_iff _ _).2 (by decide)) none).1.2 ?_
  unfold YesWord
  decide

/-- `c90_bool`: the value `1` is an error. -/
example : findValue parseDec ["x = 1\n".toList] "x".toList .bool none = .error .runtimeError := by
  refine (c90_bool (before := []) (rest := []) (v := " 1\n".toList) (w := "1".toList)
    parseDec (trim_of (by decide)) (by simp)
    ⟨"x ".toList, rfl, by decide, (isTrim_iff _ _).2 (by decide)⟩ ((isTrim_iff _ _).2 (by decide)) none).2.2.2 ?_
  unfold YesWord NoWord
  decide

/-- `c90_onestr` and its failure in a last line without end-of-line character. -/
example : findValue parseDec ["x=a b\n".toList] "x".toList .onestr none = .ok (.str "a b".toList) ∧
    findValue parseDec ["x=a bc".toList] "x".toList .onestr none = .ok (.str "a b".toList) :=
  ⟨c90_onestr (before := []) (rest := []) (line := "x=a b\n".toList) (v := "a b".toList) parseDec (trim_of (by decide)) (by simp)
      ⟨"x".toList, rfl, by decide, trim_of (by decide)⟩ (by decide) none,
    c90_onestr_fails (before := []) (line := "x=a bc".toList) (v := "a b".toList) (c := 'c') parseDec (trim_of (by decide)) (by simp)
      ⟨"x".toList, rfl, by decide, trim_of (by decide)⟩ (by decide) (by decide) none⟩

/-- `c90_strings`. -/
example : findValue parseDec ["doc=\n".toList, "\n".toList, " one two\n".toList, "# no\n".toList,
    "three\n".toList, "\n".toList, "four\n".toList] "doc".toList .strings none =
    .ok (.strings ["one two".toList, "three".toList]) := by
  have nc : ∀ l : List Char, (stripWs l).head? ≠ some '#' → ¬ CommentLine l := by
    intro l h h'
    exact h ((comment_iff l).2 h')
  refine c90_strings (before := []) parseDec (trim_of (by decide)) (by simp)
    ⟨"\n".toList, "doc".toList, rfl, by decide, trim_of (by decide)⟩ ?_ none
  refine .blank _ _ _ (by unfold Blank; decide) (.rows _ _ ?_ (by simp))
  refine .row _ _ _ _ (nc _ (by decide)) ((isTrim_iff _ _).2 (by decide)) (by decide) ?_
  refine .comment _ _ _ ((comment_iff _).1 (by decide)) ?_
  refine .row _ _ _ _ (nc _ (by decide)) ((isTrim_iff _ _).2 (by decide)) (by decide) ?_
  exact .blank _ _ (by unfold Blank; decide)

/-- `c91_skf_element`: the second line `-1, 9*2` of a file. -/
example : ∃ E : SkfElement, readElementSkf parseDec ["0.1 50\n".toList, "-1, 9*2\n".toList]
    (some ["2s".toList, "2p".toList]) = .ok E ∧ E.U = 2 := by
  have h : FortranText (fun w v => parseDec w = some v) "-1, 9*2\n".toList
      [-1, 2, 2, 2, 2, 2, 2, 2, 2, 2] := by
    change FortranText _ ([] ++ "-1".toList ++ ", 9*2\n".toList) (-1 :: (List.replicate 9 (2 : ℝ) ++ []))
    refine FortranText.one [] "-1".toList ", 9*2\n".toList (-1) _ (by simp) (by decide)
      (by unfold FSep Blank; decide) ?_ (by unfold FSep Blank; decide) ?_
    · rw [show dToE "-1".toList = "-1".toList by decide,
        show parseDec "-1".toList = some (-((1 : ℕ) : ℝ)) from rfl]
      norm_num
    refine FortranText.many ", ".toList "9".toList "2".toList "\n".toList 9 2 [] (by unfold FSep Blank; decide)
      ⟨by decide, by decide, by decide⟩ (by unfold FSep Blank; decide) ?_ (by unfold FSep Blank; decide) ?_
    · rw [show dToE "2".toList = "2".toList by decide,
        show parseDec "2".toList = some ((2 : ℕ) : ℝ) from rfl]
      norm_num
    exact FortranText.blank _ (by unfold FSep Blank; decide)
  have hv : GoodShells ["2s".toList, "2p".toList] :=
    ⟨['s', 'p'], .inr (.inl rfl), _, List.Perm.refl _,
      .cons ⟨'2', by decide, rfl⟩ (.cons ⟨'2', by decide, rfl⟩ .nil)⟩
  obtain ⟨E, hE, hU, -⟩ := c91_skf_element (first := "0.1 50\n".toList) (rest := []) h (by norm_num) hv
  exact ⟨E, hE, hU⟩

end Hotbit
