import Verif.Lemmas.Skf

/-!
# C48, C49: Fortran records and file types
-/

namespace Hotbit

/-! ### C48 -/

/-- C48: the words of a line are its maximal runs without blanks, in order; every line has exactly
one such list. -/
theorem c48_words (s : List Char) (ws : List (List Char)) : IsWords s ws ↔ splitWs s = ws :=
  isWords_iff s ws

/-- C48: a Fortran record is read as the values it denotes: `n*v` is `n` copies of `v`, the order is
kept, commas and blanks separate, exponents may be written with `d`. -/
theorem c48_expand {α : Type} (pf : List Char → Option α) (s : List Char) (vals : List α)
    (h : FortranText (fun w v => pf w = some v) s vals) : fortranReadline pf s = .ok vals := by
  induction h with
  | blank s hs => exact fortranReadline_blank pf hs
  | one pre w rest v vals hp hw hn hv hr _ ih =>
    exact fortranReadline_cons pf hp hw (fun c hc => (hn c hc).1) hr
      (fortranWord_one pf (fun c hc => (hn c hc).2) hv) ih
  | many pre m w rest n v vals hp hm hn hv hr _ ih =>
    have e : pre ++ m ++ '*' :: w ++ rest = pre ++ (m ++ '*' :: w) ++ rest := by simp
    rw [e]
    refine fortranReadline_cons pf hp (by simp) ?_ hr (fortranWord_many pf hm hv) ih
    intro c hc
    rcases List.mem_append.mp hc with hc | hc
    · exact (digit_not_fsep hm c hc).1
    · rcases List.mem_cons.mp hc with rfl | hc
      · simp only [FSep, Blank]; decide
      · exact hn c hc

/-- C48: a line that is not read raises `ValueError`. -/
theorem c48_error {α : Type} (pf : List Char → Option α) (s : List Char) (e : Exn)
    (h : fortranReadline pf s = .error e) : e = .valueError := by
  have word : ∀ w e, fortranWord pf w = .error e → e = .valueError := by
    intro w e hw
    unfold fortranWord at hw
    split at hw
    · split at hw
      · cases hw; rfl
      · unfold conv at hw
        split at hw
        · cases hw
        · cases hw; rfl
    · unfold conv at hw
      split at hw
      · cases hw
      · cases hw; rfl
  unfold fortranReadline at h
  generalize splitWs (s.map fortranChar) = ws at h
  have gen : ∀ (ws : List (List Char)) (r : List α),
      ws.foldlM (fun r e => do let v ← fortranWord pf e; return r ++ v) r = Except.error e →
      e = .valueError := by
    intro ws
    induction ws with
    | nil => intro r hr; cases hr
    | cons w ws ih =>
      intro r hr
      rw [List.foldlM_cons] at hr
      cases hw : fortranWord pf w with
      | error x =>
        rw [hw] at hr
        have : x = e := by injection hr
        rw [← this]
        exact word w x hw
      | ok v =>
        rw [hw] at hr
        exact ih _ hr
  exact gen ws [] h

/-- A reader of words for integers, used in the examples; it knows the writer's `0.0`. -/
def pfInt (w : List Char) : Option ℤ := if w = "0.0".toList then some 0 else intOfStr w

/-- The line `" 7, 3*0.0 -2"` is the record 7, 0, 0, 0, -2. -/
example : fortranReadline pfInt " 7, 3*0.0 -2\n".toList = .ok [7, 0, 0, 0, -2] := by
  refine c48_expand pfInt _ _ ?_
  refine FortranText.one " ".toList "7".toList ", 3*0.0 -2\n".toList 7 [0, 0, 0, -2] (by unfold FSep Blank; decide)
    (by decide) (by unfold FSep Blank; decide) (by decide) (by unfold FSep Blank; decide) ?_
  refine FortranText.many ", ".toList "3".toList "0.0".toList " -2\n".toList 3 0 [-2] (by unfold FSep Blank; decide)
    ⟨by decide, by decide, by decide⟩ (by unfold FSep Blank; decide) (by decide)
    (by unfold FSep Blank; decide) ?_
  refine FortranText.one " ".toList "-2".toList "\n".toList (-2) [] (by unfold FSep Blank; decide)
    (by decide) (by unfold FSep Blank; decide) (by decide) (by unfold FSep Blank; decide) ?_
  exact FortranText.blank _ (by unfold FSep Blank; decide)

/-- C48: a table row whose last entry is not zero is read back as written (up to the rounding of the
number format); runs of zeros are written as `n*0.0` and come back as zeros. -/
theorem c48_row_partial {α : Type} [Zero α] [DecidableEq α] {fmt : α → List Char}
    {pf : List Char → Option α} {rnd : α → α} (F : NumFormat fmt pf rnd) (row : List α)
    (h : row.getLast? ≠ some 0) :
    fortranReadline pf (writeRow fmt ⟨0, [], []⟩ row).text = .ok (row.map rnd) := by
  rw [(read_writeRow F row).1, if_neg h]

/-- C48: a row that ends with zeros comes back with one zero too many. -/
theorem c48_row_zero {α : Type} [Zero α] [DecidableEq α] {fmt : α → List Char}
    {pf : List Char → Option α} {rnd : α → α} (F : NumFormat fmt pf rnd) (row : List α)
    (h : row.getLast? = some 0) :
    fortranReadline pf (writeRow fmt ⟨0, [], []⟩ row).text = .ok (row.map rnd ++ [0]) := by
  rw [(read_writeRow F row).1, if_pos h]

/-- C48: the count of zeros does not leak from one row into the next: a table is read back row by
row, with one zero too many in the rows ending with zero. -/
theorem c48_table {α : Type} [Zero α] [DecidableEq α] {fmt : α → List Char}
    {pf : List Char → Option α} {rnd : α → α} (F : NumFormat fmt pf rnd) (rows : List (List α)) :
    (writeTable fmt ⟨0, [], []⟩ rows).map (fortranReadline pf) =
      rows.map (fun row => .ok (if row.getLast? = some 0 then row.map rnd ++ [0] else row.map rnd)) := by
  have gen : ∀ (rows : List (List α)) (s : RowState), s.ct = 0 → s.pending = [] →
      (writeTable fmt s rows).map (fortranReadline pf) =
      rows.map (fun row => .ok (if row.getLast? = some 0 then row.map rnd ++ [0] else row.map rnd)) := by
    intro rows
    induction rows with
    | nil => intro s _ _; rfl
    | cons row rows ih =>
      intro s h1 h2
      rw [writeTable, List.map_cons, List.map_cons]
      have hs : ({ s with text := [] } : RowState) = ⟨0, [], []⟩ := by
        cases s; simp_all
      simp only [hs]
      obtain ⟨r1, r2, r3⟩ := read_writeRow F row
      rw [r1, ih _ r2 r3]
  exact gen rows _ rfl rfl

/-- The number format of the examples: integers between blanks. -/
def fmtInt (n : ℤ) : List Char :=
  if n < 0 then '-' :: decStr n.natAbs ++ "  ".toList else ' ' :: decStr n.natAbs ++ "  ".toList

theorem decStr_no_dot (n : ℕ) : '.' ∉ decStr n := by
  intro h
  exact absurd (decStr_digits n '.' h).1 (by decide)

theorem dToE_decStr (n : ℕ) : dToE (decStr n) = decStr n := by
  unfold dToE
  conv_rhs => rw [← List.map_id (decStr n)]
  apply List.map_congr_left
  intro c hc
  rw [if_neg (digit_not_fsep (decStr_digitsValue n) c hc).2]
  rfl

theorem numFormat_int : NumFormat fmtInt pfInt id where
  zero := by decide
  rnd_zero := rfl
  shape := by
    intro v
    have hz : ∀ w : List Char, '.' ∉ w → pfInt w = intOfStr w := by
      intro w hw
      unfold pfInt
      rw [if_neg]
      rintro rfl
      exact hw (by decide)
    have hd := decStr_digitsValue v.natAbs
    by_cases hv : v < 0
    · refine ⟨[], '-' :: decStr v.natAbs, "  ".toList, by simp [fmtInt, hv], by simp, by simp, ?_,
        by decide, by decide, ?_⟩
      · intro c hc
        rcases List.mem_cons.mp hc with rfl | hc
        · simp only [FSep, Blank]; decide
        · exact ⟨(digit_not_fsep hd c hc).1, digit_not_star hd c hc⟩
      · have e : dToE ('-' :: decStr v.natAbs) = '-' :: decStr v.natAbs := by
          rw [show '-' :: decStr v.natAbs = ['-'] ++ decStr v.natAbs from rfl, dToE_append, dToE_decStr]
          rfl
        rw [e, hz _ (by
          intro h
          rcases List.mem_cons.mp h with h | h
          · exact absurd h (by decide)
          · exact decStr_no_dot _ h), intOfStr, natOfStr_of_digits hd]
        have hneg : -((v.natAbs : ℕ) : ℤ) = v := by omega
        simp only [Option.map_some, id, hneg]
    · refine ⟨[' '], decStr v.natAbs, "  ".toList, by simp [fmtInt, hv], by simp,
        decStr_ne_nil _, ?_, by decide, by decide, ?_⟩
      · intro c hc
        exact ⟨(digit_not_fsep hd c hc).1, digit_not_star hd c hc⟩
      · rw [dToE_decStr, hz _ (decStr_no_dot _), intOfStr_of_digits hd]
        simp only [id]
        congr 1
        omega

/-- The row 0, 0, 5, 0, -12 is written with counted zeros and read back. -/
example : fortranReadline pfInt (writeRow fmtInt ⟨0, [], []⟩ [0, 0, 5, 0, -12]).text =
      .ok [0, 0, 5, 0, -12] ∧
    (writeRow fmtInt ⟨0, [], []⟩ [0, 0, 5, 0, -12]).text = "2*0.0  5  1*0.0 -12  \n".toList :=
  ⟨c48_row_partial numFormat_int _ (by decide), by
    simp [writeRow, writeEntry, zerosText, fmtInt, decStr, decDigit]⟩

/-- C48 fails for rows ending with zero, as every row of a Slater-Koster table with a cutoff does at
its end: the row 5, 0 comes back as 5, 0, 0. -/
theorem c48_trailing_fails : ∃ (fmt : ℤ → List Char) (pf : List Char → Option ℤ) (row : List ℤ),
    NumFormat fmt pf id ∧ ∃ r, fortranReadline pf (writeRow fmt ⟨0, [], []⟩ row).text = .ok r ∧
      r ≠ row ∧ r.length = row.length + 1 :=
  ⟨fmtInt, pfInt, [5, 0], numFormat_int, _, c48_row_zero numFormat_int _ (by decide), by decide, rfl⟩

/-! ### C49 -/

/-- The file name ends with a dot and `ext` in any mixture of upper and lower case. -/
def HasExtension (name ext : List Char) : Prop :=
  ∃ base e, name = base ++ '.' :: e ∧ e.map Char.toLower = ext

theorem lower_dot {d : Char} (h : d.toLower = '.') : d = '.' := by
  by_cases hu : 65 ≤ d.toNat ∧ d.toNat ≤ 90
  · exfalso
    have hd : d = Char.ofNat d.toNat := (Char.ofNat_toNat d).symm
    rw [hd] at h
    generalize d.toNat = n at h hu
    obtain ⟨h1, h2⟩ := hu
    interval_cases n <;> revert h <;> decide
  · unfold Char.toLower at h
    split at h
    · rename_i hh
      exact absurd ⟨hh.1, hh.2⟩ hu
    · exact h

theorem suffix_iff_extension (name ext : List Char) :
    ('.' :: ext).isSuffixOf (lowerStr name) = true ↔ HasExtension name ext := by
  rw [List.isSuffixOf_iff_suffix]
  constructor
  · rintro ⟨t, ht⟩
    have hl := congrArg List.length ht
    simp only [List.length_append, List.length_cons, lowerStr, List.length_map] at hl
    refine ⟨name.take t.length, (name.drop t.length).tail, ?_, ?_⟩
    · have h1 : lowerStr (name.drop t.length) = '.' :: ext := by
        unfold lowerStr at ht ⊢
        rw [List.map_drop, ← ht, List.drop_left]
      have h2 : ∃ d ds, name.drop t.length = d :: ds := by
        apply List.exists_cons_of_ne_nil
        intro h0
        rw [h0] at h1
        cases h1
      obtain ⟨d, ds, hd⟩ := h2
      rw [hd] at h1
      have h3 : d.toLower = '.' := (List.cons.inj h1).1
      have h4 : d = '.' := lower_dot h3
      conv_lhs => rw [← List.take_append_drop t.length name]
      rw [hd, h4]
      rfl
    · have h1 : lowerStr (name.drop t.length) = '.' :: ext := by
        unfold lowerStr at ht ⊢
        rw [List.map_drop, ← ht, List.drop_left]
      rw [List.map_tail]
      unfold lowerStr at h1
      rw [h1]
      rfl
  · rintro ⟨base, e, rfl, he⟩
    refine ⟨lowerStr base, ?_⟩
    unfold lowerStr
    rw [List.map_append, List.map_cons, he]
    rfl

/-- C49: names ending in `.elm`, `.par` and `.skf` in any case are classified by their extension. -/
theorem c49_known_partial (name : List Char) :
    (HasExtension name "elm".toList → filetype name = .ok .elm) ∧
    (HasExtension name "par".toList → filetype name = .ok .par) ∧
    (HasExtension name "skf".toList → filetype name = .ok .skf) := by
  have excl : ∀ (e1 e2 : List Char), e1.length = e2.length → e1 ≠ e2 → HasExtension name e1 →
      ¬ HasExtension name e2 := by
    rintro e1 e2 hl hne ⟨b1, w1, h1, rfl⟩ ⟨b2, w2, h2, rfl⟩
    apply hne
    rw [h1] at h2
    have := List.append_inj_right' h2 (by simpa using hl)
    rw [(List.cons.inj this).2]
  have s1 := suffix_iff_extension name "elm".toList
  have s2 := suffix_iff_extension name "par".toList
  have s3 := suffix_iff_extension name "skf".toList
  change List.isSuffixOf ".elm".toList _ = true ↔ _ at s1
  change List.isSuffixOf ".par".toList _ = true ↔ _ at s2
  change List.isSuffixOf ".skf".toList _ = true ↔ _ at s3
  refine ⟨fun h => ?_, fun h => ?_, fun h => ?_⟩
  · rw [filetype, if_pos (s1.mpr h)]
  · rw [filetype, if_neg (fun h' => excl "par".toList "elm".toList rfl (by decide) h (s1.mp h')),
      if_pos (s2.mpr h)]
  · rw [filetype, if_neg (fun h' => excl "skf".toList "elm".toList rfl (by decide) h (s1.mp h')),
      if_neg (fun h' => excl "skf".toList "par".toList rfl (by decide) h (s2.mp h')),
      if_pos (s3.mpr h)]

example : HasExtension "/a.b/Au_Au.PaR".toList "par".toList :=
  ⟨"/a.b/Au_Au".toList, "PaR".toList, by decide, by decide⟩

/-- C49: with every other name the program stops with an `AttributeError` of its own. -/
theorem c49_other (name : List Char) (h1 : ¬ HasExtension name "elm".toList)
    (h2 : ¬ HasExtension name "par".toList) (h3 : ¬ HasExtension name "skf".toList) :
    filetype name = .error .attributeError := by
  have s1 := suffix_iff_extension name "elm".toList
  have s2 := suffix_iff_extension name "par".toList
  have s3 := suffix_iff_extension name "skf".toList
  change List.isSuffixOf ".elm".toList _ = true ↔ _ at s1
  change List.isSuffixOf ".par".toList _ = true ↔ _ at s2
  change List.isSuffixOf ".skf".toList _ = true ↔ _ at s3
  rw [filetype, if_neg (fun h => h1 (s1.mp h)), if_neg (fun h => h2 (s2.mp h)),
    if_neg (fun h => h3 (s3.mp h))]

/-- C49 fails for `.spl` files, which the code means to treat as `skf`: every such name ends in
`AttributeError`, in all three reading functions. -/
theorem c49_spl_fails (name : List Char) (h : HasExtension name "spl".toList) :
    filetype name = .error .attributeError ∧
    readHSWith name none = .error .attributeError ∧
    readElementWith name none = .error .attributeError ∧
    readRepulsionWith name none = .error .attributeError := by
  have hf : filetype name = .error .attributeError := by
    obtain ⟨b2, w2, h2, hw2⟩ := h
    have excl : ∀ e : List Char, e.length = 3 → e ≠ "spl".toList → ¬ HasExtension name e := by
      rintro e hl hne ⟨b1, w1, h1, rfl⟩
      apply hne
      rw [h1] at h2
      have hlen : w2.length = 3 := by
        have := congrArg List.length hw2
        simpa using this
      have := List.append_inj_right' h2 (by simp only [List.length_map] at hl; simp [hl, hlen])
      rw [(List.cons.inj this).2, hw2]
    exact c49_other name (excl _ rfl (by decide)) (excl _ rfl (by decide)) (excl _ rfl (by decide))
  refine ⟨hf, ?_, ?_, ?_⟩ <;>
  simp only [readHSWith, readElementWith, readRepulsionWith, formatOf, hf, bind, Except.bind]

example : HasExtension "C-C.SPL".toList "spl".toList :=
  ⟨"C-C".toList, "SPL".toList, by decide, by decide⟩

/-- Which reader fits a format: element data are in `elm` and `skf` files, tables and repulsion in
`par` and `skf` files. -/
def rightReader : Format → Option Reader × Option Reader × Option Reader
  | .elm => (some .elmElement, none, none)
  | .par => (none, some .parHS, some .parRepulsion)
  | .skf => (some .skfElement, some .skfHS, some .skfRepulsion)
  | .other => (none, none, none)

/-- The reader, or `RuntimeError`. -/
def readerOr : Option Reader → Except Exn Reader
  | some r => .ok r
  | none => .error .runtimeError

/-- C49: with a known name, or with the format given, the right reader is called; a format that does
not hold the wanted data raises `RuntimeError`. -/
theorem c49_dispatch (name : List Char) (format : Option Format) (f : Format)
    (h : formatOf name format = .ok f) :
    readElementWith name format = readerOr (rightReader f).1 ∧
    readHSWith name format = readerOr (rightReader f).2.1 ∧
    readRepulsionWith name format = readerOr (rightReader f).2.2 := by
  unfold readElementWith readHSWith readRepulsionWith
  rw [h]
  cases f <;> exact ⟨rfl, rfl, rfl⟩

example : formatOf "C-C.spl".toList (some .skf) = .ok .skf := rfl

end Hotbit
