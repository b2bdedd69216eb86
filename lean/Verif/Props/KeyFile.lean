import Verif.Lemmas.KeyFile
import Verif.Props.SkfRepulsion
import Verif.Props.Shells

/-!
# C90 and C91: values in `key=value` files, tables and repulsions in `.par` files
-/

namespace Hotbit

/-! ### C90 -/

/-- **C90.**  The first line with the key decides; lines before it without the key and everything after
it do not matter for the value on the line.  The value is the text up to a second equals sign. -/
theorem c90_line {α : Type} (pf : List Char → Option α) {key line v : List Char}
    {before rest : List (List Char)} (hk : IsTrim key key) (hb : ∀ l ∈ before, ¬ HasKey key l)
    (hl : KeyLine key line v) (d : Option (FileVal α)) :
    findValue pf (before ++ line :: rest) key .all d =
        .ok (.words (splitWs (v.takeWhile (· ≠ '=')))) ∧
      findValue pf (before ++ line :: rest) key .test d = .ok (.bool true) ∧
      (∀ w ws, IsWords (v.takeWhile (· ≠ '=')) (w :: ws) →
        findValue pf (before ++ line :: rest) key .default d = .ok (.str w)) ∧
      ((∀ c ∈ v.takeWhile (· ≠ '='), Blank c) →
        findValue pf (before ++ line :: rest) key .default d = .error .indexError) := by
  have hf := findKey_some (rest := rest) hk hb ⟨v, hl⟩
  have hv := keyLine_value hl
  refine ⟨?_, ?_, ?_, ?_⟩
  · simp only [findValue, hf, valueAt, hv]
    rfl
  · simp only [findValue, hf, valueAt]
    rfl
  · intro w ws hw
    simp only [findValue, hf, valueAt, hv, splitWs_of_isWords hw]
    rfl
  · intro hbl
    simp only [findValue, hf, valueAt, hv, splitWs_blank (fun c hc => (isWs_iff c).2 (hbl c hc))]
    rfl

/-- **C90.**  A key that is not in the file gives the default, or `RuntimeError` if there is none;
the test says `False`. -/
theorem c90_missing {α : Type} (pf : List Char → Option α) {key : List Char} {file : List (List Char)}
    (hk : IsTrim key key) (hb : ∀ l ∈ file, ¬ HasKey key l) (fmt : ValFmt) :
    (∀ d, findValue pf file key .test d = .ok (.bool false)) ∧
      (fmt ≠ .test → ∀ d, findValue pf file key fmt (some d) = .ok d) ∧
      (fmt ≠ .test → findValue pf file key fmt none = .error .runtimeError) := by
  have hf := (findKey_none hk file).2 hb
  refine ⟨fun d => ?_, fun hfmt d => ?_, fun hfmt => ?_⟩
  · simp only [findValue, hf]
    rfl
  · simp only [findValue, hf]
    cases fmt <;> first | exact absurd rfl hfmt | rfl
  · simp only [findValue, hf]
    cases fmt <;> first | exact absurd rfl hfmt | rfl

/-- **C90.**  For a key that occurs at most once the order of the lines does not matter (values on the
line itself). -/
theorem c90_order {α : Type} (pf : List Char → Option α) {key : List Char}
    {file file' : List (List Char)} (hk : IsTrim key key) (hperm : file.Perm file')
    (hone : (file.filter (fun l => lineHasKey key l)).length ≤ 1) (fmt : ValFmt)
    (hfmt : fmt ≠ .matrix ∧ fmt ≠ .strings) (d : Option (FileVal α)) :
    findValue pf file key fmt d = findValue pf file' key fmt d := by
  have hfst : ∀ f : List (List Char), (findKey key f).map Prod.fst =
      (f.filter (fun l => lineHasKey key l)).head? := by
    intro f
    induction f with
    | nil => rfl
    | cons l ls ih =>
      rw [findKey, List.filter_cons]
      split_ifs with h
      · rfl
      · exact ih
  have hp := hperm.filter (fun l => lineHasKey key l)
  have heq : file.filter (fun l => lineHasKey key l) = file'.filter (fun l => lineHasKey key l) := by
    rcases h : file.filter (fun l => lineHasKey key l) with _ | ⟨a, _ | ⟨b, t⟩⟩
    · rw [h] at hp
      exact (List.nil_perm.1 hp).symm
    · rw [h] at hp
      exact List.singleton_perm.1 hp
    · rw [h] at hone
      simp at hone
  have h1 := hfst file
  have h2 := hfst file'
  rw [heq, ← h2] at h1
  have hval : ∀ (l : List Char) (r r' : List (List Char)), valueAt pf fmt l r = valueAt pf fmt l r' := by
    intro l r r'
    cases fmt <;> first | exact absurd rfl hfmt.1 | exact absurd rfl hfmt.2 | rfl
  unfold findValue
  rcases e1 : findKey key file with _ | ⟨l, r⟩ <;> rcases e2 : findKey key file' with _ | ⟨l', r'⟩
  · rfl
  · rw [e1, e2] at h1; simp at h1
  · rw [e1, e2] at h1; simp at h1
  · rw [e1, e2] at h1
    simp at h1
    subst h1
    simp only [hval l r r']

/-- **C90.**  A table after the key is returned row by row: blank lines and comments before it and comments
within it are skipped, it ends at a blank line or at the end of the file. -/
theorem c90_matrix {α : Type} {num : List Char → α → Prop} {pf : List Char → Option α}
    (hnum : ∀ w v, num w v → pf w = some v) {key line : List Char}
    {before rest : List (List Char)} (hk : IsTrim key key) (hb : ∀ l ∈ before, ¬ HasKey key l)
    (hl : HasKey key line) {r : List (List α)} (hr : DataSet num rest r) (hne : r ≠ []) {n : ℕ}
    (hn : ∀ row ∈ r, row.length = n) (d : Option (FileVal α)) :
    findValue pf (before ++ line :: rest) key .matrix d = .ok (.matrix r) := by
  have hf := findKey_some (rest := rest) hk hb hl
  have hrect : rectangular r = true := by
    rcases r with _ | ⟨a, r⟩
    · rfl
    · simp only [rectangular, List.all_eq_true, decide_eq_true_eq]
      intro s hs
      rw [hn s (by simp [hs]), hn a (by simp)]
  have ha : readArray pf rest = .ok (some r) := by
    unfold readArray
    rw [dataLines_set hnum hr hne]
    change (if r = [] then _ else _) = _
    rw [if_neg hne, if_pos hrect]
    rfl
  simp only [findValue, hf, valueAt, ha]
  rfl

/-- **C90 fails for a value with an equals sign:** the rest of the value is dropped. -/
theorem c90_equals_fails : ∃ (file : List (List Char)) (v : List Char),
    KeyLine "comment".toList file.head! v ∧ v = "a=b\n".toList ∧
      (∀ pf : List Char → Option ℝ, ∃ w, findValue pf file "comment".toList .all none = .ok (.words w) ∧
        w = ["a".toList]) :=
  ⟨["comment=a=b\n".toList], "a=b\n".toList,
    ⟨"comment".toList, rfl, by decide, (isTrim_iff _ _).2 rfl⟩, rfl,
    fun pf => ⟨_, rfl, rfl⟩⟩

/-! ### C91 -/

/-- **C91.**  The Hamiltonian and overlap table of a pair: first column and the others of the table after the
key `A_B_table`, unless the file has the key `X_X_table`. -/
theorem c91_table {num : List Char → ℝ → Prop} {pf : List Char → Option ℝ}
    (hnum : ∀ w v, num w v → pf w = some v) {si sj line : List Char}
    {before rest : List (List Char)} (hk : IsTrim (si ++ ['_'] ++ sj ++ "_table".toList)
      (si ++ ['_'] ++ sj ++ "_table".toList))
    (hX : ∀ l ∈ before ++ line :: rest, ¬ HasKey "X_X_table".toList l)
    (hb : ∀ l ∈ before, ¬ HasKey (si ++ ['_'] ++ sj ++ "_table".toList) l)
    (hl : HasKey (si ++ ['_'] ++ sj ++ "_table".toList) line) {xs : List ℝ} {cols : List (List ℝ)}
    (hlen : xs.length = cols.length)
    (hr : DataSet num rest (List.zipWith List.cons xs cols)) (hne : xs ≠ []) {n : ℕ}
    (hn : ∀ row ∈ cols, row.length = n) :
    readHSPar pf (before ++ line :: rest) si sj = .ok (xs, cols) := by
  have hXt : IsTrim "X_X_table".toList "X_X_table".toList := (isTrim_iff _ _).2 (by decide)
  have h1 := (c90_missing pf hXt hX .test).1 none
  have h2 := c90_matrix (d := none) hnum hk hb hl hr (by
    rcases xs with _ | ⟨x, xs⟩
    · exact absurd rfl hne
    · rcases cols with _ | ⟨c, cols⟩
      · simp at hlen
      · simp) (n := n + 1) (by
    intro row hrow
    rw [List.mem_iff_getElem] at hrow
    obtain ⟨i, hi, rfl⟩ := hrow
    simp only [List.getElem_zipWith, List.length_cons]
    rw [hn _ (List.getElem_mem _)])
  unfold readHSPar
  rw [h1]
  change (do
    match ← findValue pf (before ++ line :: rest) (si ++ ['_'] ++ sj ++ "_table".toList) .matrix none with
    | .matrix m => return splitColumns m
    | _ => throw Exn.typeError) = _
  rw [h2]
  change Except.ok (splitColumns (List.zipWith List.cons xs cols)) = _
  have : splitColumns (List.zipWith List.cons xs cols) = (xs, cols) := by
    unfold splitColumns
    clear h1 h2 hr hne hn
    induction xs generalizing cols with
    | nil =>
      cases cols with
      | nil => rfl
      | cons c cs => simp at hlen
    | cons x xs ih =>
      cases cols with
      | nil => simp at hlen
      | cons c cs =>
        have := ih (cols := cs) (by simpa using hlen)
        simp only [Prod.mk.injEq] at this
        rw [List.zipWith_cons_cons, List.map_cons, List.map_cons, this.1, this.2]
        rfl
  rw [this]

/-- **C91.**  A missing table is reported. -/
theorem c91_missing {pf : List Char → Option ℝ} {si sj : List Char} {file : List (List Char)}
    (hk : IsTrim (si ++ ['_'] ++ sj ++ "_table".toList) (si ++ ['_'] ++ sj ++ "_table".toList))
    (hX : ∀ l ∈ file, ¬ HasKey "X_X_table".toList l)
    (hb : ∀ l ∈ file, ¬ HasKey (si ++ ['_'] ++ sj ++ "_table".toList) l) :
    readHSPar pf file si sj = .error .runtimeError := by
  have hXt : IsTrim "X_X_table".toList "X_X_table".toList := (isTrim_iff _ _).2 (by decide)
  have h1 := (c90_missing pf hXt hX .test).1 none
  have h2 := (c90_missing pf hk hb .matrix).2.2 (by decide)
  unfold readHSPar
  rw [h1]
  change (do
    match ← findValue pf file (si ++ ['_'] ++ sj ++ "_table".toList) .matrix none with
    | .matrix m => return splitColumns m
    | _ => throw Exn.typeError) = _
  rw [h2]
  rfl

/-- **C91 fails for files with a general table.**  If the file has the key `X_X_table`, the reader
raises `TypeError` for every pair, whatever else the file holds. -/
theorem c91_general_fails {pf : List Char → Option ℝ} {si sj : List Char} {file : List (List Char)}
    (hX : ∃ l ∈ file, HasKey "X_X_table".toList l) : readHSPar pf file si sj = .error .typeError := by
  have hXt : IsTrim "X_X_table".toList "X_X_table".toList := (isTrim_iff _ _).2 (by decide)
  have hf : ∃ p, findKey "X_X_table".toList file = some p := by
    rcases h : findKey "X_X_table".toList file with _ | p
    · rw [findKey_none hXt] at h
      obtain ⟨l, hl, h'⟩ := hX
      exact absurd h' (h l hl)
    · exact ⟨p, rfl⟩
  obtain ⟨⟨l, r⟩, hf⟩ := hf
  have : findValue pf file "X_X_table".toList .test none = .ok (.bool true) := by
    simp only [findValue, hf, valueAt]
    rfl
  unfold readHSPar
  rw [this]
  rfl

/-- **C91.**  A repulsion of the file: first and second column of the table after the key. -/
theorem c91_repulsion {num : List Char → ℝ → Prop} {pf : List Char → Option ℝ}
    (hnum : ∀ w v, num w v → pf w = some v) {line : List Char} {before rest : List (List Char)}
    (hb : ∀ l ∈ before, ¬ HasKey "repulsion".toList l) (hl : HasKey "repulsion".toList line)
    {r : List (ℝ × ℝ)} (hr : DataSet num rest (r.map (fun p => [p.1, p.2]))) (hne : r ≠ []) :
    readRepulsionPar pf (before ++ line :: rest) = .ok (r.map Prod.fst, r.map Prod.snd) := by
  have hk : IsTrim "repulsion".toList "repulsion".toList := (isTrim_iff _ _).2 (by decide)
  have h2 := c90_matrix (d := none) hnum hk hb hl hr (by simpa using hne) (n := 2) (by
    intro row hrow
    rw [List.mem_map] at hrow
    obtain ⟨p, _, rfl⟩ := hrow
    rfl)
  unfold readRepulsionPar
  simp only [h2]
  rw [if_pos (by simp)]
  simp [Function.comp_def]

/-- **C91 fails for malformed repulsions.**  Whenever the table cannot be read (a word that is no
number, rows of different lengths, an empty table, or no key at all), no error is reported: the
repulsion is zero at 0, 1, 2 and 3. -/
theorem c91_malformed_fails {pf : List Char → Option ℝ} {file : List (List Char)} {e : Exn}
    (h : findValue pf file "repulsion".toList .matrix none = .error e) :
    readRepulsionPar pf file = .ok ([0, 1, 2, 3], [0, 0, 0, 0]) := by
  unfold readRepulsionPar
  simp only [h]
  rw [if_pos (by simp)]
  simp

/-! ### Elements -/

/-- The file gives this word for the key: the first word on the first line with the key. -/
def Provides (file : List (List Char)) (key word : List Char) : Prop :=
  ∃ before line rest v ws, file = before ++ line :: rest ∧ (∀ l ∈ before, ¬ HasKey key l) ∧
    KeyLine key line v ∧ IsWords (v.takeWhile (· ≠ '=')) (word :: ws)

theorem findFloat_of {pf : List Char → Option ℝ} {file : List (List Char)} {key w : List Char} {x : ℝ}
    (hk : IsTrim key key) (h : Provides file key w) (hx : pf w = some x) :
    findFloat pf file key = .ok x := by
  obtain ⟨before, line, rest, v, ws, rfl, hb, hl, hw⟩ := h
  unfold findFloat
  rw [(c90_line pf hk hb hl none).2.2.1 w ws hw]
  change conv pf w = _
  rw [conv, hx]

theorem foldlM_congr_mem {β γ : Type} {f g : γ → β → Except Exn γ} (l : List β)
    (h : ∀ a ∈ l, ∀ s, f s a = g s a) (st : γ) : l.foldlM f st = l.foldlM g st := by
  induction l generalizing st with
  | nil => rfl
  | cons a l ih =>
    rw [List.foldlM_cons, List.foldlM_cons, h a (by simp)]
    congr 1
    funext s
    exact ih (fun b hb => h b (by simp [hb])) s

theorem elmOnsite_congr {eps eps' : List Char → ℝ} {v : List (List Char)}
    (h : ∀ o ∈ v, eps o = eps' o) : elmOnsite eps v = elmOnsite eps' v := by
  unfold elmOnsite
  rw [foldlM_congr_mem]
  intro a ha s
  simp only [h a ha]

/-- **C91, elements.**  An elm file with the right symbol that gives `U`, `FWHM` and the energies of all
valence orbitals (names without blanks) is read with exactly these values; a wrong symbol is an
`AssertionError`. -/
theorem c91_element {pf : List Char → Option ℝ} {file : List (List Char)} {symbol : List Char}
    {valence : List (List Char)} {uw fw : List Char} {U fwhm : ℝ} {ew : List Char → List Char}
    {eps : List Char → ℝ} (hsym : Provides file "symbol".toList symbol)
    (hU : Provides file "U".toList uw) (hUx : pf uw = some U)
    (hF : Provides file "FWHM".toList fw) (hFx : pf fw = some fwhm)
    (hv : ∀ o ∈ valence, o ≠ [] ∧ ∀ c ∈ o, ¬ Blank c) (hnd : valence.Nodup)
    (hE : ∀ o ∈ valence, Provides file ("epsilon_".toList ++ o) (ew o))
    (hEx : ∀ o ∈ valence, pf (ew o) = some (eps o)) {E : List ℝ} (hon : elmOnsite eps valence = .ok E)
    (hC : ∀ l ∈ file, ¬ HasKey "C6".toList l ∧ ¬ HasKey "p".toList l ∧ ¬ HasKey "R0".toList l) :
    readElementElm pf file symbol (some valence) =
      .ok ⟨U, fwhm, valence.map (fun o => (o, eps o)), E, none, none, none⟩ ∧
    ∀ other, other ≠ symbol → readElementElm pf file other (some valence) = .error .assertionError := by
  have t1 : IsTrim "symbol".toList "symbol".toList := (isTrim_iff _ _).2 (by decide)
  have hs : findValue pf file "symbol".toList .default none = .ok (.str symbol) := by
    obtain ⟨before, line, rest, v, ws, rfl, hb, hl, hw⟩ := hsym
    exact (c90_line pf t1 hb hl none).2.2.1 symbol ws hw
  have hsb : ∀ c ∈ symbol, ¬ Blank c := by
    obtain ⟨before, line, rest, v, ws, -, -, -, hw⟩ := hsym
    generalize v.takeWhile (· ≠ '=') = t at hw
    cases hw
    assumption
  have hst : stripWs symbol = symbol := by
    rw [← isTrim_iff]
    refine ⟨[], [], by simp, by simp, by simp, fun c hc => hsb c (List.mem_of_mem_head? hc),
      fun c hc => hsb c (List.mem_of_mem_getLast? hc)⟩
  have hUf := findFloat_of ((isTrim_iff _ _).2 (by decide)) hU hUx
  have hFf := findFloat_of ((isTrim_iff _ _).2 (by decide)) hF hFx
  have hEf : ∀ o ∈ valence, findFloat pf file ("epsilon_".toList ++ o) = .ok (eps o) := by
    intro o ho
    refine findFloat_of ?_ (hE o ho) (hEx o ho)
    refine ⟨[], [], by simp, by simp, by simp, ?_, ?_⟩
    · intro c hc
      have : c = 'e' := by simpa using hc.symm
      subst this
      unfold Blank; decide
    · intro c hc
      rw [List.getLast?_append_of_ne_nil _ (hv o ho).1] at hc
      exact (hv o ho).2 c (List.mem_of_mem_getLast? hc)
  have hm : valence.mapM (fun o => (do
      let e ← findFloat pf file ("epsilon_".toList ++ o)
      return (o, e) : Except Exn (List Char × ℝ))) = .ok (valence.map (fun o => (o, eps o))) := by
    apply mapM_ok_of_forall
    intro o ho
    rw [hEf o ho]
    rfl
  have hlk : ∀ o ∈ valence, ((valence.map (fun o => (o, eps o))).lookup o).getD 0 = eps o := by
    intro o ho
    clear hm hEf hE hEx hon hv
    induction valence with
    | nil => simp at ho
    | cons a l ih =>
      rw [List.map_cons, List.lookup_cons]
      by_cases h : o = a
      · simp [h]
      · have : (o == a) = false := by simpa using h
        rw [this]
        simp only
        exact ih (List.nodup_cons.1 hnd).2 (by simpa [h] using ho)
  have hon' : elmOnsite (fun o => ((valence.map (fun o => (o, eps o))).lookup o).getD 0) valence = .ok E := by
    rw [← hon]
    exact elmOnsite_congr hlk
  have hopt : ∀ key : List Char, IsTrim key key → (∀ l ∈ file, ¬ HasKey key l) →
      findOptional pf file key = .ok none := by
    intro key hk hno
    unfold findOptional
    rw [(findKey_none hk file).2 hno]
  have o1 := hopt "C6".toList ((isTrim_iff _ _).2 (by decide)) (fun l hl => (hC l hl).1)
  have o2 := hopt "p".toList ((isTrim_iff _ _).2 (by decide)) (fun l hl => (hC l hl).2.1)
  have o3 := hopt "R0".toList ((isTrim_iff _ _).2 (by decide)) (fun l hl => (hC l hl).2.2)
  constructor
  · unfold readElementElm
    rw [hs]
    simp only [bind, Except.bind, hst, ne_eq, not_true_eq_false, if_false, hUf, hFf] at hm ⊢
    simp only [pure, Except.pure] at hm ⊢
    rw [hm]
    simp only [hon', o1, o2, o3]
  · intro other hne
    unfold readElementElm
    rw [hs]
    simp only [bind, Except.bind, hst]
    rw [if_pos (Ne.symm hne)]
    rfl

/-- A repulsion with a misprinted number: `1.5` became `1,5`. -/
example : readRepulsionPar parseDec ["repulsion=\n".toList, "1 2\n".toList, "1,5 1\n".toList] =
    .ok ([0, 1, 2, 3], [0, 0, 0, 0]) :=
  c91_malformed_fails (e := .valueError) rfl

/-- A table directly followed by another key: its line is taken for a row, and the repulsion is
lost. -/
example : readRepulsionPar parseDec ["repulsion=\n".toList, "1 2\n".toList, "2 1\n".toList,
    "U=3\n".toList] = .ok ([0, 1, 2, 3], [0, 0, 0, 0]) :=
  c91_malformed_fails (e := .valueError) rfl

/-! ### Examples -/

/-- A small elm file. -/
def exElm : List (List Char) :=
  ["# carbon\n".toList, "symbol=C\n".toList, "  FWHM = 4 comment\n".toList, "U=3\n".toList,
    "epsilon_2p=-2\n".toList, "epsilon_2s=-5\n".toList]

theorem trim_of {key : List Char} (h : stripWs key = key) : IsTrim key key := (isTrim_iff _ _).2 h

theorem noKey_of {key : List Char} (hk : stripWs key = key) {ls : List (List Char)}
    (h : ls.all (fun l => !lineHasKey key l) = true) : ∀ l ∈ ls, ¬ HasKey key l := by
  intro l hl
  rw [← lineHasKey_iff (trim_of hk)]
  have := List.all_eq_true.1 h l hl
  simpa using this

/-- `c91_element` applies. -/
example : readElementElm parseDec exElm "C".toList (some ["2s".toList, "2p".toList]) =
    .ok ⟨3, 4, [("2s".toList, -5), ("2p".toList, -2)], [-5, -2, -2, -2], none, none, none⟩ := by
  have q3 : parseDec "3".toList = some 3 := by
    rw [show parseDec "3".toList = some ((3 : ℕ) : ℝ) from rfl]; norm_num
  have q4 : parseDec "4".toList = some 4 := by
    rw [show parseDec "4".toList = some ((4 : ℕ) : ℝ) from rfl]; norm_num
  have q5 : parseDec "-5".toList = some (-5) := by
    rw [show parseDec "-5".toList = some (-((5 : ℕ) : ℝ)) from rfl]; norm_num
  have q2 : parseDec "-2".toList = some (-2) := by
    rw [show parseDec "-2".toList = some (-((2 : ℕ) : ℝ)) from rfl]; norm_num
  refine (c91_element (uw := "3".toList) (fw := "4".toList)
    (ew := fun o => if o = "2s".toList then "-5".toList else "-2".toList)
    (eps := fun o => if o = "2s".toList then -5 else -2) ?_ ?_ ?_ ?_ ?_ ?_ (by decide) ?_ ?_ ?_ ?_).1
  · exact ⟨["# carbon\n".toList], _, _, "C\n".toList, [], rfl, noKey_of (by decide) (by decide),
      ⟨"symbol".toList, rfl, by decide, trim_of (by decide)⟩, (isWords_iff _ _).2 (by decide)⟩
  · exact ⟨exElm.take 3, _, _, "3\n".toList, [], rfl, noKey_of (by decide) (by decide),
      ⟨"U".toList, rfl, by decide, trim_of (by decide)⟩, (isWords_iff _ _).2 (by decide)⟩
  · exact q3
  · exact ⟨exElm.take 2, _, _, " 4 comment\n".toList, ["comment".toList], rfl,
      noKey_of (by decide) (by decide),
      ⟨"  FWHM ".toList, rfl, by decide, (isTrim_iff _ _).2 (by decide)⟩, (isWords_iff _ _).2 (by decide)⟩
  · exact q4
  · intro o ho
    simp only [List.mem_cons, List.not_mem_nil, or_false] at ho
    rcases ho with rfl | rfl <;> exact ⟨by decide, by unfold Blank; decide⟩
  · intro o ho
    simp only [List.mem_cons, List.not_mem_nil, or_false] at ho
    rcases ho with rfl | rfl
    · exact ⟨exElm.take 5, _, _, "-5\n".toList, [], rfl, noKey_of (by decide) (by decide),
        ⟨"epsilon_2s".toList, rfl, by decide, trim_of (by decide)⟩, (isWords_iff _ _).2 (by decide)⟩
    · exact ⟨exElm.take 4, _, _, "-2\n".toList, [], rfl, noKey_of (by decide) (by decide),
        ⟨"epsilon_2p".toList, rfl, by decide, trim_of (by decide)⟩, (isWords_iff _ _).2 (by decide)⟩
  · intro o ho
    simp only [List.mem_cons, List.not_mem_nil, or_false] at ho
    rcases ho with rfl | rfl
    · exact q5
    · exact q2
  · rfl
  · intro l hl
    exact ⟨noKey_of (by decide) (by decide) l hl, noKey_of (by decide) (by decide) l hl,
      noKey_of (by decide) (by decide) l hl⟩


/-- A par file with a comment in the table. -/
def exPar : List (List Char) :=
  ["# C H\n".toList, "C_H_table=\n".toList, "\n".toList, "1 2 3\n".toList, "# middle\n".toList,
    " 2 3 4\n".toList, "\n".toList, "repulsion=\n".toList, "1 2\n".toList, "2 1".toList]

theorem row_of {l : List Char} {ls ws : List (List Char)} {v : List ℝ} {r : List (List ℝ)}
    (hc : (stripWs l).head? ≠ some '#') (hw : splitWs l = ws) (hne : ws ≠ [])
    (hv : List.Forall₂ (fun w x => parseDec w = some x) ws v)
    (h : NumberRows (fun w x => parseDec w = some x) ls r) :
    NumberRows (fun w x => parseDec w = some x) (l :: ls) (v :: r) :=
  .row l ls ws v r (by rw [← comment_iff]; exact hc) ((isWords_iff _ _).2 hw) hne hv h

theorem parse_digit :
    parseDec "1".toList = some 1 ∧ parseDec "2".toList = some 2 ∧ parseDec "3".toList = some 3 ∧
      parseDec "4".toList = some 4 := by
  refine ⟨?_, ?_, ?_, ?_⟩
  · rw [show parseDec "1".toList = some ((1 : ℕ) : ℝ) from rfl]; norm_num
  · rw [show parseDec "2".toList = some ((2 : ℕ) : ℝ) from rfl]; norm_num
  · rw [show parseDec "3".toList = some ((3 : ℕ) : ℝ) from rfl]; norm_num
  · rw [show parseDec "4".toList = some ((4 : ℕ) : ℝ) from rfl]; norm_num

/-- `c91_table` (and with it `c90_matrix`) applies. -/
example : readHSPar parseDec exPar "C".toList "H".toList = .ok ([1, 2], [[2, 3], [3, 4]]) := by
  obtain ⟨h1, h2, h3, h4⟩ := parse_digit
  refine c91_table (num := fun w x => parseDec w = some x) (fun w v h => h) (n := 2)
    (before := exPar.take 1) (line := "C_H_table=\n".toList) (rest := exPar.drop 2)
    (trim_of (by decide)) (noKey_of (by decide) (by decide)) (noKey_of (by decide) (by decide))
    ((lineHasKey_iff (trim_of (by decide)) _).1 (by decide)) rfl ?_ (by simp) (by simp)
  refine .blank _ _ _ (by unfold Blank; decide) (.rows _ _ ?_)
  refine row_of (by decide) (ws := ["1".toList, "2".toList, "3".toList]) (by decide) (by decide)
    (.cons h1 (.cons h2 (.cons h3 .nil))) ?_
  refine .comment _ _ _ ((comment_iff _).1 (by decide)) ?_
  refine row_of (by decide) (ws := ["2".toList, "3".toList, "4".toList]) (by decide) (by decide)
    (.cons h2 (.cons h3 (.cons h4 .nil))) ?_
  exact .blank _ _ (by unfold Blank; decide)

/-- `c91_repulsion` applies. -/
example : readRepulsionPar parseDec exPar = .ok ([1, 2], [2, 1]) := by
  obtain ⟨h1, h2, h3, h4⟩ := parse_digit
  refine c91_repulsion (num := fun w x => parseDec w = some x) (fun w v h => h)
    (before := exPar.take 7) (line := "repulsion=\n".toList) (rest := exPar.drop 8)
    (noKey_of (by decide) (by decide))
    ((lineHasKey_iff (trim_of (by decide)) _).1 (by decide)) (r := [(1, 2), (2, 1)]) ?_ (by simp)
  refine .rows _ _ ?_
  refine row_of (by decide) (ws := ["1".toList, "2".toList]) (by decide) (by decide)
    (.cons h1 (.cons h2 .nil)) ?_
  refine row_of (by decide) (ws := ["2".toList, "1".toList]) (by decide) (by decide)
    (.cons h2 (.cons h1 .nil)) ?_
  exact .fin

/-- `c91_missing` and `c91_general_fails` apply. -/
example : readHSPar parseDec exPar "H".toList "C".toList = .error .runtimeError ∧
    readHSPar parseDec ("X_X_table=\n".toList :: exPar) "C".toList "H".toList = .error .typeError :=
  ⟨c91_missing (trim_of (by decide)) (noKey_of (by decide) (by decide)) (noKey_of (by decide) (by decide)),
    c91_general_fails ⟨_, List.mem_cons_self, (lineHasKey_iff (trim_of (by decide)) _).1 (by decide)⟩⟩

/-- `c90_order` applies: the lines of the elm file in reverse. -/
example : findValue parseDec exElm "U".toList .default none =
    findValue parseDec exElm.reverse "U".toList .default none :=
  c90_order parseDec (trim_of (by decide)) (List.reverse_perm _).symm (by decide) .default
    ⟨by decide, by decide⟩ none

end Hotbit
