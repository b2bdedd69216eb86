import Verif.Lemmas.Skf
import Verif.Props.Records
import Verif.Props.SkfRepulsion

/-!
# C88: Slater-Koster tables in `.skf` files
-/

namespace Hotbit

theorem strip_decomp (l : List Char) : ∃ pre post, l = pre ++ stripWs l ++ post ∧
    (∀ c ∈ pre, isWs c = true) ∧ ∀ c ∈ post, isWs c = true := by
  refine ⟨l.takeWhile isWs, ((l.dropWhile isWs).reverse.takeWhile isWs).reverse, ?_, ?_, ?_⟩
  · unfold stripWs
    rw [List.append_assoc, ← List.reverse_append, List.takeWhile_append_dropWhile,
      List.reverse_reverse, List.takeWhile_append_dropWhile]
  · intro c hc
    exact List.mem_takeWhile_imp hc
  · intro c hc
    rw [List.mem_reverse] at hc
    exact List.mem_takeWhile_imp hc

/-- A line that can be read as numbers is not the line `Spline`. -/
theorem notSpline_of_read {α : Type} {pf : List Char → Option α} (hS : pf "Spline".toList = none)
    {l : List Char} {v : List α} (h : fortranReadline pf l = .ok v) : notSpline l = true := by
  unfold notSpline
  rw [decide_eq_true_eq]
  intro hs
  obtain ⟨pre, post, e, h1, h2⟩ := strip_decomp l
  rw [hs] at e
  have hsep : ∀ c, isWs c = true → FSep c := fun c hc => Or.inl ((isWs_iff c).mp hc)
  rw [e, List.append_assoc, fortranReadline_pre pf (fun c hc => hsep c (h1 c hc))] at h
  unfold fortranReadline at h
  rw [List.map_append, show "Spline".toList.map fortranChar = "Spline".toList from by decide] at h
  have hw := splitWs_cons (pre := []) (w := "Spline".toList) (rest := post.map fortranChar) (by simp)
    (by decide) (by decide) (by
      intro c hc
      rw [List.head?_map] at hc
      obtain ⟨d, hd, rfl⟩ := Option.map_eq_some_iff.mp hc
      exact fortranChar_sep.mpr (hsep d (h2 d (List.mem_of_mem_head? hd))))
  rw [List.nil_append] at hw
  rw [hw, List.foldlM_cons] at h
  have hf : fortranWord pf "Spline".toList = .error .valueError := by
    rw [fortranWord, if_neg (by decide), conv, hS]
    rfl
  rw [hf] at h
  cases h

theorem mapM_of_map {α β : Type} {f : α → Except Exn β} {l : List α} {r : List β}
    (h : l.map f = r.map .ok) : l.mapM f = .ok r := by
  induction l generalizing r with
  | nil =>
    cases r with
    | nil => rfl
    | cons b r => cases h
  | cons a l ih =>
    cases r with
    | nil => cases h
    | cons b r =>
      rw [List.map_cons, List.map_cons] at h
      obtain ⟨h1, h2⟩ := List.cons.inj h
      rw [List.mapM_cons, h1, ih h2]
      rfl

/-- The lines of a table are read to the end or to the line `Spline`. -/
theorem takeWhile_lines {α : Type} {pf : List Char → Option α} (hS : pf "Spline".toList = none)
    {lines rest : List (List Char)} {rows : List (List α)}
    (h : lines.map (fortranReadline pf) = rows.map .ok)
    (hr : rest = [] ∨ ∃ l ls, rest = l :: ls ∧ stripWs l = "Spline".toList) :
    (lines ++ rest).takeWhile notSpline = lines := by
  have hall : ∀ l ∈ lines, notSpline l = true := by
    intro l hl
    have h1 : fortranReadline pf l ∈ lines.map (fortranReadline pf) := List.mem_map_of_mem hl
    rw [h] at h1
    obtain ⟨v, -, hv⟩ := List.mem_map.mp h1
    exact notSpline_of_read hS hv.symm
  rw [List.takeWhile_append_of_pos hall]
  rcases hr with rfl | ⟨l, ls, rfl, hl⟩
  · simp
  · have : notSpline l = false := by simp [notSpline, hl]
    simp [this]

/-- What the reader makes of the lines of numbers `table`. -/
theorem readHS_lines {pf : List Char → Option ℝ} (hS : pf "Spline".toList = none)
    {l0 : List Char} {lines rest : List (List Char)} {rows : List (List ℝ)} {dx n : ℝ}
    (h0 : fortranReadline pf l0 = .ok [dx, n])
    (h : lines.map (fortranReadline pf) = rows.map .ok)
    (hr : rest = [] ∨ ∃ l ls, rest = l :: ls ∧ stripWs l = "Spline".toList) :
    readHSSkf pf false (l0 :: (lines ++ rest)) =
      if rectangular rows then
        .ok ((List.range rows.length).map (fun i : ℕ => dx * (i : ℝ)), rows)
      else .error .valueError := by
  unfold readHSSkf
  simp only [nextLine, h0, bind, Except.bind, Bool.false_eq_true, if_false]
  rw [takeWhile_lines hS h hr, mapM_of_map h]
  rfl

theorem readHS_lines_homo {pf : List Char → Option ℝ} (hS : pf "Spline".toList = none)
    {l0 le : List Char} {lines rest : List (List Char)} {rows : List (List ℝ)} {dx n : ℝ} {v : List ℝ}
    (h0 : fortranReadline pf l0 = .ok (dx :: n :: v))
    (h : lines.map (fortranReadline pf) = rows.map .ok)
    (hr : rest = [] ∨ ∃ l ls, rest = l :: ls ∧ stripWs l = "Spline".toList) :
    readHSSkf pf true (l0 :: le :: (lines ++ rest)) =
      if rectangular rows then
        .ok ((List.range rows.length).map (fun i : ℕ => dx * (i : ℝ)), rows)
      else .error .valueError := by
  unfold readHSSkf
  simp only [nextLine, h0, bind, Except.bind, if_true]
  rw [takeWhile_lines hS h hr, mapM_of_map h]
  rfl

theorem rectangular_iff {α : Type} {rows : List (List α)} {w : ℕ} (hne : rows ≠ [])
    (hw : (rows.head hne).length = w) : rectangular rows = true ↔ ∀ r ∈ rows, r.length = w := by
  cases rows with
  | nil => exact absurd rfl hne
  | cons r rs =>
    simp only [List.head_cons] at hw
    simp only [rectangular, List.all_eq_true, decide_eq_true_eq, List.mem_cons, forall_eq_or_imp, hw,
      true_and]

/-- C88: the `j`-th line of the integral table of an `.skf` file is the row for the distance
`(j+1)*dx`, for two elements and for one (whose file has one more line and may have more numbers in
its first line); the line with the mass before it is returned as the row for the distance zero. -/
theorem c88_read {pf : List Char → Option ℝ} (hS : pf "Spline".toList = none) {homo : Bool}
    {l0 le lm : List Char} {lines rest : List (List Char)} {m : List ℝ} {rows : List (List ℝ)}
    {dx n : ℝ} {v : List ℝ} (hv : homo = false → v = [])
    (h0 : fortranReadline pf l0 = .ok (dx :: n :: v))
    (hm : fortranReadline pf lm = .ok m)
    (h : lines.map (fortranReadline pf) = rows.map .ok)
    (hr : rest = [] ∨ ∃ l ls, rest = l :: ls ∧ stripWs l = "Spline".toList)
    (hw : ∀ r ∈ rows, r.length = m.length) :
    ∃ x hs, readHSSkf pf homo (l0 :: ((if homo then [le] else []) ++ lm :: (lines ++ rest))) =
        .ok (x, hs) ∧ x.length = rows.length + 1 ∧ hs.length = rows.length + 1 ∧
      x[0]? = some 0 ∧ hs[0]? = some m ∧
      ∀ j, j < rows.length → x[j + 1]? = some (((j : ℝ) + 1) * dx) ∧ hs[j + 1]? = rows[j]? := by
  have hmap : (lm :: lines).map (fortranReadline pf) = (m :: rows).map .ok := by
    rw [List.map_cons, List.map_cons, hm, h]
  have hrect : rectangular (m :: rows) = true :=
    (rectangular_iff (by simp) rfl).mpr (by
      intro r hr'
      rcases List.mem_cons.mp hr' with rfl | hr'
      · rfl
      · exact hw r hr')
  refine ⟨(List.range (m :: rows).length).map (fun i : ℕ => dx * (i : ℝ)), m :: rows, ?_, by simp,
    by simp, by simp, by simp, ?_⟩
  · cases homo with
    | false =>
      rw [hv rfl] at h0
      have := readHS_lines hS h0 hmap hr
      rw [if_pos hrect] at this
      exact this
    | true =>
      have := readHS_lines_homo hS (le := le) h0 hmap hr
      rw [if_pos hrect] at this
      exact this
  · intro j hj
    refine ⟨?_, rfl⟩
    rw [List.getElem?_map, List.getElem?_range (by simpa using hj), Option.map_some]
    congr 1
    push_cast
    ring

/-! ### Writing and reading back -/

/-- The number formats of the writer can be read back: the grid step `h` exactly, the mass and the
entries up to rounding. -/
structure SkfFormat (pf : List Char → Option ℝ) (fmt fmtDx fmtMass : ℝ → List Char)
    (rnd rndM : ℝ → ℝ) (h : ℝ) : Prop where
  entry : NumFormat fmt pf rnd
  one : pf "1.0".toList = some 1
  spline : pf "Spline".toList = none
  count : ∀ n : ℕ, ∃ v, pf (decStr n) = some v
  dx : fmtDx h ≠ [] ∧ (∀ c ∈ fmtDx h, ¬ FSep c ∧ c ≠ '*') ∧ pf (dToE (fmtDx h)) = some h
  mass : ∀ m, fmtMass m ≠ [] ∧ (∀ c ∈ fmtMass m, ¬ FSep c ∧ c ≠ '*') ∧
    pf (dToE (fmtMass m)) = some (rndM m)

theorem not_fsep_one : ∀ c ∈ "1.0".toList, ¬ FSep c := by
  intro c hc
  have h : "1.0".toList = ['1', '.', '0'] := rfl
  rw [h] at hc
  simp only [List.mem_cons, List.not_mem_nil, or_false] at hc
  rcases hc with rfl | rfl | rfl <;> (simp only [FSep, Blank]; decide)

section
variable {pf : List Char → Option ℝ} {fmt fmtDx fmtMass : ℝ → List Char} {rnd rndM : ℝ → ℝ} {h : ℝ}

theorem read_ones (F : SkfFormat pf fmt fmtDx fmtMass rnd rndM h) (n : ℕ) :
    fortranReadline pf (decStr n ++ "*1.0,\n".toList) = .ok (List.replicate n 1) := by
  have := reads_many (pf := pf) (w := "1.0".toList) (post := [',', '\n']) (v := (1 : ℝ)) n
    not_fsep_one F.one (by simp) (by unfold FSep Blank; decide)
  have h2 := this.done (post := []) (by simp)
  rw [← h2]
  congr 1
  rw [List.append_nil, List.append_assoc]
  rfl

theorem read_mass (F : SkfFormat pf fmt fmtDx fmtMass rnd rndM h) (m : ℝ) :
    fortranReadline pf (fmtMass m ++ ", 19*1.0,\n".toList) =
      .ok (rndM m :: List.replicate 19 1) := by
  obtain ⟨h1, h2, h3⟩ := F.mass m
  have a := Reads.word (pf := pf) (pre := []) (post := [',', ' ']) (by simp) h1
    (fun c hc => (h2 c hc).1) (by simp) (by unfold FSep Blank; decide)
    (fortranWord_one pf (fun c hc => (h2 c hc).2) h3)
  have b := a _ _ (read_ones F 19)
  rw [List.nil_append] at b
  have e : fmtMass m ++ ", 19*1.0,\n".toList = fmtMass m ++ [',', ' '] ++ (decStr 19 ++ "*1.0,\n".toList) := by
    rw [List.append_assoc]
    congr 1
    simp [decStr, decDigit]
  rw [e, b]
  rfl

theorem read_first (F : SkfFormat pf fmt fmtDx fmtMass rnd rndM h) (n : ℕ) :
    ∃ v, fortranReadline pf (fmtDx h ++ ", ".toList ++ decStr n ++ ['\n']) = .ok [h, v] := by
  obtain ⟨h1, h2, h3⟩ := F.dx
  obtain ⟨v, hv⟩ := F.count n
  have a := Reads.word (pf := pf) (pre := []) (post := [',', ' ']) (by simp) h1
    (fun c hc => (h2 c hc).1) (by simp) (by unfold FSep Blank; decide)
    (fortranWord_one pf (fun c hc => (h2 c hc).2) h3)
  have hd := decStr_digitsValue n
  have b := Reads.word (pf := pf) (pre := []) (w := decStr n) (post := ['\n']) (v := [v]) (by simp)
    (decStr_ne_nil n) (fun c hc => (digit_not_fsep hd c hc).1) (by simp) (by unfold FSep Blank; decide)
    (fortranWord_one pf (digit_not_star hd) (by rw [dToE_decStr]; exact hv))
  have c := (a.append b).done (post := []) (by simp)
  refine ⟨v, ?_⟩
  rw [← show [h] ++ [v] = [h, v] from rfl, ← c]
  congr 1
  rw [List.nil_append, List.nil_append, List.append_nil, List.append_assoc, List.append_assoc]
  simp

/-- What comes back when a table on the grid `x0 + j*h` is written and read. -/
theorem read_writeSkf (F : SkfFormat pf fmt fmtDx fmtMass rnd rndM h) (mass : ℝ) {x : List ℝ} {x0 : ℝ}
    (hx0 : x.getD 0 0 = x0) (hx1 : x.getD 1 0 = x0 + h) (hh : 0 < h) (table : List (List ℝ))
    {rest : List (List Char)} (hr : rest = [] ∨ ∃ l ls, rest = l :: ls ∧ stripWs l = "Spline".toList) :
    readHSSkf pf false (writeSkf fmt fmtDx fmtMass mass x table ++ rest) =
      if rectangular ((rndM mass :: List.replicate 19 1) ::
          (List.replicate (padRows x0 (x0 + h)) (List.replicate (table.getD 0 []).length 1) ++
            table.map (fun row => if row.getLast? = some 0 then row.map rnd ++ [0] else row.map rnd))) then
        .ok ((List.range (padRows x0 (x0 + h) + table.length + 1)).map (fun i : ℕ => h * (i : ℝ)),
          (rndM mass :: List.replicate 19 1) ::
          (List.replicate (padRows x0 (x0 + h)) (List.replicate (table.getD 0 []).length 1) ++
            table.map (fun row => if row.getLast? = some 0 then row.map rnd ++ [0] else row.map rnd)))
      else .error .valueError := by
  classical
  obtain ⟨v, hv⟩ := read_first F
    (table.length + (pyInt (x0 / (x0 + h - x0))).toNat)
  have hmap : ((fmtMass mass ++ ", 19*1.0,\n".toList) ::
      (List.replicate (padRows x0 (x0 + h)) (decStr ((table.getD 0 []).length) ++ "*1.0,\n".toList) ++
      writeTable fmt ⟨0, [], []⟩ table)).map (fortranReadline pf) =
      ((rndM mass :: List.replicate 19 1) ::
          (List.replicate (padRows x0 (x0 + h)) (List.replicate (table.getD 0 []).length 1) ++
            table.map (fun row => if row.getLast? = some 0 then row.map rnd ++ [0] else row.map rnd))).map
        .ok := by
    rw [List.map_cons, List.map_cons, read_mass F, List.map_append, List.map_append, List.map_replicate,
      read_ones F, List.map_replicate, c48_table F.entry, List.map_map]
    rfl
  have key := readHS_lines F.spline (rest := rest) hv hmap hr
  have hfile : writeSkf fmt fmtDx fmtMass mass x table ++ rest =
      (fmtDx h ++ ", ".toList ++ decStr (table.length + (pyInt (x0 / (x0 + h - x0))).toNat) ++ ['\n']) ::
      (((fmtMass mass ++ ", 19*1.0,\n".toList) ::
      (List.replicate (padRows x0 (x0 + h)) (decStr ((table.getD 0 []).length) ++ "*1.0,\n".toList) ++
      writeTable fmt ⟨0, [], []⟩ table)) ++ rest) := by
    unfold writeSkf
    simp only [hx0, hx1, show x0 + h - x0 = h by ring]
    simp only [List.append_assoc, List.cons_append, List.nil_append]
  rw [hfile, key]
  congr 2
  simp only [List.length_cons, List.length_append, List.length_replicate, List.length_map]

/-- C88 fails for converted files: a table given at the distances `x0 + j*h` is written so that its
`j`-th row is read back at the distance `(⌊x0/h⌋ + 1 + j) * h`, which is larger than the true one; it
is off by a whole grid step whenever `x0` is a multiple of `h`. -/
theorem c88_convert_fails (F : SkfFormat pf fmt fmtDx fmtMass rnd rndM h) (mass : ℝ) {x : List ℝ}
    {x0 : ℝ} (hx0 : x.getD 0 0 = x0) (hx1 : x.getD 1 0 = x0 + h) (hh : 0 < h) (hpos : 0 ≤ x0)
    (table : List (List ℝ)) (hw : ∀ r ∈ table, r.length = 20) (hne : table ≠ [])
    (hz : ∀ r ∈ table, r.getLast? ≠ some 0)
    {rest : List (List Char)} (hr : rest = [] ∨ ∃ l ls, rest = l :: ls ∧ stripWs l = "Spline".toList) :
    ∃ xs hs, readHSSkf pf false (writeSkf fmt fmtDx fmtMass mass x table ++ rest) = .ok (xs, hs) ∧
      ∀ j, j < table.length → ∃ k, hs[k]? = (table.map (fun r => r.map rnd))[j]? ∧
        k = ⌊x0 / h⌋₊ + 1 + j ∧ xs[k]? = some ((k : ℝ) * h) ∧
        x0 + j * h < (k : ℝ) * h ∧ ((∃ p : ℕ, x0 = p * h) → (k : ℝ) * h = x0 + j * h + h) := by
  have hpad : padRows x0 (x0 + h) = ⌊x0 / h⌋₊ := by
    unfold padRows
    rw [show x0 + h - x0 = h by ring]
    by_cases h0 : x0 = 0
    · simp [h0]
    · rw [if_pos h0, pyInt, if_pos (div_nonneg hpos hh.le)]
      rfl
  have hrows : table.map (fun row => if row.getLast? = some 0 then row.map rnd ++ [0] else row.map rnd) =
      table.map (fun r => r.map rnd) := by
    apply List.map_congr_left
    intro r hr'
    rw [if_neg (hz r hr')]
  have key := read_writeSkf F mass hx0 hx1 hh table hr
  rw [hrows, hpad, if_pos] at key
  swap
  · refine (rectangular_iff (w := 20) (by simp) (by simp)).mpr ?_
    intro r hr'
    rcases List.mem_cons.mp hr' with rfl | hr'
    · simp
    · rcases List.mem_append.mp hr' with hr' | hr'
      · rw [(List.mem_replicate.mp hr').2, List.length_replicate]
        obtain ⟨a, as, ha⟩ := List.exists_cons_of_ne_nil hne
        rw [ha]
        exact hw a (by rw [ha]; exact List.mem_cons_self)
      · obtain ⟨s, hs, rfl⟩ := List.mem_map.mp hr'
        rw [List.length_map, hw s hs]
  refine ⟨_, _, key, ?_⟩
  intro j hj
  refine ⟨⌊x0 / h⌋₊ + 1 + j, ?_, rfl, ?_, ?_, ?_⟩
  · rw [show ⌊x0 / h⌋₊ + 1 + j = (⌊x0 / h⌋₊ + j) + 1 by ring, List.getElem?_cons_succ,
      List.getElem?_append_right (by simp)]
    simp
  · rw [List.getElem?_map, List.getElem?_range (by omega), Option.map_some]
    congr 1
    ring
  · have := Nat.lt_floor_add_one (x0 / h)
    rw [div_lt_iff₀ hh] at this
    push_cast
    nlinarith
  · rintro ⟨p, hp⟩
    have : ⌊x0 / h⌋₊ = p := by
      rw [hp, mul_div_assoc, div_self hh.ne', mul_one, Nat.floor_natCast]
    rw [this, hp]
    push_cast
    ring

/-- C88 fails for tables that go to zero: if one row ends with zero, the file written from the table
cannot be read. -/
theorem c88_unreadable_fails (F : SkfFormat pf fmt fmtDx fmtMass rnd rndM h) (mass : ℝ) {x : List ℝ}
    {x0 : ℝ} (hx0 : x.getD 0 0 = x0) (hx1 : x.getD 1 0 = x0 + h) (hh : 0 < h)
    (table : List (List ℝ)) (hw : ∀ r ∈ table, r.length = 20)
    (hz : ∃ r ∈ table, r.getLast? = some 0)
    {rest : List (List Char)} (hr : rest = [] ∨ ∃ l ls, rest = l :: ls ∧ stripWs l = "Spline".toList) :
    readHSSkf pf false (writeSkf fmt fmtDx fmtMass mass x table ++ rest) = .error .valueError := by
  rw [read_writeSkf F mass hx0 hx1 hh table hr, if_neg]
  intro hrect
  rw [rectangular_iff (w := 20) (by simp) (by simp)] at hrect
  obtain ⟨r, hr1, hr2⟩ := hz
  have := hrect (r.map rnd ++ [0]) (by
    refine List.mem_cons_of_mem _ (List.mem_append_right _ (List.mem_map.mpr ⟨r, hr1, ?_⟩))
    rw [if_pos hr2])
  simp [hw r hr1] at this

end

/-! ### The second reader -/

/-- C88 fails for `read_skf_table`: for a file of two elements with `n` full rows it returns `n` rows
but `n-1` distances, and gives the first row the distance zero where the other reader gives `dx`. -/
theorem c88_second_reader_fails {pf : List Char → Option ℝ}
    {l0 lm : List Char} {lines rest : List (List Char)} {rows : List (List ℝ)} {dx : ℝ}
    (h0 : fortranReadline pf l0 = .ok [dx, (lines.length : ℝ)])
    (h : lines.map (fortranReadline pf) = rows.map .ok) (hne : rows ≠ [])
    {w : ℕ} (hw0 : 0 < w) (hw : ∀ r ∈ rows, r.length = w) :
    ∃ x t, readSkfTable pf false (l0 :: lm :: (lines ++ rest)) = .ok (x, t) ∧ t = rows ∧
      x.length + 1 = t.length ∧ (2 ≤ rows.length → x[0]? = some 0) := by
  have hlen : lines.length = rows.length := by
    have := congrArg List.length h
    simpa using this
  have hn : pyInt (lines.length : ℝ) = (lines.length : ℤ) := pyInt_natCast _
  refine ⟨(List.range (rows.length - 1)).map (fun i : ℕ => dx * (i : ℝ)), rows, ?_, rfl, ?_, ?_⟩
  · unfold readSkfTable
    simp only [nextLine, h0, bind, Except.bind, Bool.false_eq_true, if_false, hn, Int.toNat_natCast]
    rw [List.take_left, mapM_of_map h]
    have hf : rows.filter (fun r => decide (0 < r.length)) = rows := by
      rw [List.filter_eq_self]
      intro r hr
      rw [hw r hr]
      simpa using hw0
    have hrect : rectangular rows = true :=
      (rectangular_iff hne (hw _ (List.head_mem hne))).mpr hw
    simp only [hf, hrect, if_true]
    rw [show ((lines.length : ℤ) - 1).toNat = rows.length - 1 by omega]
    rfl
  · have := List.length_pos_iff.mpr hne
    simp
    omega
  · intro h2
    rw [List.getElem?_map, List.getElem?_range (by omega)]
    simp

/-! ### Concrete cases -/

theorem splitChar_none {c : Char} {s : List Char} (h : c ∉ s) : splitChar c s = [s] := by
  induction s with
  | nil => rfl
  | cons d ds ih =>
    rw [List.mem_cons, not_or] at h
    rw [splitChar, if_neg (fun e => h.1 e.symm), ih h.2]

theorem parseDec_decStr (n : ℕ) : parseDec (decStr n) = some (n : ℝ) := by
  have hd := decStr_digitsValue n
  obtain ⟨c, cs, hs, h1, -⟩ := digits_head hd
  have hu : unsignedDec (decStr n) = some (n : ℝ) := by
    unfold unsignedDec
    rw [splitChar_none (decStr_no_dot n)]
    simp only [natOfStr_of_digits hd, Option.map_some]
  rw [hs] at hu ⊢
  unfold parseDec
  split
  · rename_i heq
    exact absurd (List.cons.inj heq).1 h1
  · exact hu

theorem parseDec_neg (n : ℕ) : parseDec ('-' :: decStr n) = some (-(n : ℝ)) := by
  have hd := decStr_digitsValue n
  have hu : unsignedDec (decStr n) = some (n : ℝ) := by
    unfold unsignedDec
    rw [splitChar_none (decStr_no_dot n)]
    simp only [natOfStr_of_digits hd, Option.map_some]
  simp only [parseDec, hu, Option.map_some]

/-- Formats that write whole numbers: entries are rounded down, grid step 2, mass 12. -/
theorem exSkfFormat : SkfFormat parseDec (fun v => fmtInt ⌊v⌋) (fun _ => "2".toList)
    (fun _ => "12".toList) (fun v => (⌊v⌋ : ℝ)) (fun _ => 12) 2 where
  entry := {
    zero := by
      have : parseDec "0.0".toList = some (((0 : ℕ) : ℝ) / 10 ^ 1) := rfl
      rw [this]
      norm_num
    rnd_zero := by simp
    shape := by
      intro v
      obtain ⟨pre, w, post, h1, h2, h3, h4, h5, h6, -⟩ := numFormat_int.shape ⌊v⌋
      have hd := decStr_digitsValue ⌊v⌋.natAbs
      by_cases hv : ⌊v⌋ < 0
      · refine ⟨[], '-' :: decStr ⌊v⌋.natAbs, "  ".toList, by simp [fmtInt, hv], by simp, by simp, ?_,
          by decide, by decide, ?_⟩
        · intro c hc
          rcases List.mem_cons.mp hc with rfl | hc
          · simp only [FSep, Blank]; decide
          · exact ⟨(digit_not_fsep hd c hc).1, digit_not_star hd c hc⟩
        · have e : dToE ('-' :: decStr ⌊v⌋.natAbs) = '-' :: decStr ⌊v⌋.natAbs := by
            rw [show '-' :: decStr ⌊v⌋.natAbs = ['-'] ++ decStr ⌊v⌋.natAbs from rfl, dToE_append,
              dToE_decStr]
            rfl
          rw [e, parseDec_neg]
          congr 1
          have : -((⌊v⌋.natAbs : ℕ) : ℤ) = ⌊v⌋ := by omega
          exact_mod_cast this
      · refine ⟨[' '], decStr ⌊v⌋.natAbs, "  ".toList, by simp [fmtInt, hv], by simp,
          decStr_ne_nil _, ?_, by decide, by decide, ?_⟩
        · intro c hc
          exact ⟨(digit_not_fsep hd c hc).1, digit_not_star hd c hc⟩
        · rw [dToE_decStr, parseDec_decStr]
          congr 1
          have : ((⌊v⌋.natAbs : ℕ) : ℤ) = ⌊v⌋ := by omega
          have h2 := congrArg (fun z : ℤ => (z : ℝ)) this
          simpa only [Int.cast_natCast] using h2 }
  one := by
    have : parseDec "1.0".toList = some (((10 : ℕ) : ℝ) / 10 ^ 1) := rfl
    rw [this]
    norm_num
  spline := rfl
  count := fun n => ⟨_, parseDec_decStr n⟩
  dx := ⟨by decide, by unfold FSep Blank; decide, by
    have : parseDec (dToE "2".toList) = some ((2 : ℕ) : ℝ) := rfl
    rw [this]
    norm_num⟩
  mass := fun m => ⟨by decide, by unfold FSep Blank; decide, by
    have : parseDec (dToE "12".toList) = some ((12 : ℕ) : ℝ) := rfl
    rw [this]
    norm_num⟩

/-- A table of one row at the distance 4 is read back at the distance 6. -/
example : ∃ xs hs, readHSSkf parseDec false (writeSkf (fun v => fmtInt ⌊v⌋) (fun _ => "2".toList)
      (fun _ => "12".toList) 12 [4, 6] [List.replicate 20 3] ++ []) = .ok (xs, hs) ∧
    hs[3]? = some ((List.replicate 20 (3 : ℝ)).map (fun v => (⌊v⌋ : ℝ))) ∧
    xs[3]? = some (((2 + 1 + 0 : ℕ) : ℝ) * 2) := by
  obtain ⟨xs, hs, h1, h2⟩ := c88_convert_fails exSkfFormat 12 (x := [4, 6]) (x0 := 4) rfl
    (by norm_num) (by norm_num) (by norm_num) [List.replicate 20 3]
    (by intro r hr; rw [List.mem_singleton.mp hr]; simp) (by simp)
    (by intro r hr; rw [List.mem_singleton.mp hr]; norm_num [List.getLast?_replicate])
    (rest := []) (Or.inl rfl)
  obtain ⟨k, k1, k2, k3, -, -⟩ := h2 0 (by simp)
  have hk : k = 2 + 1 + 0 := by
    rw [k2, show (4 : ℝ) / 2 = ((2 : ℕ) : ℝ) by norm_num, Nat.floor_natCast]
  subst hk
  exact ⟨xs, hs, h1, k1, k3⟩

/-- A table whose row ends with zero cannot be read back. -/
example : readHSSkf parseDec false (writeSkf (fun v => fmtInt ⌊v⌋) (fun _ => "2".toList)
      (fun _ => "12".toList) 12 [4, 6] [List.replicate 20 0] ++ []) = .error .valueError :=
  c88_unreadable_fails exSkfFormat 12 (x := [4, 6]) (x0 := 4) rfl (by norm_num) (by norm_num)
    [List.replicate 20 0] (by intro r hr; rw [List.mem_singleton.mp hr]; simp)
    ⟨_, List.mem_singleton.mpr rfl, by simp [List.getLast?_replicate]⟩ (Or.inl rfl)

/-- A file of one element: first line with three numbers, atomic data, mass line, one table line. -/
example : ∃ x hs, readHSSkf parseDec true ["2 1 7".toList, "atomic data".toList, "12 1".toList,
    "5 6".toList] = .ok (x, hs) ∧ x[1]? = some ((((0 : ℕ) : ℝ) + 1) * ((2 : ℕ) : ℝ)) ∧
    hs[1]? = some [((5 : ℕ) : ℝ), ((6 : ℕ) : ℝ)] := by
  obtain ⟨x, hs, h1, -, -, -, -, h2⟩ := c88_read (pf := parseDec) rfl (homo := true)
    (l0 := "2 1 7".toList) (le := "atomic data".toList) (lm := "12 1".toList)
    (lines := ["5 6".toList]) (rest := []) (m := [((12 : ℕ) : ℝ), ((1 : ℕ) : ℝ)])
    (rows := [[((5 : ℕ) : ℝ), ((6 : ℕ) : ℝ)]]) (dx := ((2 : ℕ) : ℝ)) (n := ((1 : ℕ) : ℝ))
    (v := [((7 : ℕ) : ℝ)]) (by simp) rfl rfl rfl (Or.inl rfl) (by simp)
  exact ⟨x, hs, h1, h2 0 (by simp)⟩

/-- The second reader on a file with two rows. -/
example : ∃ x t, readSkfTable parseDec false ["2 2".toList, "12 1".toList, "5 6".toList, "7 8".toList] =
    .ok (x, t) ∧ x.length + 1 = t.length := by
  obtain ⟨x, t, h1, -, h2, -⟩ := c88_second_reader_fails (pf := parseDec) (l0 := "2 2".toList)
    (lm := "12 1".toList) (lines := ["5 6".toList, "7 8".toList]) (rest := [])
    (rows := [[((5 : ℕ) : ℝ), ((6 : ℕ) : ℝ)], [((7 : ℕ) : ℝ), ((8 : ℕ) : ℝ)]]) (dx := ((2 : ℕ) : ℝ))
    rfl rfl (by simp) (w := 2) (by norm_num) (by simp)
  exact ⟨x, t, h1, h2⟩

end Hotbit
