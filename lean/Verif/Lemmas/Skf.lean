import Verif.Model.Skf
import Verif.Lemmas.Text
import Verif.Props.PairPotential

/-!
# Lemmas about `.skf` files
-/

namespace Hotbit

/-- Leading separators do not matter. -/
theorem fortranReadline_pre {α : Type} (pf : List Char → Option α) {pre : List Char}
    (hp : ∀ c ∈ pre, FSep c) (rest : List Char) :
    fortranReadline pf (pre ++ rest) = fortranReadline pf rest := by
  unfold fortranReadline splitWs
  rw [List.map_append, splitWsAux_pre]
  intro c hc
  obtain ⟨d, hd, rfl⟩ := List.mem_map.mp hc
  exact fortranChar_sep.mpr (hp d hd)

/-- The text `t` reads as the values `v`, whatever follows. -/
def Reads {α : Type} (pf : List Char → Option α) (t : List Char) (v : List α) : Prop :=
  ∀ rest vals, fortranReadline pf rest = .ok vals → fortranReadline pf (t ++ rest) = .ok (v ++ vals)

theorem Reads.nil {α : Type} (pf : List Char → Option α) : Reads pf [] ([] : List α) :=
  fun _ _ h => h

theorem Reads.append {α : Type} {pf : List Char → Option α} {t u : List Char} {v w : List α}
    (h1 : Reads pf t v) (h2 : Reads pf u w) : Reads pf (t ++ u) (v ++ w) := by
  intro rest vals h
  rw [List.append_assoc, List.append_assoc]
  exact h1 _ _ (h2 _ _ h)

theorem Reads.word {α : Type} {pf : List Char → Option α} {pre w post : List Char} {v : List α}
    (hp : ∀ c ∈ pre, FSep c) (hw : w ≠ []) (hn : ∀ c ∈ w, ¬ FSep c)
    (hq : post ≠ []) (hpost : ∀ c ∈ post, FSep c) (hv : fortranWord pf (dToE w) = .ok v) :
    Reads pf (pre ++ w ++ post) v := by
  intro rest vals h
  rw [List.append_assoc (pre ++ w)]
  refine fortranReadline_cons pf hp hw hn ?_ hv ?_
  · intro c hc
    obtain ⟨d, ds, hd⟩ := List.exists_cons_of_ne_nil hq
    rw [hd] at hc
    simp only [List.cons_append, List.head?_cons, Option.some.injEq] at hc
    rw [← hc]
    exact hpost d (by rw [hd]; exact List.mem_cons_self)
  · rw [fortranReadline_pre pf hpost]; exact h

theorem Reads.done {α : Type} {pf : List Char → Option α} {t : List Char} {v : List α}
    (h : Reads pf t v) {post : List Char} (hpost : ∀ c ∈ post, FSep c) :
    fortranReadline pf (t ++ post) = .ok v := by
  have := h post [] (fortranReadline_blank pf hpost)
  rw [List.append_nil] at this
  exact this

theorem decDigit_range {d : ℕ} (h : d < 10) : '0' ≤ decDigit d ∧ decDigit d ≤ '9' := by
  interval_cases d <;> decide

theorem decStr_digits (n : ℕ) : ∀ c ∈ decStr n, '0' ≤ c ∧ c ≤ '9' := by
  induction n using Nat.strong_induction_on with
  | _ n ih =>
    rw [decStr]
    split
    · rename_i h
      intro c hc
      rw [List.mem_singleton.mp hc]
      exact decDigit_range h
    · intro c hc
      rcases List.mem_append.mp hc with hc | hc
      · exact ih (n / 10) (by omega) c hc
      · rw [List.mem_singleton.mp hc]
        exact decDigit_range (Nat.mod_lt _ (by norm_num))

theorem decStr_ne_nil (n : ℕ) : decStr n ≠ [] := by
  rw [decStr]; split <;> simp

theorem decStr_digitsValue (n : ℕ) : DigitsValue (decStr n) n := by
  refine ⟨decStr_ne_nil n, decStr_digits n, ?_⟩
  conv_lhs => rw [← decVal_decStr n]
  rw [decVal, List.foldl_map]
  rfl

theorem fsep_space : FSep ' ' := Or.inl (Or.inl rfl)

theorem not_fsep_zero : ∀ c ∈ "0.0".toList, ¬ FSep c := by
  intro c hc
  simp only [FSep, Blank]
  have : c = '0' ∨ c = '.' := by
    have h : "0.0".toList = ['0', '.', '0'] := rfl
    rw [h] at hc
    simp only [List.mem_cons, List.not_mem_nil, or_false] at hc
    tauto
  rcases this with rfl | rfl <;> decide

/-- Reading the text for `n` zeros. -/
theorem reads_many {α : Type} {pf : List Char → Option α} {w post : List Char} {v : α} (n : ℕ)
    (hw : ∀ c ∈ w, ¬ FSep c) (hv : pf (dToE w) = some v) (hq : post ≠ [])
    (hpost : ∀ c ∈ post, FSep c) :
    Reads pf (decStr n ++ '*' :: w ++ post) (List.replicate n v) := by
  have h := Reads.word (pf := pf) (pre := []) (w := decStr n ++ '*' :: w) (post := post)
    (v := List.replicate n v) (by simp) (by simp) ?_ hq hpost
    (fortranWord_many pf (decStr_digitsValue n) hv)
  · simpa using h
  · intro c hc
    rcases List.mem_append.mp hc with hc | hc
    · exact (digit_not_fsep (decStr_digitsValue n) c hc).1
    · rcases List.mem_cons.mp hc with rfl | hc
      · simp only [FSep, Blank]; decide
      · exact hw c hc

theorem reads_zeros {α : Type} [Zero α] {pf : List Char → Option α}
    (h0 : pf "0.0".toList = some 0) (n : ℕ) : Reads pf (zerosText n) (List.replicate n (0 : α)) := by
  have := reads_many (pf := pf) (w := "0.0".toList) (post := [' ']) (v := (0 : α)) n not_fsep_zero
    (by exact h0) (by simp) (by intro c hc; rw [List.mem_singleton.mp hc]; exact fsep_space)
  have e : decStr n ++ '*' :: "0.0".toList ++ [' '] = zerosText n := by
    unfold zerosText
    rw [List.append_assoc]
    rfl
  rw [e] at this
  exact this

/-- The format of an entry can be read: the text is a word between blanks whose number is `rnd v`
(the rounding of the format). -/
structure NumFormat {α : Type} [Zero α] (fmt : α → List Char) (pf : List Char → Option α)
    (rnd : α → α) : Prop where
  zero : pf "0.0".toList = some 0
  rnd_zero : rnd 0 = 0
  shape : ∀ v, ∃ pre w post, fmt v = pre ++ w ++ post ∧ (∀ c ∈ pre, c = ' ') ∧ w ≠ [] ∧
    (∀ c ∈ w, ¬ FSep c ∧ c ≠ '*') ∧ post ≠ [] ∧ (∀ c ∈ post, c = ' ') ∧ pf (dToE w) = some (rnd v)

theorem NumFormat.reads {α : Type} [Zero α] {fmt : α → List Char} {pf : List Char → Option α}
    {rnd : α → α} (F : NumFormat fmt pf rnd) (v : α) : Reads pf (fmt v) [rnd v] := by
  obtain ⟨pre, w, post, h1, h2, h3, h4, h5, h6, h7⟩ := F.shape v
  rw [h1]
  exact Reads.word (fun c hc => by rw [h2 c hc]; exact fsep_space) h3 (fun c hc => (h4 c hc).1) h5
    (fun c hc => by rw [h6 c hc]; exact fsep_space) (fortranWord_one pf (fun c hc => (h4 c hc).2) h7)

section
variable {α : Type} [Zero α] [DecidableEq α] {fmt : α → List Char} {pf : List Char → Option α}
  {rnd : α → α}

/-- What the writer has done with the entries `done` of a row. -/
structure RowInv (pf : List Char → Option α) (rnd : α → α) (s : RowState) (done : List α) : Prop where
  pending : s.pending = if s.ct = 0 then [] else zerosText s.ct
  text : ∃ vals, Reads pf s.text vals ∧ done.map rnd = vals ++ List.replicate s.ct 0
  last : s.ct = 0 ↔ done.getLast? ≠ some 0

theorem zerosText_ne_nil (n : ℕ) : zerosText n ≠ [] := by
  unfold zerosText
  simp [decStr_ne_nil]

theorem rowInv_entry (F : NumFormat fmt pf rnd) {s : RowState} {done : List α}
    (h : RowInv pf rnd s done) (v : α) : RowInv pf rnd (writeEntry fmt s v) (done ++ [v]) := by
  obtain ⟨vals, hr, hm⟩ := h.text
  unfold writeEntry
  by_cases hv : v = 0
  · subst hv
    rw [if_pos rfl]
    refine ⟨by simp, ⟨vals, hr, ?_⟩, by simp⟩
    rw [List.map_append, hm, List.append_assoc]
    simp only [List.map_cons, List.map_nil, F.rnd_zero]
    rw [List.replicate_succ']
  · rw [if_neg hv]
    refine ⟨by simp, ⟨(done ++ [v]).map rnd, ?_, by simp⟩, by simp [hv]⟩
    rw [List.map_append, hm]
    refine Reads.append (Reads.append hr ?_) (F.reads v)
    rw [h.pending]
    split
    · rename_i hc
      rw [hc]
      exact Reads.nil pf
    · exact reads_zeros F.zero s.ct

theorem rowInv_fold (F : NumFormat fmt pf rnd) (row : List α) {s : RowState} {done : List α}
    (h : RowInv pf rnd s done) : RowInv pf rnd (row.foldl (writeEntry fmt) s) (done ++ row) := by
  induction row generalizing s done with
  | nil => simpa using h
  | cons v row ih =>
    rw [List.foldl_cons, show done ++ v :: row = (done ++ [v]) ++ row by simp]
    exact ih (rowInv_entry F h v)

theorem rowInv_start : RowInv pf rnd (⟨0, [], []⟩ : RowState) ([] : List α) :=
  ⟨by simp, ⟨[], Reads.nil pf, by simp⟩, by simp⟩

theorem fsep_newline : ∀ c ∈ ['\n'], FSep c := by
  intro c hc
  rw [List.mem_singleton.mp hc]
  exact Or.inl (by unfold Blank; decide)

/-- Reading back a row. -/
theorem read_writeRow (F : NumFormat fmt pf rnd) (row : List α) :
    fortranReadline pf (writeRow fmt ⟨0, [], []⟩ row).text =
      .ok (if row.getLast? = some 0 then row.map rnd ++ [0] else row.map rnd) ∧
    (writeRow fmt ⟨0, [], []⟩ row).ct = 0 ∧ (writeRow fmt ⟨0, [], []⟩ row).pending = [] := by
  have inv := rowInv_fold F row (rowInv_start (pf := pf) (rnd := rnd))
  rw [List.nil_append] at inv
  obtain ⟨vals, hr, hm⟩ := inv.text
  unfold writeRow
  simp only
  generalize row.foldl (writeEntry fmt) ⟨0, [], []⟩ = s at inv hr hm
  by_cases hc : s.ct = 0
  · have hp : s.pending = [] := by rw [inv.pending, if_pos hc]
    rw [if_neg (by simp [hp]), if_neg (inv.last.mp hc)]
    refine ⟨?_, hc, hp⟩
    rw [hc] at hm
    simp only [List.replicate_zero, List.append_nil] at hm
    rw [hm]
    exact hr.done fsep_newline
  · have hp : s.pending = zerosText s.ct := by rw [inv.pending, if_neg hc]
    have hl : row.getLast? = some 0 := by
      by_contra hl
      exact hc (inv.last.mpr hl)
    rw [if_pos (by rw [hp]; exact zerosText_ne_nil _), if_pos hl]
    refine ⟨?_, rfl, rfl⟩
    simp only
    rw [hl, hm, hp]
    have h1 := (hr.append (reads_zeros F.zero s.ct)).append (F.reads (0 : α))
    rw [F.rnd_zero] at h1
    exact h1.done fsep_newline

end

end Hotbit
