import Verif.Model.Text
import Verif.Spec.Text
import Mathlib.Data.List.TakeWhile

/-!
# Lemmas about texts
-/

namespace Hotbit

theorem char_eq_of_toNat {c d : Char} (h : c.toNat = d.toNat) : c = d :=
  Char.ext (UInt32.toNat_inj.mp h)

theorem isWs_iff (c : Char) : isWs c = true ↔ Blank c := by
  have e : ∀ d : Char, c = d ↔ c.toNat = d.toNat := fun d => ⟨fun h => by rw [h], char_eq_of_toNat⟩
  simp only [isWs, Blank, Bool.or_eq_true, Bool.and_eq_true, decide_eq_true_eq, e]
  have h1 : ' '.toNat = 32 := rfl
  have h2 : '\t'.toNat = 9 := rfl
  have h3 : '\n'.toNat = 10 := rfl
  have h4 : '\r'.toNat = 13 := rfl
  rw [h1, h2, h3, h4]
  omega

theorem splitWsAux_blank {s : List Char} (h : ∀ c ∈ s, isWs c = true) (acc : List Char) :
    splitWsAux acc s = if acc = [] then [] else [acc] := by
  induction s generalizing acc with
  | nil => rfl
  | cons c cs ih =>
    rw [splitWsAux, if_pos (h c List.mem_cons_self),
      ih (fun d hd => h d (List.mem_cons_of_mem _ hd))]
    by_cases ha : acc = []
    · simp [ha]
    · simp [ha]

theorem splitWsAux_word {w : List Char} (h : ∀ c ∈ w, isWs c = false) (acc rest : List Char) :
    splitWsAux acc (w ++ rest) = splitWsAux (acc ++ w) rest := by
  induction w generalizing acc with
  | nil => simp
  | cons c cs ih =>
    rw [List.cons_append, splitWsAux, if_neg (by rw [h c List.mem_cons_self]; simp),
      ih (fun d hd => h d (List.mem_cons_of_mem _ hd)), List.append_assoc, List.singleton_append]

theorem splitWsAux_pre {p : List Char} (h : ∀ c ∈ p, isWs c = true) (rest : List Char) :
    splitWsAux [] (p ++ rest) = splitWsAux [] rest := by
  induction p with
  | nil => rfl
  | cons c cs ih =>
    rw [List.cons_append, splitWsAux, if_pos (h c List.mem_cons_self), if_pos rfl,
      ih (fun d hd => h d (List.mem_cons_of_mem _ hd))]

theorem splitWsAux_end {acc rest : List Char} (ha : acc ≠ [])
    (h : ∀ c, rest.head? = some c → isWs c = true) :
    splitWsAux acc rest = acc :: splitWsAux [] rest := by
  cases rest with
  | nil => simp [splitWsAux, ha]
  | cons c cs =>
    have hc := h c rfl
    rw [splitWsAux, if_pos hc, if_neg ha]
    conv_rhs => rw [splitWsAux, if_pos hc, if_pos rfl]

/-- Splitting after blanks and one word. -/
theorem splitWs_cons {pre w rest : List Char} (hp : ∀ c ∈ pre, isWs c = true) (hw : w ≠ [])
    (hn : ∀ c ∈ w, isWs c = false) (hr : ∀ c, rest.head? = some c → isWs c = true) :
    splitWs (pre ++ w ++ rest) = w :: splitWs rest := by
  unfold splitWs
  rw [List.append_assoc, splitWsAux_pre hp, splitWsAux_word hn, List.nil_append,
    splitWsAux_end hw hr]

theorem splitWs_blank {s : List Char} (h : ∀ c ∈ s, isWs c = true) : splitWs s = [] := by
  rw [splitWs, splitWsAux_blank h]; rfl

theorem isWs_false_iff (c : Char) : isWs c = false ↔ ¬ Blank c := by
  rw [← isWs_iff]; simp

theorem splitWs_of_isWords {s : List Char} {ws : List (List Char)} (h : IsWords s ws) :
    splitWs s = ws := by
  induction h with
  | blank s hs => exact splitWs_blank (fun c hc => (isWs_iff c).mpr (hs c hc))
  | word pre w rest ws hp hw hn hr _ ih =>
    rw [splitWs_cons (fun c hc => (isWs_iff c).mpr (hp c hc)) hw
      (fun c hc => (isWs_false_iff c).mpr (hn c hc)) (fun c hc => (isWs_iff c).mpr (hr c hc)), ih]

/-- Every text has words. -/
theorem isWords_total (s : List Char) : ∃ ws, IsWords s ws := by
  induction hn : s.length using Nat.strong_induction_on generalizing s with
  | _ n ih =>
    obtain hb | hb := Classical.em (∀ c ∈ s, Blank c)
    · exact ⟨[], .blank s hb⟩
    · push Not at hb
      have hs : s = s.takeWhile isWs ++ ((s.dropWhile isWs).takeWhile (fun c => !isWs c)) ++
          (s.dropWhile isWs).dropWhile (fun c => !isWs c) := by
        rw [List.append_assoc, List.takeWhile_append_dropWhile, List.takeWhile_append_dropWhile]
      have hd : s.dropWhile isWs ≠ [] := by
        intro h0
        obtain ⟨c, hc, hcb⟩ := hb
        have h1 : c ∈ s.takeWhile isWs := by
          have h2 := List.takeWhile_append_dropWhile (p := isWs) (l := s)
          rw [h0, List.append_nil] at h2
          rw [h2]; exact hc
        exact hcb ((isWs_iff c).mp (List.mem_takeWhile_imp h1))
      obtain ⟨d, ds, hdd⟩ := List.exists_cons_of_ne_nil hd
      have hdw : isWs d = false := by
        have h1 := List.head_dropWhile_not isWs hd
        simp only [hdd, List.head_cons] at h1
        exact h1
      have hw : (s.dropWhile isWs).takeWhile (fun c => !isWs c) ≠ [] := by
        rw [hdd, List.takeWhile_cons, hdw]
        simp
      obtain ⟨ws, hws⟩ := ih _ (by
        have h1 : s.length = (s.takeWhile isWs).length +
            ((s.dropWhile isWs).takeWhile (fun c => !isWs c)).length +
            ((s.dropWhile isWs).dropWhile (fun c => !isWs c)).length := by
          conv_lhs => rw [hs]
          simp only [List.length_append]
        have h2 := List.length_pos_iff.mpr hw
        rw [← hn]; omega) ((s.dropWhile isWs).dropWhile (fun c => !isWs c)) rfl
      refine ⟨(s.dropWhile isWs).takeWhile (fun c => !isWs c) :: ws, ?_⟩
      have key := IsWords.word (s.takeWhile isWs) _ _ ws (fun c hc => ?_) hw (fun c hc => ?_)
        (fun c hc => ?_) hws
      · rw [← hs] at key; exact key
      · exact (isWs_iff c).mp (List.mem_takeWhile_imp hc)
      · have := List.mem_takeWhile_imp hc
        simp only [Bool.not_eq_true'] at this
        exact (isWs_false_iff c).mp this
      · generalize hL : s.dropWhile isWs = L at hc
        have h3 : ∀ (l : List Char), (l.dropWhile (fun c => !isWs c)).head? = some c → isWs c = true := by
          intro l hl
          induction l with
          | nil => simp at hl
          | cons a l ihl =>
            rw [List.dropWhile_cons] at hl
            by_cases ha : isWs a = true
            · simp only [ha, Bool.not_true, Bool.false_eq_true, if_false, List.head?_cons,
                Option.some.injEq] at hl
              rw [← hl]; exact ha
            · simp only [Bool.not_eq_true] at ha
              simp only [ha, Bool.not_false, if_true] at hl
              exact ihl hl
        exact (isWs_iff c).mp (h3 L hc)

/-- The words are unique. -/
theorem isWords_iff (s : List Char) (ws : List (List Char)) : IsWords s ws ↔ splitWs s = ws := by
  constructor
  · exact splitWs_of_isWords
  · intro h
    obtain ⟨ws', h'⟩ := isWords_total s
    rw [splitWs_of_isWords h'] at h
    rw [← h]; exact h'

/-! ### Digits -/

theorem natOfStr_of_digits {s : List Char} {n : ℕ} (h : DigitsValue s n) : natOfStr s = some n := by
  obtain ⟨h0, h1, h2⟩ := h
  have h3 : ∀ c ∈ s, 48 ≤ c.toNat ∧ c.toNat ≤ 57 := by
    intro c hc
    obtain ⟨ha, hb⟩ := h1 c hc
    rw [Char.le_def, UInt32.le_iff_toNat_le] at ha hb
    exact ⟨ha, hb⟩
  rw [natOfStr, if_pos ⟨h0, h3⟩, h2, List.foldl_map]
  rfl

theorem digits_head {s : List Char} {n : ℕ} (h : DigitsValue s n) :
    ∃ c cs, s = c :: cs ∧ c ≠ '-' ∧ c ≠ '+' := by
  obtain ⟨h0, h1, -⟩ := h
  obtain ⟨c, cs, hs⟩ := List.exists_cons_of_ne_nil h0
  obtain ⟨ha, -⟩ := h1 c (by rw [hs]; exact List.mem_cons_self)
  refine ⟨c, cs, hs, ?_, ?_⟩
  · rintro rfl; exact absurd ha (by decide)
  · rintro rfl; exact absurd ha (by decide)

theorem intOfStr_of_digits {s : List Char} {n : ℕ} (h : DigitsValue s n) :
    intOfStr s = some (n : ℤ) := by
  obtain ⟨c, cs, hs, h1, h2⟩ := digits_head h
  have hn := natOfStr_of_digits h
  rw [hs] at hn ⊢
  unfold intOfStr
  split
  · rename_i heq; exact absurd (List.cons.inj heq).1 h1
  · rename_i heq; exact absurd (List.cons.inj heq).1 h2
  · rw [hn]; rfl

theorem digit_not_star {s : List Char} {n : ℕ} (h : DigitsValue s n) : ∀ c ∈ s, c ≠ '*' := by
  rintro c hc rfl
  exact absurd (h.2.1 _ hc).1 (by decide)

theorem digit_not_fsep {s : List Char} {n : ℕ} (h : DigitsValue s n) : ∀ c ∈ s, ¬ FSep c ∧ c ≠ 'd' := by
  intro c hc
  obtain ⟨ha, hb⟩ := h.2.1 c hc
  rw [Char.le_def, UInt32.le_iff_toNat_le] at ha hb
  have ha' : 48 ≤ c.toNat := ha
  have hb' : c.toNat ≤ 57 := hb
  refine ⟨?_, ?_⟩
  · rintro (h1 | rfl)
    · unfold Blank at h1; omega
    · exact absurd ha' (by decide)
  · rintro rfl
    exact absurd hb' (by decide)

/-! ### Fortran records -/

theorem fortranChar_sep {c : Char} : isWs (fortranChar c) = true ↔ FSep c := by
  unfold fortranChar FSep
  by_cases h1 : c = 'd'
  · subst h1
    rw [← isWs_iff]
    decide
  · by_cases h2 : c = ','
    · subst h2
      simp only [or_true, iff_true]
      decide
    · simp only [h1, if_false, h2, or_false]
      exact isWs_iff c

theorem fortranChar_word {c : Char} (h : c ≠ ',') : fortranChar c = if c = 'd' then 'e' else c := by
  unfold fortranChar
  by_cases h1 : c = 'd'
  · subst h1; rfl
  · simp [h1, h]

theorem map_fortranChar {w : List Char} (h : ∀ c ∈ w, ¬ FSep c) : w.map fortranChar = dToE w := by
  unfold dToE
  apply List.map_congr_left
  intro c hc
  apply fortranChar_word
  rintro rfl
  exact h _ hc (Or.inr rfl)

theorem fortranReadline_blank {α : Type} (pf : List Char → Option α) {s : List Char}
    (h : ∀ c ∈ s, FSep c) : fortranReadline pf s = .ok [] := by
  unfold fortranReadline
  rw [splitWs_blank]
  · rfl
  · intro c hc
    obtain ⟨d, hd, rfl⟩ := List.mem_map.mp hc
    exact fortranChar_sep.mpr (h d hd)

theorem foldlM_append_except {α : Type} (f : List Char → Except Exn (List α)) (es : List (List Char))
    (r : List α) :
    es.foldlM (fun r e => do let v ← f e; return r ++ v) r =
      (do let w ← es.foldlM (fun r e => do let v ← f e; return r ++ v) []; return r ++ w :
        Except Exn (List α)) := by
  induction es generalizing r with
  | nil => simp [pure, Except.pure, bind, Except.bind]
  | cons e es ih =>
    simp only [List.foldlM_cons]
    cases he : f e with
    | error x => rfl
    | ok v =>
      have h1 := ih (r ++ v)
      have h2 := ih v
      simp only [bind, Except.bind, pure, Except.pure, List.nil_append] at h1 h2 ⊢
      rw [h1, h2]
      split <;> simp

/-- Reading one more word at the front. -/
theorem fortranReadline_cons {α : Type} (pf : List Char → Option α) {pre w rest : List Char}
    (hp : ∀ c ∈ pre, FSep c) (hw : w ≠ []) (hn : ∀ c ∈ w, ¬ FSep c)
    (hr : ∀ c, rest.head? = some c → FSep c) {v : List α} (hv : fortranWord pf (dToE w) = .ok v)
    {vals : List α} (hrest : fortranReadline pf rest = .ok vals) :
    fortranReadline pf (pre ++ w ++ rest) = .ok (v ++ vals) := by
  unfold fortranReadline at hrest ⊢
  rw [List.map_append, List.map_append, splitWs_cons]
  · rw [List.foldlM_cons, map_fortranChar hn, hv]
    simp only [bind, Except.bind, pure, Except.pure, List.nil_append]
    have := foldlM_append_except (fortranWord pf) (splitWs (List.map fortranChar rest)) v
    simp only [bind, Except.bind, pure, Except.pure] at this hrest
    rw [this, hrest]
  · intro c hc
    obtain ⟨d, hd, rfl⟩ := List.mem_map.mp hc
    exact fortranChar_sep.mpr (hp d hd)
  · simpa using hw
  · intro c hc
    obtain ⟨d, hd, rfl⟩ := List.mem_map.mp hc
    have := hn d hd
    rw [← fortranChar_sep] at this
    simpa using this
  · intro c hc
    rw [List.head?_map] at hc
    obtain ⟨d, hd, rfl⟩ := Option.map_eq_some_iff.mp hc
    exact fortranChar_sep.mpr (hr d hd)

theorem takeWhile_before_star {m w : List Char} (h : ∀ c ∈ m, c ≠ '*') :
    (m ++ '*' :: w).takeWhile (· ≠ '*') = m ∧ ((m ++ '*' :: w).dropWhile (· ≠ '*')).tail = w := by
  induction m with
  | nil => simp
  | cons c cs ih =>
    obtain ⟨h1, h2⟩ := ih (fun d hd => h d (List.mem_cons_of_mem _ hd))
    have hc := h c List.mem_cons_self
    constructor
    · rw [List.cons_append, List.takeWhile_cons, if_pos (by simpa using hc), h1]
    · rw [List.cons_append, List.dropWhile_cons, if_pos (by simpa using hc), h2]

theorem dToE_append (a b : List Char) : dToE (a ++ b) = dToE a ++ dToE b := List.map_append

theorem fortranWord_one {α : Type} (pf : List Char → Option α) {w : List Char} {v : α}
    (h : ∀ c ∈ w, c ≠ '*') (hv : pf (dToE w) = some v) : fortranWord pf (dToE w) = .ok [v] := by
  have : '*' ∉ dToE w := by
    intro hm
    obtain ⟨c, hc, hcs⟩ := List.mem_map.mp hm
    split at hcs
    · exact absurd hcs (by decide)
    · exact h c hc hcs
  rw [fortranWord, if_neg this, conv, hv]
  rfl

theorem fortranWord_many {α : Type} (pf : List Char → Option α) {m w : List Char} {n : ℕ} {v : α}
    (hm : DigitsValue m n) (hv : pf (dToE w) = some v) :
    fortranWord pf (dToE (m ++ '*' :: w)) = .ok (List.replicate n v) := by
  have e1 : dToE (m ++ '*' :: w) = m ++ '*' :: dToE w := by
    rw [dToE_append]
    congr 1
    unfold dToE
    conv_rhs => rw [← List.map_id m]
    apply List.map_congr_left
    intro c hc
    rw [if_neg (digit_not_fsep hm c hc).2]
    rfl
  rw [e1, fortranWord, if_pos (by simp)]
  obtain ⟨h1, h2⟩ := takeWhile_before_star (w := dToE w) (digit_not_star hm)
  rw [h1, h2, intOfStr_of_digits hm, conv, hv]
  rfl

end Hotbit
