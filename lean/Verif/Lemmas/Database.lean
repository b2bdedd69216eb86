import Verif.Spec.Database
import Verif.Props.Helpers
import Mathlib.Tactic

/-!
# Lemmas for the search of parameter files
-/

namespace Hotbit

theorem symbol_chars {a : List Char} (h : IsElementName a) : ∀ c ∈ a, c ≠ '/' ∧ c ≠ '.' ∧ c ≠ '-' := by
  have hu : ∀ u : Char, u.isUpper = true ∨ u.isLower = true → u ≠ '/' ∧ u ≠ '.' ∧ u ≠ '-' := by
    intro u h
    refine ⟨?_, ?_, ?_⟩ <;> rintro rfl <;> revert h <;> decide
  obtain ⟨u, h1, rfl | ⟨l, h2, rfl⟩⟩ := h
  · intro c hc
    rw [List.mem_singleton.1 hc]
    exact hu u (.inl h1)
  · intro c hc
    simp only [List.mem_cons, List.not_mem_nil, or_false] at hc
    rcases hc with rfl | rfl
    · exact hu _ (.inl h1)
    · exact hu _ (.inr h2)

theorem symbol_length {a : List Char} (h : IsElementName a) : a.length = 1 ∨ a.length = 2 := by
  obtain ⟨u, h1, rfl | ⟨l, h2, rfl⟩⟩ := h <;> simp

theorem upper_ne_lower {c : Char} (h1 : c.isUpper = true) (h2 : c.isLower = true) : False := by
  simp only [Char.isUpper, Char.isLower, Bool.and_eq_true, decide_eq_true_eq, UInt32.le_iff_toNat_le] at h1 h2
  have a : 'Z'.val.toNat = 90 := rfl
  have b : 'a'.val.toNat = 97 := rfl
  omega

/-- Two symbols written one after the other can be told apart. -/
theorem symbols_append_inj {a b c d : List Char} (ha : IsElementName a) (hb : IsElementName b) (hc : IsElementName c)
    (hd : IsElementName d) (h : a ++ b = c ++ d) : a = c ∧ b = d := by
  obtain ⟨u, hu, rfl | ⟨l, hl, rfl⟩⟩ := ha <;> obtain ⟨v, hv, rfl | ⟨m, hm, rfl⟩⟩ := hc
  · simpa using h
  · obtain ⟨w, hw, rfl | ⟨n, hn, rfl⟩⟩ := hb
    · simp at h
      obtain ⟨rfl, rfl, h⟩ := h
      exact (upper_ne_lower hw hm).elim
    · simp at h
      obtain ⟨rfl, rfl, h⟩ := h
      exact (upper_ne_lower hw hm).elim
  · obtain ⟨w, hw, rfl | ⟨n, hn, rfl⟩⟩ := hd
    · simp at h
      obtain ⟨rfl, rfl, h⟩ := h
      exact (upper_ne_lower hw hl).elim
    · simp at h
      obtain ⟨rfl, rfl, h⟩ := h
      exact (upper_ne_lower hw hl).elim
  · simpa [and_assoc] using h

theorem pySlice_mid (x y z : List Char) (a b : ℤ) (ha : a = x.length) (hb : b = x.length + y.length) :
    pySlice (x ++ y ++ z) a b = y := by
  subst ha hb
  have h1 : sliceIndex (x ++ y ++ z).length (x.length : ℤ) = x.length := by
    unfold sliceIndex
    rw [if_neg (by omega)]
    simp
  have h2 : sliceIndex (x ++ y ++ z).length ((x.length : ℤ) + y.length) = (x ++ y).length := by
    unfold sliceIndex
    rw [if_neg (by omega)]
    simp
    omega
  rw [pySlice, h1, h2, List.take_left, List.drop_left]

/-- The slice of another element file with the indices of this one. -/
theorem pySlice_elm (p b : List Char) (n : ℕ) (hn : n ≤ b.length + 4) :
    pySlice (elmFile p b) ((p.length : ℤ) + 1) ((p.length : ℤ) + 1 + n) =
      (b ++ ['.', 'e', 'l', 'm']).take n := by
  have e : elmFile p b = (p ++ ['/']) ++ (b ++ ['.', 'e', 'l', 'm']).take n ++
      (b ++ ['.', 'e', 'l', 'm']).drop n := by
    rw [List.append_assoc, List.take_append_drop]
    simp [elmFile]
  rw [e]
  apply pySlice_mid
  · simp
  · rw [List.length_take]
    simp
    omega

theorem rfind_elm {p a : List Char} (ha : ∀ c ∈ a, c ≠ '/' ∧ c ≠ '.' ∧ c ≠ '-') :
    rfind '/' (elmFile p a) = p.length ∧ rfind '.' (elmFile p a) = p.length + 1 + a.length := by
  constructor
  · have : elmFile p a = p ++ '/' :: (a ++ ['.', 'e', 'l', 'm']) := by simp [elmFile]
    rw [this]
    apply rfind_append
    intro h
    rcases List.mem_append.1 h with h | h
    · exact (ha _ h).1 rfl
    · revert h; decide
  · have : elmFile p a = (p ++ '/' :: a) ++ '.' :: ['e', 'l', 'm'] := by simp [elmFile]
    rw [this, rfind_append]
    · simp; ring
    · decide

theorem tableStep_eq (fs : FileSystem) (a x p : List Char) (t : TextDict) :
    tableStep fs a x t p =
      match tableFor fs p a x with
      | some v => t.set (a ++ x) v
      | none => t := by
  unfold tableStep tableFor
  split_ifs <;> rfl

/-- Many table searches in one directory. -/
theorem tables_fold (fs : FileSystem) (p : List Char) (L : List (List Char × List Char))
    (hL : ∀ q ∈ L, q.1.length = q.2.length) (t : TextDict) :
    (∀ k, (∀ q ∈ L, q.1 ++ q.2 ≠ k) → L.foldl (fun t q => tableStep fs q.1 q.2 t p) t k = t k) ∧
    ∀ a x, a.length = x.length → ((a, x) ∈ L ∧ t (a ++ x) = none ∨ t (a ++ x) = tableFor fs p a x) →
      L.foldl (fun t q => tableStep fs q.1 q.2 t p) t (a ++ x) = tableFor fs p a x := by
  induction L generalizing t with
  | nil =>
    refine ⟨fun k _ => rfl, fun a x _ h => ?_⟩
    rcases h with ⟨h, -⟩ | h
    · simp at h
    · exact h
  | cons q L ih =>
    have hL' : ∀ q ∈ L, q.1.length = q.2.length := fun q hq => hL q (by simp [hq])
    obtain ⟨i1, i2⟩ := ih hL' (tableStep fs q.1 q.2 t p)
    constructor
    · intro k hk
      rw [List.foldl_cons, i1 k (fun r hr => hk r (by simp [hr])), tableStep_eq]
      cases tableFor fs p q.1 q.2 with
      | none => rfl
      | some v => exact Function.update_of_ne (Ne.symm (hk q (by simp))) _ _
    · intro a x hax h
      rw [List.foldl_cons]
      by_cases hq : q.1 ++ q.2 = a ++ x
      · have hlen : q.1.length = a.length := by
          have h1 := congrArg List.length hq
          have h2 := hL q (by simp)
          rw [List.length_append, List.length_append] at h1
          omega
        obtain ⟨e1, e2⟩ := List.append_inj hq hlen
        by_cases hnone : tableFor fs p a x = none ∧ t (a ++ x) = none
        · apply i2 a x hax
          right
          rw [tableStep_eq, e1, e2, hnone.1]
          exact hnone.2
        · apply i2 a x hax
          right
          rw [tableStep_eq, e1, e2]
          cases hv : tableFor fs p a x with
          | some v => exact Function.update_self _ _ _
          | none =>
            change t (a ++ x) = none
            rcases h with h | h
            · exact h.2
            · rw [h, hv]
      · apply i2 a x hax
        have hun : tableStep fs q.1 q.2 t p (a ++ x) = t (a ++ x) := by
          rw [tableStep_eq]
          cases tableFor fs p q.1 q.2 with
          | none => rfl
          | some v => exact Function.update_of_ne (Ne.symm hq) _ _
        rw [hun]
        rcases h with ⟨h1, h2⟩ | h
        · left
          refine ⟨?_, h2⟩
          rcases List.mem_cons.1 h1 with h3 | h3
          · exact absurd (by rw [← h3]) hq
          · exact h3
        · exact .inr h

/-- The loops over pairs of files as one loop over pairs. -/
theorem elm_fold (fs : FileSystem) (p : List Char) (fns : List (List Char))
    (key : List Char → List Char) (sl : List Char → List Char → List Char)
    (hkey : ∀ f ∈ fns, pySlice f (rfind '/' f + 1) (rfind '.' f) = key f)
    (hsl : ∀ f ∈ fns, ∀ g ∈ fns, pySlice g (rfind '/' f + 1) (rfind '.' f) = sl f g)
    (L : List (List Char)) (hL : ∀ f ∈ L, f ∈ fns) (s : TextDict × TextDict) :
    L.foldl (elmStep fs [p] fns) s =
      (L.foldl (fun d f => d.set (key f) f) s.1,
        (L.flatMap (fun f => fns.map (fun g => (key f, sl f g)))).foldl
          (fun t q => tableStep fs q.1 q.2 t p) s.2) := by
  induction L generalizing s with
  | nil => rfl
  | cons f L ih =>
    have hf : f ∈ fns := hL f (by simp)
    rw [List.foldl_cons, ih (fun g hg => hL g (by simp [hg])), List.flatMap_cons, List.foldl_append,
      List.foldl_cons]
    unfold elmStep
    simp only [hkey f hf]
    congr 2
    have : ∀ M : List (List Char), (∀ g ∈ M, g ∈ fns) → ∀ t, M.foldl (pairFileStep fs [p] f (key f)) t =
        (M.map (fun g => (key f, sl f g))).foldl (fun t q => tableStep fs q.1 q.2 t p) t := by
      intro M
      induction M with
      | nil => intro _ t; rfl
      | cons g M ihM =>
        intro hM t
        rw [List.foldl_cons, List.map_cons, List.foldl_cons, ← ihM (fun h hh => hM h (by simp [hh]))]
        unfold pairFileStep
        simp only [hsl f hf g (hM g (by simp)), List.foldl_cons, List.foldl_nil]
    exact this fns (fun g hg => hg) s.2

/-- A dictionary filled in a loop, when the key determines the value. -/
theorem dict_fold {β : Type} (L : List β) (key val : β → List Char)
    (hinj : ∀ f ∈ L, ∀ g ∈ L, key f = key g → val f = val g) (d : TextDict) :
    (∀ f ∈ L, L.foldl (fun d f => d.set (key f) (val f)) d (key f) = some (val f)) ∧
    ∀ k, (∀ f ∈ L, key f ≠ k) → L.foldl (fun d f => d.set (key f) (val f)) d k = d k := by
  induction L generalizing d with
  | nil => exact ⟨by simp, fun k _ => rfl⟩
  | cons f L ih =>
    obtain ⟨i1, i2⟩ := ih (fun a ha b hb => hinj a (by simp [ha]) b (by simp [hb])) (d.set (key f) (val f))
    constructor
    · intro g hg
      rw [List.foldl_cons]
      by_cases h : ∃ g' ∈ L, key g' = key g
      · obtain ⟨g', hg', e⟩ := h
        rw [← e, i1 g' hg', hinj g' (by simp [hg']) g hg e]
      · push Not at h
        rw [i2 _ h]
        rcases List.mem_cons.1 hg with rfl | hg
        · exact Function.update_self _ _ _
        · exact absurd rfl (h g hg)
    · intro k hk
      rw [List.foldl_cons, i2 k (fun g hg => hk g (by simp [hg]))]
      exact Function.update_of_ne (Ne.symm (hk f (by simp))) _ _

theorem skf_slices {p a b : List Char} (ha : ∀ c ∈ a, c ≠ '/' ∧ c ≠ '.' ∧ c ≠ '-')
    (hb : ∀ c ∈ b, c ≠ '/' ∧ c ≠ '.' ∧ c ≠ '-') :
    pySlice (skfFile p a b) (rfind '/' (skfFile p a b) + 1) (rfind '-' (skfFile p a b)) = a ∧
      pySlice (skfFile p a b) (rfind '-' (skfFile p a b) + 1) (rfind '.' (skfFile p a b)) = b := by
  have e1 : skfFile p a b = p ++ '/' :: (a ++ '-' :: b ++ ['.', 's', 'k', 'f']) := by simp [skfFile]
  have e2 : skfFile p a b = (p ++ '/' :: a) ++ '-' :: (b ++ ['.', 's', 'k', 'f']) := by simp [skfFile]
  have e3 : skfFile p a b = (p ++ '/' :: a ++ '-' :: b) ++ '.' :: ['s', 'k', 'f'] := by simp [skfFile]
  have r1 : rfind '/' (skfFile p a b) = p.length := by
    rw [e1]
    apply rfind_append
    intro h
    simp only [List.mem_append, List.mem_cons, List.not_mem_nil, or_false] at h
    rcases h with (h | h | h) | h | h | h | h
    · exact (ha _ h).1 rfl
    · revert h; decide
    · exact (hb _ h).1 rfl
    all_goals revert h; decide
  have r2 : rfind '-' (skfFile p a b) = (p ++ '/' :: a).length := by
    rw [e2]
    apply rfind_append
    intro h
    simp only [List.mem_append, List.mem_cons, List.not_mem_nil, or_false] at h
    rcases h with h | h | h | h | h
    · exact (hb _ h).2.2 rfl
    all_goals revert h; decide
  have r3 : rfind '.' (skfFile p a b) = (p ++ '/' :: a ++ '-' :: b).length := by
    rw [e3]
    apply rfind_append
    decide
  rw [r1, r2, r3]
  constructor
  · have : skfFile p a b = (p ++ ['/']) ++ a ++ ('-' :: b ++ ['.', 's', 'k', 'f']) := by simp [skfFile]
    rw [this]
    apply pySlice_mid <;> simp
    ring
  · have : skfFile p a b = (p ++ '/' :: a ++ ['-']) ++ b ++ ['.', 's', 'k', 'f'] := by simp [skfFile]
    rw [this]
    apply pySlice_mid <;> simp
    · ring
    · ring

end Hotbit
