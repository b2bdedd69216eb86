import Verif.Model.Native
import Verif.Spec.KeyFile
import Mathlib.Tactic

/-!
# C89 and C92: on-site energies of the basis orbitals; the element data base
-/

namespace Hotbit

theorem digit_not_letter {n : Char} (h : n.isDigit = true) : n ≠ 's' ∧ n ≠ 'p' ∧ n ≠ 'd' := by
  refine ⟨?_, ?_, ?_⟩ <;> rintro rfl <;> simp [Char.isDigit] at h

/-- Membership of the three letters in a name of a shell. -/
theorem mem_shell {n l : Char} (h : n.isDigit = true) :
    ('s' ∈ [n, l] ↔ l = 's') ∧ ('p' ∈ [n, l] ↔ l = 'p') ∧ ('d' ∈ [n, l] ↔ l = 'd') := by
  obtain ⟨h1, h2, h3⟩ := digit_not_letter h
  simp [h1.symm, h2.symm, h3.symm, eq_comm]

theorem perm_three {α : Type} {l : List α} {x y z : α} (h : l.Perm [x, y, z]) :
    l = [x, y, z] ∨ l = [x, z, y] ∨ l = [y, x, z] ∨ l = [y, z, x] ∨ l = [z, x, y] ∨ l = [z, y, x] := by
  have := List.mem_permutations.2 h
  simp [List.permutations, List.permutationsAux, List.permutationsAux.rec, List.permutationsAux2] at this
  tauto

theorem perm_two {α : Type} {l : List α} {x y : α} (h : l.Perm [x, y]) : l = [x, y] ∨ l = [y, x] := by
  have := List.mem_permutations.2 h
  simp [List.permutations, List.permutationsAux, List.permutationsAux.rec, List.permutationsAux2] at this
  tauto

/-- The possible lists of shells. -/
theorem goodShells_cases {v : List (List Char)} (h : GoodShells v) :
    ∃ a b c : Char, a.isDigit = true ∧ b.isDigit = true ∧ c.isDigit = true ∧
      (v = [[a, 's']] ∨ v = [[a, 's'], [b, 'p']] ∨ v = [[b, 'p'], [a, 's']] ∨
        v = [[a, 's'], [b, 'p'], [c, 'd']] ∨ v = [[a, 's'], [c, 'd'], [b, 'p']] ∨
        v = [[b, 'p'], [a, 's'], [c, 'd']] ∨ v = [[b, 'p'], [c, 'd'], [a, 's']] ∨
        v = [[c, 'd'], [a, 's'], [b, 'p']] ∨ v = [[c, 'd'], [b, 'p'], [a, 's']]) := by
  obtain ⟨ls, hls, names, hperm, hall⟩ := h
  rcases hls with rfl | rfl | rfl
  · cases hall with
    | cons h1 hall =>
      cases hall
      obtain ⟨a, ha, rfl⟩ := h1
      exact ⟨a, a, a, ha, ha, ha, .inl (List.perm_singleton.1 hperm)⟩
  · cases hall with
    | cons h1 hall =>
      cases hall with
      | cons h2 hall =>
        cases hall
        obtain ⟨a, ha, rfl⟩ := h1
        obtain ⟨b, hb, rfl⟩ := h2
        refine ⟨a, b, b, ha, hb, hb, ?_⟩
        rcases perm_two hperm with h | h <;> simp [h]
  · cases hall with
    | cons h1 hall =>
      cases hall with
      | cons h2 hall =>
        cases hall with
        | cons h3 hall =>
          cases hall
          obtain ⟨a, ha, rfl⟩ := h1
          obtain ⟨b, hb, rfl⟩ := h2
          obtain ⟨c, hc, rfl⟩ := h3
          refine ⟨a, b, c, ha, hb, hc, ?_⟩
          rcases perm_three hperm with h | h | h | h | h | h <;> simp [h]

/-- Energies of the shells as one function. -/
theorem skf_shell {α : Type} (ed ep es : α) {n l : Char} (hn : n.isDigit = true) :
    skfEpsilon ed ep es [n, l] =
      if l = 's' then some es else if l = 'p' then some ep else if l = 'd' then some ed else none := by
  obtain ⟨h1, h2, h3⟩ := mem_shell (l := l) hn
  unfold skfEpsilon shellLetter
  simp only [h1, h2, h3]
  split_ifs <;> simp_all

/-- The list `s, p, p, p, d, …` matches. -/
theorem match_standard {α : Type} {v : List (List Char)} {eps : List Char → α} {E : List α}
    {a b c : Char} (ha : [a, 's'] ∈ v)
    (h : E = [eps [a, 's']] ∨
      (E = eps [a, 's'] :: List.replicate 3 (eps [b, 'p']) ∧ [b, 'p'] ∈ v) ∨
      (E = eps [a, 's'] :: (List.replicate 3 (eps [b, 'p']) ++ List.replicate 5 (eps [c, 'd'])) ∧
        [b, 'p'] ∈ v ∧ [c, 'd'] ∈ v)) :
    EnergiesMatch v eps (orbitalTypes E.length) E := by
  rcases h with rfl | ⟨rfl, hb⟩ | ⟨rfl, hb, hc⟩
  · refine ⟨by simp [orbitalTypes, orbitalNames, orbitalList], fun i h1 h2 => ?_⟩
    have : i = 0 := by simpa using h2
    subst this
    exact ⟨a, 's', ha, by simp [orbitalTypes, orbitalNames, orbitalList], by simp⟩
  · refine ⟨by simp [orbitalTypes, orbitalNames, orbitalList], fun i h1 h2 => ?_⟩
    simp at h2
    interval_cases i
    · exact ⟨a, 's', ha, by simp [orbitalTypes, orbitalNames, orbitalList], by simp⟩
    all_goals exact ⟨b, 'p', hb, by simp [orbitalTypes, orbitalNames, orbitalList], by simp⟩
  · refine ⟨by simp [orbitalTypes, orbitalNames, orbitalList], fun i h1 h2 => ?_⟩
    simp at h2
    interval_cases i
    · exact ⟨a, 's', ha, by simp [orbitalTypes, orbitalNames, orbitalList], by simp⟩
    iterate 3 exact ⟨b, 'p', hb, by simp [orbitalTypes, orbitalNames, orbitalList], by simp⟩
    all_goals exact ⟨c, 'd', hc, by simp [orbitalTypes, orbitalNames, orbitalList], by simp⟩

/-- **C89, skf files.**  For an element with s, sp or spd shells listed in any order the on-site
energies read from an skf file give every basis orbital the energy of its shell. -/
theorem c89_skf {α : Type} {ed ep es : α} {v : List (List Char)} (h : GoodShells v) :
    ∃ E, skfOnsite ed ep es v = .ok E ∧
      EnergiesMatch v (letterEnergy ed ep es) (orbitalTypes E.length) E := by
  obtain ⟨a, b, c, ha, hb, hc, h⟩ := goodShells_cases h
  obtain ⟨s1, s2, s3⟩ := mem_shell (l := 's') ha
  obtain ⟨p1, p2, p3⟩ := mem_shell (l := 'p') hb
  obtain ⟨d1, d2, d3⟩ := mem_shell (l := 'd') hc
  have ea := skf_shell ed ep es (l := 's') ha
  have eb := skf_shell ed ep es (l := 'p') hb
  have ec := skf_shell ed ep es (l := 'd') hc
  simp only [reduceIte] at ea eb ec
  norm_num at eb ec
  have E1 : ∀ v', v' = v → [a, 's'] ∈ v' → skfOnsite ed ep es v' = .ok [es] → ∃ E,
      skfOnsite ed ep es v = .ok E ∧ EnergiesMatch v (letterEnergy ed ep es) (orbitalTypes E.length) E := by
    rintro v' rfl hv hE
    exact ⟨_, hE, match_standard (a := a) (b := b) (c := c) hv (.inl rfl)⟩
  have E2 : ∀ v', v' = v → [a, 's'] ∈ v' → [b, 'p'] ∈ v' →
      skfOnsite ed ep es v' = .ok (es :: List.replicate 3 ep) → ∃ E,
      skfOnsite ed ep es v = .ok E ∧ EnergiesMatch v (letterEnergy ed ep es) (orbitalTypes E.length) E := by
    rintro v' rfl hv hv2 hE
    exact ⟨_, hE, match_standard (a := a) (b := b) (c := c) hv (.inr (.inl ⟨rfl, hv2⟩))⟩
  have E3 : ∀ v', v' = v → [a, 's'] ∈ v' → [b, 'p'] ∈ v' → [c, 'd'] ∈ v' →
      skfOnsite ed ep es v' = .ok (es :: (List.replicate 3 ep ++ List.replicate 5 ed)) → ∃ E,
      skfOnsite ed ep es v = .ok E ∧ EnergiesMatch v (letterEnergy ed ep es) (orbitalTypes E.length) E := by
    rintro v' rfl hv hv2 hv3 hE
    exact ⟨_, hE, match_standard (a := a) (b := b) (c := c) hv (.inr (.inr ⟨rfl, hv2, hv3⟩))⟩
  rcases h with h | h | h | h | h | h | h | h | h
  · refine E1 _ h.symm (by simp) ?_
    simp [skfOnsite, ea]
  iterate 2
    refine E2 _ h.symm (by simp) (by simp) ?_
    simp only [skfOnsite, List.foldlM, ea, eb, s1, p1, p2]
    rfl
  all_goals
    refine E3 _ h.symm (by simp) (by simp) (by simp) ?_
    simp only [skfOnsite, List.foldlM, ea, eb, ec, s1, p1, p2, d1, d2, d3]
    rfl

/-- **C89, elm files.**  If the data base lists the shells in the order s, p, d, the energies read
from an elm file match the basis orbitals.  (Missing for the full property: other orders, see
`c89_elm_fails`.) -/
theorem c89_elm_partial {α : Type} (eps : List Char → α) {v : List (List Char)} {a b c : Char}
    (ha : a.isDigit = true) (hb : b.isDigit = true) (hc : c.isDigit = true)
    (hv : v = [[a, 's']] ∨ v = [[a, 's'], [b, 'p']] ∨ v = [[a, 's'], [b, 'p'], [c, 'd']]) :
    ∃ E, elmOnsite eps v = .ok E ∧ EnergiesMatch v eps (orbitalTypes E.length) E := by
  obtain ⟨s1, s2, s3⟩ := mem_shell (l := 's') ha
  obtain ⟨p1, p2, p3⟩ := mem_shell (l := 'p') hb
  obtain ⟨d1, d2, d3⟩ := mem_shell (l := 'd') hc
  rcases hv with rfl | rfl | rfl
  · refine ⟨[eps [a, 's']], ?_, match_standard (a := a) (b := b) (c := c) (by simp) (.inl rfl)⟩
    simp only [elmOnsite, List.foldlM, s1]
    rfl
  · refine ⟨eps [a, 's'] :: List.replicate 3 (eps [b, 'p']), ?_,
      match_standard (a := a) (b := b) (c := c) (by simp) (.inr (.inl ⟨rfl, by simp⟩))⟩
    simp only [elmOnsite, List.foldlM, s1, p1, p2]
    rfl
  · refine ⟨eps [a, 's'] :: (List.replicate 3 (eps [b, 'p']) ++ List.replicate 5 (eps [c, 'd'])), ?_,
      match_standard (a := a) (b := b) (c := c) (by simp) (.inr (.inr ⟨rfl, by simp, by simp⟩))⟩
    simp only [elmOnsite, List.foldlM, s1, p1, p2, d1, d2, d3]
    rfl

/-- **C89 fails for elm files of elements whose d shell is listed first.**  The s orbital gets the
energy of the d shell, whenever it differs from those of the others. -/
theorem c89_elm_fails {α : Type} (eps : List Char → α) {a b c : Char}
    (ha : a.isDigit = true) (hb : b.isDigit = true) (hc : c.isDigit = true)
    (hne : eps [c, 'd'] ≠ eps [a, 's']) :
    ∃ E, elmOnsite eps [[c, 'd'], [a, 's'], [b, 'p']] = .ok E ∧
      (orbitalTypes E.length)[0]? = some ['s'] ∧ E[0]? = some (eps [c, 'd']) ∧
      ¬ EnergiesMatch [[c, 'd'], [a, 's'], [b, 'p']] eps (orbitalTypes E.length) E := by
  obtain ⟨s1, s2, s3⟩ := mem_shell (l := 's') ha
  obtain ⟨p1, p2, p3⟩ := mem_shell (l := 'p') hb
  obtain ⟨d1, d2, d3⟩ := mem_shell (l := 'd') hc
  refine ⟨List.replicate 5 (eps [c, 'd']) ++ [eps [a, 's']] ++ List.replicate 3 (eps [b, 'p']),
    ?_, ?_, ?_, ?_⟩
  · simp only [elmOnsite, List.foldlM, s1, p1, p2, d1, d2, d3]
    rfl
  · simp [orbitalTypes, orbitalNames, orbitalList]
  · simp
  · rintro ⟨-, h⟩
    obtain ⟨n, l, hmem, ht, he⟩ := h 0 (by simp [orbitalTypes, orbitalNames, orbitalList]) (by simp)
    simp [orbitalTypes, orbitalNames, orbitalList] at ht
    subst ht
    simp at hmem he
    subst hmem
    exact hne he

/-- What is claimed of an entry of the data base in `c89_database`. -/
def ElmVerdict (p : String × List String) : Prop :=
    (p.1 ∈ ["Ti", "Fe", "Ni"] → ∀ eps : List Char → ℝ, eps "3d".toList ≠ eps "4s".toList →
      ∃ E, elmOnsite eps (p.2.map String.toList) = .ok E ∧
        ¬ EnergiesMatch (p.2.map String.toList) eps (orbitalTypes E.length) E) ∧
    (p.1 ∉ ["Ti", "Fe", "Ni"] → ∀ eps : List Char → ℝ,
      ∃ E, elmOnsite eps (p.2.map String.toList) = .ok E ∧
        EnergiesMatch (p.2.map String.toList) eps (orbitalTypes E.length) E)

theorem elmVerdict_wrong (p : String × List String) (h1 : p.2 = ["3d", "4s", "4p"])
    (h2 : p.1 ∈ ["Ti", "Fe", "Ni"]) : ElmVerdict p := by
  refine ⟨fun _ eps hne => ?_, fun h => absurd h2 h⟩
  obtain ⟨E, h3, -, -, h4⟩ := c89_elm_fails eps (a := '4') (b := '4') (c := '3') rfl rfl rfl hne
  rw [h1]
  exact ⟨E, h3, h4⟩

theorem elmVerdict_right (p : String × List String) (a b c : Char) (ha : a.isDigit = true)
    (hb : b.isDigit = true) (hc : c.isDigit = true) (hn : p.1 ∉ ["Ti", "Fe", "Ni"])
    (hv : p.2.map String.toList = [[a, 's']] ∨ p.2.map String.toList = [[a, 's'], [b, 'p']] ∨
        p.2.map String.toList = [[a, 's'], [b, 'p'], [c, 'd']]) : ElmVerdict p :=
  ⟨fun h => absurd h hn, fun _ eps => c89_elm_partial eps ha hb hc hv⟩

/-- **C89 for the data base.**  The elements for which the energies of an elm file are attached to
wrong orbitals are titanium, iron and nickel; for all others they match. -/
theorem c89_database : ∀ p ∈ valenceOrbitals, p.2 ≠ [] →
    (p.1 ∈ ["Ti", "Fe", "Ni"] → ∀ eps : List Char → ℝ, eps "3d".toList ≠ eps "4s".toList →
      ∃ E, elmOnsite eps (p.2.map String.toList) = .ok E ∧
        ¬ EnergiesMatch (p.2.map String.toList) eps (orbitalTypes E.length) E) ∧
    (p.1 ∉ ["Ti", "Fe", "Ni"] → ∀ eps : List Char → ℝ,
      ∃ E, elmOnsite eps (p.2.map String.toList) = .ok E ∧
        EnergiesMatch (p.2.map String.toList) eps (orbitalTypes E.length) E) := by
  change ∀ p ∈ valenceOrbitals, p.2 ≠ [] → ElmVerdict p
  rw [valenceOrbitals]
  simp only [List.forall_mem_cons]
  refine ⟨?_, ?_, ?_, ?_, ?_, ?_, ?_, ?_, ?_, ?_, ?_, ?_, ?_, ?_, ?_, ?_, ?_, ?_, ?_, ?_, ?_, ?_, ?_,
    ?_, ?_, ?_, ?_, ?_, ?_, by simp⟩
  all_goals intro hne
  all_goals first
    | exact absurd rfl hne
    | exact elmVerdict_wrong _ rfl (by decide)
    | exact elmVerdict_right _ '1' '2' '3' rfl rfl rfl (by decide) (.inl rfl)
    | exact elmVerdict_right _ '2' '2' '3' rfl rfl rfl (by decide) (.inr (.inl rfl))
    | exact elmVerdict_right _ '3' '3' '3' rfl rfl rfl (by decide) (.inr (.inl rfl))
    | exact elmVerdict_right _ '4' '4' '3' rfl rfl rfl (by decide) (.inr (.inl rfl))
    | exact elmVerdict_right _ '5' '5' '3' rfl rfl rfl (by decide) (.inr (.inl rfl))
    | exact elmVerdict_right _ '5' '5' '4' rfl rfl rfl (by decide) (.inr (.inr rfl))
    | exact elmVerdict_right _ '6' '6' '5' rfl rfl rfl (by decide) (.inr (.inr rfl))

/-- `c89_skf` applies to titanium, whose shells are listed as 3d, 4s, 4p. -/
example : GoodShells ["3d".toList, "4s".toList, "4p".toList] := by
  refine ⟨['s', 'p', 'd'], .inr (.inr rfl), ["4s".toList, "4p".toList, "3d".toList], by decide, ?_⟩
  refine .cons ⟨'4', rfl, rfl⟩ (.cons ⟨'4', rfl, rfl⟩ (.cons ⟨'3', rfl, rfl⟩ .nil))

/-! ### C92: the data base -/

/-- How many electrons fit into a shell. -/
def shellCapacity (o : String) : ℕ :=
  if 's' ∈ o.toList then 2 else if 'p' ∈ o.toList then 6 else if 'd' ∈ o.toList then 10 else 14

/-- The claims of `c92_database` for one entry, as a computation. -/
def checkEntry (p : String × List (String × ℕ)) : Bool :=
  decide (p.2.map Prod.fst).Nodup && decide (nuclearCharge.lookup p.1 = some (p.2.map Prod.snd).sum) &&
    p.2.all (fun q => decide (q.2 ≤ shellCapacity q.1)) &&
    match valenceOrbitals.lookup p.1 with
    | none => false
    | some v => decide v.Nodup && match valenceNumber p.2 v with
      | .error _ => false
      | .ok n => n == ((p.2.filter (fun q => q.1 ∈ v)).map Prod.snd).sum

theorem checkEntry_sound {p : String × List (String × ℕ)} (h : checkEntry p = true) :
    (p.2.map Prod.fst).Nodup ∧ nuclearCharge.lookup p.1 = some (p.2.map Prod.snd).sum ∧
      (∀ q ∈ p.2, q.2 ≤ shellCapacity q.1) ∧
      ∃ v n, valenceOrbitals.lookup p.1 = some v ∧ v.Nodup ∧ valenceNumber p.2 v = .ok n ∧
        n = ((p.2.filter (fun q => q.1 ∈ v)).map Prod.snd).sum := by
  unfold checkEntry at h
  simp only [Bool.and_eq_true, decide_eq_true_eq, List.all_eq_true] at h
  obtain ⟨⟨⟨h1, h2⟩, h3⟩, h4⟩ := h
  refine ⟨h1, h2, h3, ?_⟩
  split at h4
  · simp at h4
  · rename_i v hv
    simp only [Bool.and_eq_true, decide_eq_true_eq] at h4
    obtain ⟨h5, h6⟩ := h4
    split at h6
    · simp at h6
    · rename_i n hn
      exact ⟨v, n, hv, h5, hn, by simpa using h6⟩

/-- **C92.**  The configurations of the data base are made without `KeyError`; for every element the
occupations add up to the nuclear charge, no shell is overfull, the valence orbitals are among the
occupied or listed shells, and the number of valence electrons is that of the shells outside the
listed core shells. -/
theorem c92_database : ∃ cs, buildConfigs configAux [] = .ok cs ∧ cs.map Prod.fst = configAux.map Prod.fst ∧
    ∀ p ∈ cs, (p.2.map Prod.fst).Nodup ∧ nuclearCharge.lookup p.1 = some (p.2.map Prod.snd).sum ∧
      (∀ q ∈ p.2, q.2 ≤ shellCapacity q.1) ∧
      ∃ v n, valenceOrbitals.lookup p.1 = some v ∧ v.Nodup ∧ valenceNumber p.2 v = .ok n ∧
        n = ((p.2.filter (fun q => q.1 ∈ v)).map Prod.snd).sum := by
  have h : (match buildConfigs configAux [] with
      | .error _ => false
      | .ok cs => decide (cs.map Prod.fst = configAux.map Prod.fst) && cs.all checkEntry) = true := by
    decide +kernel
  split at h
  · simp at h
  · rename_i cs hcs
    simp only [Bool.and_eq_true, decide_eq_true_eq, List.all_eq_true] at h
    exact ⟨cs, hcs, h.1, fun p hp => checkEntry_sound (h.2 p hp)⟩

end Hotbit
