import Verif.Lemmas.ElementFiles

/-!
# C123: the element data come from the files the user named, in the directory given to the calculator

`c123_symbol`: which element a file name stands for; `c123_choice`, `c123_accepted`, `c123_refused`:
which file is read for each element, and when the calculation is refused; `c123_own_partial`: the data
belong to the element; `c123_directory`, `c123_own_directory_partial`: the directory.  What fails:
another element's file is accepted (`c123_wrong_element_fails`), the extension cannot be left out
(`c123_extension_fails`), objects cannot be given (`c123_object_fails`), and the directory is that of the
calculator made last (`c123_directory_fails`).
-/

namespace Hotbit

/-- The element meant by a file name: a base name starting with a symbol that is not followed by a
further lower case letter stands for that element, whatever the directory; a name without a dot is a
symbol, read from `symbol.elm`. -/
theorem c123_symbol (dir s tail : List Char) (hs : IsElmSymbol s) (ht : '/' ∉ tail) (hd : '.' ∈ tail)
    (hl : s.length = 1 → ∀ c ∈ tail.head?, c.isLower = false) :
    elmSymbol (dir ++ '/' :: (s ++ tail)) = .ok (s, dir ++ '/' :: (s ++ tail)) ∧
    elmSymbol (s ++ tail) = .ok (s, s ++ tail) := by
  have key : ∀ name : List Char, '.' ∈ name → baseName name = s ++ tail →
      elmSymbol name = .ok (s, name) := by
    intro name hn hb
    unfold elmSymbol
    rw [if_pos hn, hb]
    rcases hs with ⟨c, rfl, _⟩ | ⟨c, d, rfl, _, _, hdl⟩
    · cases tail with
      | nil => simp at hd
      | cons t l =>
        have : t.isLower = false := hl rfl t (by simp)
        simp [this]
    · simp [hdl]
  have hno : '/' ∉ s ++ tail := by
    rw [List.mem_append]
    rintro (h | h)
    · rcases hs with ⟨c, rfl, hc, _⟩ | ⟨c, d, rfl, hc, _, hdl⟩
      · exact hc (List.mem_singleton.1 h).symm
      · rcases List.mem_cons.1 h with h | h
        · exact hc h.symm
        · rw [← List.mem_singleton.1 h] at hdl
          revert hdl; decide
    · exact ht h
  refine ⟨key _ ?_ (baseName_append dir _ hno), key _ ?_ (baseName_none _ hno)⟩
  · simp [hd]
  · simp [hd]

/-- A bare symbol. -/
theorem c123_bare (s : List Char) (h : '.' ∉ s) : elmSymbol s = .ok (s, s ++ elmExt) := by
  unfold elmSymbol
  rw [if_neg h]

/-- The readers accept symbols of the data base only, and these have no slash. -/
theorem c123_reader (pf : List Char → Option ℝ) (file : List (List Char)) (s : List Char) (d)
    (h : readElementElm pf file s ((valenceOrbitals.lookup (String.ofList s)).map
      (·.map String.toList)) = .ok d) : '/' ∉ s := by
  cases hv : valenceOrbitals.lookup (String.ofList s) with
  | none =>
    exfalso
    rw [hv] at h
    unfold readElementElm at h
    simp only [Option.map_none, Bind.bind, Except.bind] at h
    generalize findValue pf file "symbol".toList .default none = m at h
    cases m with
    | error x => simp at h
    | ok y =>
      cases y with
      | str t =>
        simp only at h
        by_cases ht : stripWs t ≠ s
        · rw [if_pos ht] at h; simp [throw, throwThe, MonadExceptOf.throw] at h
        · rw [if_neg ht] at h; simp [throw, throwThe, MonadExceptOf.throw, pure, Except.pure] at h
      | _ => simp [throw, throwThe, MonadExceptOf.throw] at h
  | some v =>
    have hmem : String.ofList s ∈ valenceOrbitals.map Prod.fst := by
      have : ∀ l : List (String × List String), l.lookup (String.ofList s) = some v →
          String.ofList s ∈ l.map Prod.fst := by
        intro l
        induction l with
        | nil => simp
        | cons a l ih =>
          obtain ⟨k, w⟩ := a
          rw [List.lookup_cons]
          by_cases hk : String.ofList s = k
          · intro _; rw [hk]; exact List.mem_cons_self
          · intro hh
            have : (String.ofList s == k) = false := by simpa using hk
            rw [this] at hh
            exact List.mem_cons_of_mem _ (ih hh)
      exact this _ hv
    intro hsl
    have hall : ∀ k ∈ valenceOrbitals.map Prod.fst, '/' ∉ k.toList := by
      decide
    refine hall _ hmem ?_
    rw [String.toList_ofList]; exact hsl

/-- Each element present is read once, from the file the user named for it, or else from
`symbol.elm` in the default directory; all files named exist. -/
theorem c123_choice {ρ : Type} (W : ElmWorld ρ) (hS : W.Sane)
    (E : Option (List (List Char × ElmVal ρ))) (hk : UniqueKeys E) (symbols : List (List Char)) (L)
    (h : elementsInit W E symbols = .ok L) :
    CustomsExist W E ∧ (L.map Prod.fst).Nodup ∧ (∀ s, s ∈ L.map Prod.fst ↔ s ∈ symbols) ∧
    ∀ s X, (s, X) ∈ L → ∃ F, ElmFileFor W E s F ∧ X.file = F ∧
      elmSymbol F = .ok (X.symbol, F) ∧ W.read F X.symbol = .ok X.data := by
  unfold elementsInit at h
  simp only [Bind.bind, Except.bind] at h
  cases hf : elmFiles W E symbols with
  | error x => rw [hf] at h; simp at h
  | ok f =>
    rw [hf] at h
    simp only at h
    obtain ⟨h1, h2⟩ := elmFiles_ok W E symbols hk f hf
    obtain ⟨h3, h4⟩ := mapM_elmLoad_ok W f _ L h
    obtain ⟨h5, h6⟩ := presentSymbols_spec symbols
    refine ⟨h1, h3 ▸ h5, fun s => by rw [h3, h6], fun s X hX => ?_⟩
    have hs : s ∈ symbols := by
      rw [← h6, ← h3]; exact List.mem_map.2 ⟨_, hX, rfl⟩
    obtain ⟨F, hF, hl⟩ := h4 s X hX
    have hfor := (h2 s hs).1 F hF
    have hfile : W.isfile F = true ∧ ('.' ∉ F → '/' ∈ F) := by
      rcases hfor with ⟨p, _, rfl, hp⟩ | ⟨_, _, dir, _, hFd, hp⟩
      · obtain ⟨q, hq⟩ := hS.abs p hp
        exact ⟨hS.same p hp, fun _ => by rw [hq]; exact List.mem_cons_self⟩
      · refine ⟨hp, fun hn => absurd ?_ hn⟩
        rw [hFd]
        unfold joinPath elmExt
        split <;> simp
    obtain ⟨_, h7, h8, h9⟩ := loadElement_ok W hS F X hfile.1 hfile.2 hl
    exact ⟨F, hfor, h7, h8, h9⟩

/-- Conversely the calculation is accepted if all files exist and can be read. -/
theorem c123_accepted {ρ : Type} (W : ElmWorld ρ) (hS : W.Sane)
    (E : Option (List (List Char × ElmVal ρ))) (hk : UniqueKeys E) (symbols : List (List Char))
    (hc : CustomsExist W E)
    (h : ∀ s ∈ symbols, ∃ F sy d, ElmFileFor W E s F ∧ elmSymbol F = .ok (sy, F) ∧
      W.read F sy = .ok d) :
    ∃ L, elementsInit W E symbols = .ok L := by
  obtain ⟨f, hf⟩ := elmFiles_of W E symbols hk hc fun s hs => by
    obtain ⟨F, _, _, hF, _⟩ := h s hs
    exact ⟨F, hF⟩
  obtain ⟨_, h2⟩ := elmFiles_ok W E symbols hk f hf
  unfold elementsInit
  simp only [Bind.bind, Except.bind, hf]
  refine mapM_elmLoad_of W f _ fun s hs => ?_
  have hs' := ((presentSymbols_spec symbols).2 s).1 hs
  obtain ⟨F, sy, d, hF, hsy, hr⟩ := h s hs'
  cases hfs : f s with
  | none =>
    exfalso
    obtain ⟨hn, hna⟩ := (h2 s hs').2 hfs
    rcases hF with ⟨p, ⟨D, hD, hne, hm⟩, _⟩ | ⟨_, hra, _⟩
    · exact hne (hn D hD _ hm)
    · exact hna hra
  | some G =>
    have hG := (h2 s hs').1 G hfs
    have hGF := ElmFileFor_unique W E hk s G F hG hF
    subst hGF
    have hfile : W.isfile G = true := by
      rcases hF with ⟨p, _, rfl, hp⟩ | ⟨_, _, dir, _, _, hp⟩
      · exact hS.same p hp
      · exact hp
    exact ⟨G, _, rfl, loadElement_of W G sy d hfile hsy hr⟩

/-- Refusals: a named file that does not exist; an element without a file when the rest is not
default; a default file that does not exist. -/
theorem c123_refused {ρ : Type} (W : ElmWorld ρ) (E : Option (List (List Char × ElmVal ρ)))
    (hk : UniqueKeys E) (symbols : List (List Char)) :
    ((∀ D, E = some D → ∀ s v, (s, v) ∈ D → s ≠ restKey → ∃ p, v = .path p) → ¬ CustomsExist W E →
      elementsInit W E symbols = .error .runtimeError) ∧
    (∀ s t, symbols = s :: t → CustomsExist W E → notCustomElm E s → ¬ restAllowed E →
      elementsInit W E symbols = .error .keyError) ∧
    (∀ dir, W.params = some dir → CustomsExist W E → restAllowed E →
      (∃ s ∈ symbols, notCustomElm E s ∧ W.isfile (joinPath dir (s ++ elmExt)) = false) →
      elementsInit W E symbols = .error .runtimeError) := by
  refine ⟨?_, ?_, ?_⟩
  · intro hp hc
    cases E with
    | none => exact absurd (fun D hD => by simp at hD) hc
    | some D =>
      have : ∀ (D : List (List Char × ElmVal ρ)) (f0 : List Char → Option (List Char)),
          (∀ s v, (s, v) ∈ D → s ≠ restKey → ∃ p, v = .path p) →
          (∃ s v, (s, v) ∈ D ∧ s ≠ restKey ∧ ∀ p, v = ElmVal.path p → W.isfile p = false) →
          D.foldlM (elmCustomStep W) f0 = .error .runtimeError := by
        intro D
        induction D with
        | nil => rintro f0 _ ⟨s, v, hm, _⟩; simp at hm
        | cons a D ih =>
          intro f0 hp ⟨s, v, hm, hne, hv⟩
          obtain ⟨k, w⟩ := a
          rw [List.foldlM_cons]
          have htail : ∀ s v, (s, v) ∈ D → s ≠ restKey → ∃ p, v = .path p :=
            fun s v hm => hp s v (List.mem_cons_of_mem _ hm)
          by_cases hkr : k = restKey
          · simp only [elmCustomStep, if_pos hkr, Bind.bind, Except.bind]
            refine ih _ htail ⟨s, v, ?_, hne, hv⟩
            rcases List.mem_cons.1 hm with hm | hm
            · exact absurd ((congrArg Prod.fst hm).trans hkr) hne
            · exact hm
          · obtain ⟨q, rfl⟩ := hp k w List.mem_cons_self hkr
            by_cases hq : W.isfile q = true
            · simp only [elmCustomStep, if_neg hkr, hq, if_true, Bind.bind, Except.bind]
              refine ih _ htail ⟨s, v, ?_, hne, hv⟩
              rcases List.mem_cons.1 hm with hm | hm
              · have := hv q (congrArg Prod.snd hm)
                rw [hq] at this; simp at this
              · exact hm
            · simp [elmCustomStep, hkr, hq, Bind.bind, Except.bind]
      have hbad : ∃ s v, (s, v) ∈ D ∧ s ≠ restKey ∧ ∀ p, v = ElmVal.path p → W.isfile p = false := by
        by_contra hno
        refine hc fun D' hD' s v hm hne => ?_
        have hD' := Option.some.inj hD'
        subst hD'
        obtain ⟨p, rfl⟩ := hp D rfl s v hm hne
        refine ⟨p, rfl, ?_⟩
        by_contra hf
        refine hno ⟨s, _, hm, hne, fun q hq => ?_⟩
        have := ElmVal.path.inj hq
        subst this
        simpa using hf
      simp only [elementsInit, elmFiles, this D _ (hp D rfl) hbad, Bind.bind, Except.bind]
  · intro s t hst hc hn hna
    cases E with
    | none => exact absurd (fun D hD => by simp at hD) hna
    | some D =>
      obtain ⟨f0, h0⟩ := elmCustom_ok W D (fun _ => none) (hc D rfl)
      have hr : ¬ restIsDefault D = true := by
        intro hr
        refine hna fun D' hD' => ?_
        have hD' := Option.some.inj hD'
        subst hD'
        exact (restIsDefault_iff D).1 hr
      have hf0 : f0 s = none := by
        refine (elmCustom_fold W D _ (hk D rfl) f0 h0).2 s ?_
        by_cases hsr : s = restKey
        · exact Or.inl hsr
        · exact Or.inr fun v hv => hsr (hn D rfl v hv)
      have hpres : ∃ l, presentSymbols symbols = s :: l := by
        have hfold : ∀ (t l : List (List Char)), ∃ l', t.foldl
            (fun l s => if s ∈ l then l else l ++ [s]) (s :: l) = s :: l' := by
          intro t
          induction t with
          | nil => exact fun l => ⟨l, rfl⟩
          | cons a t ih =>
            intro l
            rw [List.foldl_cons]
            by_cases ha : a ∈ s :: l
            · rw [if_pos ha]; exact ih l
            · rw [if_neg ha]; exact ih (l ++ [a])
        obtain ⟨l', hl'⟩ := hfold t []
        exact ⟨l', by rw [hst]; exact hl'⟩
      obtain ⟨l, hl⟩ := hpres
      simp only [elementsInit, elmFiles, h0, Bind.bind, Except.bind, if_neg hr, hl]
      rw [List.mapM_cons]
      simp only [elmLoad, hf0, Bind.bind, Except.bind]
  · intro dir hdir hc hra ⟨s, hs, hn, hf⟩
    have key : ∀ (symbols : List (List Char)) (f0 : List Char → Option (List Char)), s ∈ symbols →
        f0 s = none → symbols.foldlM (elmDefaultStep W) f0 = .error .runtimeError := by
      intro symbols
      induction symbols with
      | nil => intro f0 h; simp at h
      | cons a t ih =>
        intro f0 hm h0
        rw [List.foldlM_cons]
        by_cases hsa : s = a
        · subst hsa
          simp [elmDefaultStep, h0, hdir, hf, Bind.bind, Except.bind]
        · have hm' : s ∈ t := (List.mem_cons.1 hm).resolve_left hsa
          by_cases ha : f0 a ≠ none
          · simp only [elmDefaultStep, if_pos ha, Bind.bind, Except.bind]
            exact ih _ hm' h0
          · by_cases hfa : W.isfile (joinPath dir (a ++ elmExt)) = true
            · simp only [elmDefaultStep, if_neg ha, hdir, hfa, if_true, Bind.bind, Except.bind]
              refine ih _ hm' ?_
              rw [Function.update_of_ne hsa]; exact h0
            · simp [elmDefaultStep, ha, hdir, hfa, Bind.bind, Except.bind]
    cases E with
    | none => simp only [elementsInit, elmFiles, key symbols (fun _ => none) hs rfl, Bind.bind, Except.bind]
    | some D =>
      obtain ⟨f0, h0⟩ := elmCustom_ok W D (fun _ => none) (hc D rfl)
      have hr : restIsDefault D = true := (restIsDefault_iff D).2 (hra D rfl)
      have hf0 : f0 s = none := by
        refine (elmCustom_fold W D _ (hk D rfl) f0 h0).2 s ?_
        by_cases hsr : s = restKey
        · exact Or.inl hsr
        · exact Or.inr fun v hv => hsr (hn D rfl v hv)
      simp only [elementsInit, elmFiles, h0, if_pos hr, key symbols _ hs hf0, Bind.bind, Except.bind]

/-- The data loaded for an element are its own if they come from the default directory, or from a file
whose name starts with its symbol.  Missing: the claim for all files, see
`c123_wrong_element_fails`. -/
theorem c123_own_partial {ρ : Type} (W : ElmWorld ρ) (hS : W.Sane)
    (E : Option (List (List Char × ElmVal ρ))) (hk : UniqueKeys E) (symbols : List (List Char)) (L)
    (h : elementsInit W E symbols = .ok L) (s X) (hX : (s, X) ∈ L) (hs : IsElmSymbol s)
    (hname : ∀ p, customElm E s p → ∃ dir tail, W.abspath p = dir ++ '/' :: (s ++ tail) ∧
      '/' ∉ tail ∧ '.' ∈ tail ∧ (s.length = 1 → ∀ c ∈ tail.head?, c.isLower = false)) :
    X.symbol = s := by
  obtain ⟨_, _, _, h4⟩ := c123_choice W hS E hk symbols L h
  obtain ⟨F, hF, _, hsy, _⟩ := h4 s X hX
  have hfin : elmSymbol F = .ok (s, F) := by
    rcases hF with ⟨p, hp, rfl, _⟩ | ⟨_, _, dir, _, rfl, _⟩
    · obtain ⟨dir, tail, he, ht, hd, hl⟩ := hname p hp
      rw [he]
      exact (c123_symbol dir s tail hs ht hd hl).1
    · have ht : '/' ∉ elmExt := by decide
      have hd : '.' ∈ elmExt := by decide
      have hl : s.length = 1 → ∀ c ∈ elmExt.head?, c.isLower = false := by
        intro _ c hc
        simp only [elmExt, List.head?_cons, Option.mem_def, Option.some.injEq] at hc
        subst hc; decide
      unfold joinPath
      by_cases hdir : dir = [] ∨ dir.getLast? = some '/'
      · rw [if_pos hdir]
        rcases hdir with hdir | hdir
        · subst hdir
          exact (c123_symbol [] s elmExt hs ht hd hl).2
        · obtain ⟨ys, hys⟩ := List.getLast?_eq_some_iff.1 hdir
          rw [hys, List.append_assoc]
          exact (c123_symbol ys s elmExt hs ht hd hl).1
      · rw [if_neg hdir]
        exact (c123_symbol dir s elmExt hs ht hd hl).1
  rw [hfin] at hsy
  exact (congrArg Prod.fst (Except.ok.inj hsy)).symm

/-! ### Examples -/

/-- A directory `/p` with data of carbon and silicon; the reader insists on the symbol in the file. -/
def exElmWorld : ElmWorld (List Char) where
  params := some ['/', 'p']
  isfile p := p = ['/', 'p', '/', 'C', '.', 'e', 'l', 'm'] || p = ['/', 'p', '/', 'S', 'i', '.', 'e', 'l', 'm']
  abspath p := p
  read f s :=
    if f = ['/', 'p', '/', 'C', '.', 'e', 'l', 'm'] ∧ s = ['C'] then .ok ['C']
    else if f = ['/', 'p', '/', 'S', 'i', '.', 'e', 'l', 'm'] ∧ s = ['S', 'i'] then .ok ['S', 'i']
    else .error .assertionError

theorem exElmWorld_sane : exElmWorld.Sane where
  abs p h := by
    simp only [exElmWorld, Bool.or_eq_true, decide_eq_true_eq] at h
    rcases h with rfl | rfl <;> exact ⟨_, rfl⟩
  same p h := h
  known f s d h := by
    simp only [exElmWorld] at h
    by_cases h1 : f = ['/', 'p', '/', 'C', '.', 'e', 'l', 'm'] ∧ s = ['C']
    · rw [h1.2]; decide
    · rw [if_neg h1] at h
      by_cases h2 : f = ['/', 'p', '/', 'S', 'i', '.', 'e', 'l', 'm'] ∧ s = ['S', 'i']
      · rw [h2.2]; decide
      · rw [if_neg h2] at h; simp at h

/-- A carbon atom and two silicon atoms, one file given, the rest from the default directory. -/
example : elementsInit exElmWorld (some [(['C'], .path ['/', 'p', '/', 'C', '.', 'e', 'l', 'm']),
      (restKey, .path restDefault)]) [['S', 'i'], ['C'], ['S', 'i']] =
    .ok [(['S', 'i'], ⟨['/', 'p', '/', 'S', 'i', '.', 'e', 'l', 'm'], ['S', 'i'], ['S', 'i']⟩),
      (['C'], ⟨['/', 'p', '/', 'C', '.', 'e', 'l', 'm'], ['C'], ['C']⟩)] := by
  rfl

/-- The three refusals. -/
example : elementsInit exElmWorld (some [(['C'], .path ['C', '.', 'e', 'l', 'm'])]) [['C']] =
      .error .runtimeError ∧
    elementsInit exElmWorld (some [(['C'], .path ['/', 'p', '/', 'C', '.', 'e', 'l', 'm'])]) [['S', 'i'], ['C']] =
      .error .keyError ∧
    elementsInit exElmWorld none [['C'], ['H']] = .error .runtimeError := ⟨rfl, rfl, rfl⟩

/-- Another element's file is accepted: atoms of carbon are calculated as silicon. -/
theorem c123_wrong_element_fails : ∃ (W : ElmWorld (List Char)) (E : List (List Char × ElmVal (List Char)))
    (X : ElmObj (List Char)), W.Sane ∧ UniqueKeys (some E) ∧
    elementsInit W (some E) [['C']] = .ok [(['C'], X)] ∧ X.symbol = ['S', 'i'] ∧
      X.data = ['S', 'i'] := by
  refine ⟨exElmWorld, [(['C'], .path ['/', 'p', '/', 'S', 'i', '.', 'e', 'l', 'm'])],
    ⟨['/', 'p', '/', 'S', 'i', '.', 'e', 'l', 'm'], ['S', 'i'], ['S', 'i']⟩, exElmWorld_sane, ?_, rfl, rfl, rfl⟩
  intro D hD
  have := Option.some.inj hD
  subst this
  simp

/-- "If extension '.elm' is omitted, it is assumed": it is not. -/
theorem c123_extension_fails : ∃ (W : ElmWorld (List Char)) (p : List Char), W.Sane ∧
    W.isfile (p ++ elmExt) = true ∧
    elementsInit W (some [(['C'], .path p)]) [['C']] = .error .runtimeError ∧
    ∃ L, elementsInit W (some [(['C'], .path (p ++ elmExt))]) [['C']] = .ok L :=
  ⟨exElmWorld, ['/', 'p', '/', 'C'], exElmWorld_sane, rfl, rfl, _, rfl⟩

/-- "Items can also be elements directly": they cannot, for any object. -/
theorem c123_object_fails {ρ : Type} (W : ElmWorld ρ) (s : List Char) (hs : s ≠ restKey)
    (X : ElmObj ρ) (D : List (List Char × ElmVal ρ)) (symbols : List (List Char)) :
    elementsInit W (some ((s, .obj X) :: D)) symbols = .error .typeError := by
  simp only [elementsInit, elmFiles, List.foldlM_cons, elmCustomStep, if_neg hs, Bind.bind,
    Except.bind]

example : ∃ W : ElmWorld (List Char), ∃ X, loadElement W ['/', 'p', '/', 'C', '.', 'e', 'l', 'm'] =
    .ok X ∧ elementsInit W (some [(['C'], .obj X)]) [['C']] = .error .typeError :=
  ⟨exElmWorld, _, rfl, rfl⟩

/-! ### The directory -/

/-- The directory of a calculator is the one set last by anyone before its first use, and stays. -/
theorem c123_directory (S : DirProc) (h1 h2 : List DirEvent) (i : ℕ) (c : DirCalc)
    (hc : (dirRun S h1).calcs[i]? = some c) (hu : c.used = none) :
    (dirRun S (h1 ++ .use i :: h2)).calcs[i]? =
      some ⟨c.given, some (lastDir S.env h1)⟩ := by
  have hrun : dirRun S (h1 ++ .use i :: h2) = dirRun (dirStep (dirRun S h1) (.use i)) h2 := by
    unfold dirRun
    rw [List.foldl_append, List.foldl_cons]
  rw [hrun]
  refine dirRun_used _ h2 i _ ?_ (by simp)
  show ((dirRun S h1).calcs.modify i _)[i]? = _
  rw [List.getElem?_modify, hc]
  simp [hu, dirRun_env]

/-- A calculator uses the directory given to it if no other directory is set before its first use.
Missing: the claim for all histories, see `c123_directory_fails`. -/
theorem c123_own_directory_partial (S : DirProc) (h0 h1 h2 : List DirEvent) (d : List Char)
    (hu : DirEvent.use (S.calcs.length + madeIn h0) ∉ h1)
    (hn : ∀ d', DirEvent.new (some d') ∈ h1 → d' = d) (hs : ∀ d', DirEvent.setenv d' ∈ h1 → d' = d) :
    (dirRun S (h0 ++ .new (some d) :: h1 ++ .use (S.calcs.length + madeIn h0) :: h2)).calcs[
      S.calcs.length + madeIn h0]? = some ⟨some d, some (some d)⟩ := by
  have hlast : lastDir S.env (h0 ++ .new (some d) :: h1) = some d := by
    rw [lastDir_append]
    exact lastDir_same d h1 hn hs
  have hc : (dirRun S (h0 ++ .new (some d) :: h1)).calcs[S.calcs.length + madeIn h0]? =
      some ⟨some d, none⟩ := by
    have hrun : dirRun S (h0 ++ .new (some d) :: h1) =
        dirRun (dirStep (dirRun S h0) (.new (some d))) h1 := by
      unfold dirRun
      rw [List.foldl_append, List.foldl_cons]
    rw [hrun]
    refine dirRun_unused _ h1 _ _ ?_ hu
    show ((dirRun S h0).calcs ++ [⟨some d, none⟩])[_]? = _
    rw [← dirRun_length S h0]
    simp
  rw [c123_directory S _ h2 _ _ hc rfl, hlast]

/-- The first of two calculators, with a third event between. -/
example : (dirRun ⟨some ['e'], []⟩ [.new (some ['a']), .new none, .use 0, .setenv ['b']]).calcs[0]? =
    some ⟨some ['a'], some (some ['a'])⟩ := rfl

/-- Two calculators with directories `a` and `b`, made one after the other: the first one uses `b`.
And a calculator made without a directory uses that of another calculator, not the variable the user
had set. -/
theorem c123_directory_fails (env a b : List Char) :
    (dirRun ⟨some env, []⟩ [.new (some a), .new (some b), .use 0]).calcs[0]? =
      some ⟨some a, some (some b)⟩ ∧
    (dirRun ⟨some env, []⟩ [.new (some a), .new none, .use 1]).calcs[1]? =
      some ⟨none, some (some a)⟩ := ⟨rfl, rfl⟩

end Hotbit
