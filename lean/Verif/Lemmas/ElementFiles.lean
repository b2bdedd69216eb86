import Verif.Spec.ElementFiles
import Mathlib.Tactic

/-! # Lemmas on the choice of the element files -/

namespace Hotbit

theorem baseName_append (dir l : List Char) (h : '/' ∉ l) : baseName (dir ++ '/' :: l) = l := by
  unfold baseName
  rw [List.reverse_append, List.reverse_cons, List.append_assoc]
  rw [List.takeWhile_append_of_pos]
  · simp
  · intro a ha
    have : a ∈ l := List.mem_reverse.1 ha
    simpa using fun h2 : a = '/' => h (h2 ▸ this)

theorem baseName_none (l : List Char) (h : '/' ∉ l) : baseName l = l := by
  unfold baseName
  have : l.reverse.takeWhile (· ≠ '/') = l.reverse := by
    have h3 := List.takeWhile_append_of_pos (p := (· ≠ '/')) (l₁ := l.reverse) (l₂ := []) (by
      intro a ha
      have : a ∈ l := List.mem_reverse.1 ha
      simpa using fun h2 : a = '/' => h (h2 ▸ this))
    simpa using h3
  rw [this, List.reverse_reverse]

/-- The state of the dictionary after the entries given by the user. -/
theorem elmCustom_fold {ρ : Type} (W : ElmWorld ρ) (D : List (List Char × ElmVal ρ))
    (f0 : List Char → Option (List Char)) (hk : (D.map Prod.fst).Nodup) (f) 
    (h : D.foldlM (elmCustomStep W) f0 = .ok f) :
    (∀ s v, (s, v) ∈ D → s ≠ restKey → ∃ p, v = .path p ∧ W.isfile p = true ∧
      f s = some (W.abspath p)) ∧
    ∀ s, (s = restKey ∨ ∀ v, (s, v) ∉ D) → f s = f0 s := by
  induction D generalizing f0 with
  | nil =>
    simp only [List.foldlM_nil, pure, Except.pure, Except.ok.injEq] at h
    subst h
    simp
  | cons a D ih =>
    obtain ⟨k, v⟩ := a
    simp only [List.map_cons, List.nodup_cons] at hk
    rw [List.foldlM_cons] at h
    simp only [elmCustomStep] at h
    by_cases hr : k = restKey
    · rw [if_pos hr] at h
      simp only [Bind.bind, Except.bind] at h
      obtain ⟨h1, h2⟩ := ih f0 hk.2 h
      refine ⟨fun s w hs hne => ?_, fun s hs => ?_⟩
      · rcases List.mem_cons.1 hs with hs | hs
        · exact absurd ((congrArg Prod.fst hs).trans hr) hne
        · exact h1 s w hs hne
      · refine h2 s (hs.imp id fun hs v hv => hs v (List.mem_cons_of_mem _ hv))
    · rw [if_neg hr] at h
      cases v with
      | obj e => simp [Bind.bind, Except.bind] at h
      | path q =>
        by_cases hq : W.isfile q = true
        · simp only [hq, if_true, Bind.bind, Except.bind] at h
          obtain ⟨h1, h2⟩ := ih _ hk.2 h
          have hnot : ∀ v, (k, v) ∉ D := fun v hv => hk.1 (List.mem_map.2 ⟨_, hv, rfl⟩)
          refine ⟨fun s w hs hne => ?_, fun s hs => ?_⟩
          · rcases List.mem_cons.1 hs with hs | hs
            · have e1 : s = k := congrArg Prod.fst hs
              have e2 : w = .path q := congrArg Prod.snd hs
              refine ⟨q, e2, hq, ?_⟩
              rw [e1, h2 k (Or.inr hnot), Function.update_self]
            · exact h1 s w hs hne
          · have hsk : s ≠ k := by
              rcases hs with hs | hs
              · rw [hs]; exact fun h3 => hr h3.symm
              · intro h3
                exact hs (.path q) (by rw [h3]; exact List.mem_cons_self)
            rw [h2 s (hs.imp id fun hs v hv => hs v (List.mem_cons_of_mem _ hv)),
              Function.update_of_ne hsk]
        · simp [hq, Bind.bind, Except.bind] at h

theorem elmCustom_ok {ρ : Type} (W : ElmWorld ρ) (D : List (List Char × ElmVal ρ))
    (f0 : List Char → Option (List Char))
    (h : ∀ s v, (s, v) ∈ D → s ≠ restKey → ∃ p, v = .path p ∧ W.isfile p = true) :
    ∃ f, D.foldlM (elmCustomStep W) f0 = .ok f := by
  induction D generalizing f0 with
  | nil => exact ⟨f0, rfl⟩
  | cons a D ih =>
    obtain ⟨k, v⟩ := a
    rw [List.foldlM_cons]
    have ht : ∀ s v, (s, v) ∈ D → s ≠ restKey → ∃ p, v = .path p ∧ W.isfile p = true :=
      fun s v hs => h s v (List.mem_cons_of_mem _ hs)
    by_cases hr : k = restKey
    · simp only [elmCustomStep, if_pos hr, Bind.bind, Except.bind]
      exact ih _ ht
    · obtain ⟨p, hp, hf⟩ := h k v List.mem_cons_self hr
      subst hp
      simp only [elmCustomStep, if_neg hr, hf, if_true, Bind.bind, Except.bind]
      exact ih _ ht

theorem elmDefault_fold {ρ : Type} (W : ElmWorld ρ) (symbols : List (List Char))
    (f0 : List Char → Option (List Char)) (f)
    (h : symbols.foldlM (elmDefaultStep W) f0 = .ok f) :
    (∀ s, f0 s ≠ none → f s = f0 s) ∧
    (∀ s ∈ symbols, f0 s = none → ∃ dir, W.params = some dir ∧
      W.isfile (joinPath dir (s ++ elmExt)) = true ∧ f s = some (joinPath dir (s ++ elmExt))) := by
  induction symbols generalizing f0 with
  | nil =>
    simp only [List.foldlM_nil, pure, Except.pure, Except.ok.injEq] at h
    subst h
    simp
  | cons a D ih =>
    rw [List.foldlM_cons] at h
    simp only [elmDefaultStep] at h
    by_cases ha : f0 a ≠ none
    · rw [if_pos ha] at h
      simp only [Bind.bind, Except.bind] at h
      obtain ⟨h1, h2⟩ := ih f0 h
      refine ⟨h1, fun s hs hn => ?_⟩
      rcases List.mem_cons.1 hs with hs | hs
      · exact absurd (hs ▸ hn) ha
      · exact h2 s hs hn
    · rw [if_neg ha] at h
      cases hW : W.params with
      | none => rw [hW] at h; simp [Bind.bind, Except.bind] at h
      | some dir =>
        rw [hW] at h
        by_cases hf : W.isfile (joinPath dir (a ++ elmExt)) = true
        · simp only [hf, if_true, Bind.bind, Except.bind] at h
          obtain ⟨h1, h2⟩ := ih _ h
          have hna : f0 a = none := by simpa using ha
          have hfa : f a = some (joinPath dir (a ++ elmExt)) := by
            rw [h1 a (by rw [Function.update_self]; simp), Function.update_self]
          refine ⟨fun s hs => ?_, fun s hs hn => ?_⟩
          · have hsa : s ≠ a := fun h3 => hs (h3 ▸ hna)
            rw [h1 s (by rw [Function.update_of_ne hsa]; exact hs), Function.update_of_ne hsa]
          · by_cases hsa : s = a
            · subst hsa
              exact ⟨dir, rfl, hf, hfa⟩
            · rcases List.mem_cons.1 hs with hs | hs
              · exact absurd hs hsa
              · obtain ⟨d, hd⟩ := h2 s hs (by rw [Function.update_of_ne hsa]; exact hn)
                rw [hW] at hd
                exact ⟨d, hd⟩
        · simp [hf, Bind.bind, Except.bind] at h

theorem elmDefault_ok {ρ : Type} (W : ElmWorld ρ) (symbols : List (List Char))
    (f0 : List Char → Option (List Char))
    (h : ∀ s ∈ symbols, f0 s ≠ none ∨ ∃ dir, W.params = some dir ∧
      W.isfile (joinPath dir (s ++ elmExt)) = true) :
    ∃ f, symbols.foldlM (elmDefaultStep W) f0 = .ok f := by
  induction symbols generalizing f0 with
  | nil => exact ⟨f0, rfl⟩
  | cons a D ih =>
    rw [List.foldlM_cons]
    by_cases ha : f0 a ≠ none
    · simp only [elmDefaultStep, if_pos ha, Bind.bind, Except.bind]
      exact ih _ fun s hs => h s (List.mem_cons_of_mem _ hs)
    · obtain ⟨dir, hd, hf⟩ := (h a List.mem_cons_self).resolve_left ha
      simp only [elmDefaultStep, if_neg ha, hd, hf, if_true, Bind.bind, Except.bind]
      refine ih _ fun s hs => ?_
      by_cases hsa : s = a
      · subst hsa; left; rw [Function.update_self]; simp
      · rw [Function.update_of_ne hsa]
        exact h s (List.mem_cons_of_mem _ hs)

theorem presentSymbols_aux (symbols l : List (List Char)) (hl : l.Nodup) :
    (symbols.foldl (fun l s => if s ∈ l then l else l ++ [s]) l).Nodup ∧
    ∀ s, s ∈ symbols.foldl (fun l s => if s ∈ l then l else l ++ [s]) l ↔ s ∈ l ∨ s ∈ symbols := by
  induction symbols generalizing l with
  | nil => exact ⟨hl, by simp⟩
  | cons a t ih =>
    rw [List.foldl_cons]
    by_cases ha : a ∈ l
    · rw [if_pos ha]
      refine ⟨(ih l hl).1, fun s => ?_⟩
      rw [(ih l hl).2 s, List.mem_cons]
      constructor
      · rintro (h | h)
        · exact Or.inl h
        · exact Or.inr (Or.inr h)
      · rintro (h | h | h)
        · exact Or.inl h
        · exact Or.inl (h ▸ ha)
        · exact Or.inr h
    · rw [if_neg ha]
      have hl2 : (l ++ [a]).Nodup := by
        rw [List.nodup_append]
        refine ⟨hl, by simp, ?_⟩
        intro x hx y hy
        rw [List.mem_singleton] at hy
        subst hy
        exact fun h => ha (h ▸ hx)
      refine ⟨(ih _ hl2).1, fun s => ?_⟩
      rw [(ih _ hl2).2 s, List.mem_append, List.mem_singleton, List.mem_cons, or_assoc]

theorem presentSymbols_spec (symbols : List (List Char)) :
    (presentSymbols symbols).Nodup ∧ ∀ s, s ∈ presentSymbols symbols ↔ s ∈ symbols := by
  obtain ⟨h1, h2⟩ := presentSymbols_aux symbols [] List.nodup_nil
  exact ⟨h1, fun s => by unfold presentSymbols; rw [h2]; simp⟩

theorem mapM_elmLoad_ok {ρ : Type} (W : ElmWorld ρ) (f : List Char → Option (List Char))
    (l : List (List Char)) (L) (h : l.mapM (elmLoad W f) = .ok L) :
    L.map Prod.fst = l ∧ ∀ s e, (s, e) ∈ L → ∃ p, f s = some p ∧ loadElement W p = .ok e := by
  induction l generalizing L with
  | nil =>
    simp only [List.mapM_nil, pure, Except.pure, Except.ok.injEq] at h
    subst h; simp
  | cons a t ih =>
    rw [List.mapM_cons] at h
    cases hf : f a with
    | none => simp [elmLoad, hf, Bind.bind, Except.bind] at h
    | some p =>
      cases hp : loadElement W p with
      | error x => simp [elmLoad, hf, hp, Bind.bind, Except.bind] at h
      | ok e =>
        cases ht : t.mapM (elmLoad W f) with
        | error x => simp [elmLoad, hf, hp, ht, Bind.bind, Except.bind] at h
        | ok M =>
          simp only [elmLoad, hf, hp, ht, Bind.bind, Except.bind, pure, Except.pure,
            Except.ok.injEq] at h
          subst h
          obtain ⟨h1, h2⟩ := ih M ht
          refine ⟨by simp [h1], fun s e' hs => ?_⟩
          rcases List.mem_cons.1 hs with hs | hs
          · obtain ⟨rfl, rfl⟩ := Prod.mk.injEq .. ▸ hs
            exact ⟨p, hf, hp⟩
          · exact h2 s e' hs

theorem mapM_elmLoad_of {ρ : Type} (W : ElmWorld ρ) (f : List Char → Option (List Char))
    (l : List (List Char)) (h : ∀ s ∈ l, ∃ p e, f s = some p ∧ loadElement W p = .ok e) :
    ∃ L, l.mapM (elmLoad W f) = .ok L := by
  induction l with
  | nil => exact ⟨[], rfl⟩
  | cons a t ih =>
    obtain ⟨p, e, hf, hp⟩ := h a List.mem_cons_self
    obtain ⟨M, hM⟩ := ih fun s hs => h s (List.mem_cons_of_mem _ hs)
    refine ⟨(a, e) :: M, ?_⟩
    rw [List.mapM_cons]
    simp only [elmLoad, hf, hp, hM, Bind.bind, Except.bind, pure, Except.pure]

/-- What a successful `Element(file)` does for a file that exists. -/
theorem loadElement_ok {ρ : Type} (W : ElmWorld ρ) (hS : W.Sane) (p : List Char) (e : ElmObj ρ)
    (hp : W.isfile p = true) (hslash : '.' ∉ p → '/' ∈ p) (h : loadElement W p = .ok e) :
    '.' ∈ p ∧ e.file = p ∧ elmSymbol p = .ok (e.symbol, p) ∧ W.read p e.symbol = .ok e.data := by
  unfold loadElement at h
  by_cases hd : '.' ∈ p
  · cases hs : elmSymbol p with
    | error x => rw [hs] at h; simp [Bind.bind, Except.bind] at h
    | ok y =>
      obtain ⟨sy, fn⟩ := y
      have hfn : fn = p := by
        unfold elmSymbol at hs
        rw [if_pos hd] at hs
        revert hs
        cases baseName p with
        | nil => simp
        | cons c t =>
          cases t with
          | nil => simp
          | cons d t => simp only [Except.ok.injEq, Prod.mk.injEq]; intro h; exact h.2.symm
      subst hfn
      rw [hs] at h
      simp only [Bind.bind, Except.bind, hp, if_true] at h
      cases hr : W.read fn sy with
      | error x => rw [hr] at h; simp at h
      | ok d =>
        rw [hr] at h
        simp only [Except.ok.injEq] at h
        subst h
        exact ⟨hd, rfl, rfl, hr⟩
  · exfalso
    have hs : elmSymbol p = .ok (p, p ++ elmExt) := by unfold elmSymbol; rw [if_neg hd]
    rw [hs] at h
    simp only [Bind.bind, Except.bind] at h
    by_cases h1 : W.isfile (p ++ elmExt) = true
    · simp only [h1, if_true] at h
      cases hr : W.read (p ++ elmExt) p with
      | error x => rw [hr] at h; simp at h
      | ok d => exact hS.known _ p d hr (hslash hd)
    · rw [if_neg h1] at h
      by_cases h2 : W.isfile (elmDefault W.params (p ++ elmExt)) = true
      · simp only [h2, if_true] at h
        cases hr : W.read (elmDefault W.params (p ++ elmExt)) p with
        | error x => rw [hr] at h; simp at h
        | ok d => exact hS.known _ p d hr (hslash hd)
      · rw [if_neg h2] at h
        simp at h

theorem loadElement_of {ρ : Type} (W : ElmWorld ρ) (p sy : List Char) (d : ρ)
    (hp : W.isfile p = true) (hs : elmSymbol p = .ok (sy, p)) (hr : W.read p sy = .ok d) :
    loadElement W p = .ok ⟨p, sy, d⟩ := by
  unfold loadElement
  rw [hs]
  simp only [Bind.bind, Except.bind, hp, if_true, hr]

theorem restIsDefault_iff {ρ : Type} (D : List (List Char × ElmVal ρ)) :
    restIsDefault D = true ↔ (restKey, ElmVal.path restDefault) ∈ D := by
  unfold restIsDefault
  rw [List.any_eq_true]
  constructor
  · rintro ⟨⟨k, v⟩, hm, h⟩
    rw [Bool.and_eq_true, beq_iff_eq] at h
    obtain ⟨h1, h2⟩ := h
    cases v with
    | obj e => simp at h2
    | path q =>
      simp only [beq_iff_eq] at h1 h2
      rw [← h1, ← h2]; exact hm
  · intro h
    exact ⟨_, h, by simp⟩

/-- The files chosen by the program. -/
theorem elmFiles_ok {ρ : Type} (W : ElmWorld ρ) (E : Option (List (List Char × ElmVal ρ)))
    (symbols : List (List Char)) (hk : UniqueKeys E) (f) (h : elmFiles W E symbols = .ok f) :
    CustomsExist W E ∧ ∀ s ∈ symbols, (∀ F, f s = some F → ElmFileFor W E s F) ∧
      (f s = none → notCustomElm E s ∧ ¬ restAllowed E) := by
  cases E with
  | none =>
    obtain ⟨_, h2⟩ := elmDefault_fold W symbols (fun _ => none) f h
    refine ⟨fun D hD => by simp at hD, fun s hs => ?_⟩
    obtain ⟨dir, hd, hf, hfs⟩ := h2 s hs rfl
    refine ⟨fun F hF => ?_, fun hn => ?_⟩
    · rw [hfs] at hF
      have hF := Option.some.inj hF
      subst hF
      exact Or.inr ⟨fun D hD => by simp at hD, fun D hD => by simp at hD, dir, hd, rfl, hf⟩
    · rw [hfs] at hn; simp at hn
  | some D =>
    simp only [elmFiles, Bind.bind, Except.bind] at h
    cases h0 : D.foldlM (elmCustomStep W) fun _ => none with
    | error x => rw [h0] at h; simp at h
    | ok f0 =>
      rw [h0] at h
      simp only at h
      obtain ⟨h1, h2⟩ := elmCustom_fold W D _ (hk D rfl) f0 h0
      have hcust : CustomsExist W (some D) := by
        intro D' hD' s v hm hne
        have hD' := Option.some.inj hD'
        subst hD'
        obtain ⟨p, hp, hf, _⟩ := h1 s v hm hne
        exact ⟨p, hp, hf⟩
      refine ⟨hcust, fun s hs => ?_⟩
      by_cases hsc : ∃ v, (s, v) ∈ D ∧ s ≠ restKey
      · obtain ⟨v, hm, hne⟩ := hsc
        obtain ⟨p, hp, hf, hfs⟩ := h1 s v hm hne
        have hfin : f s = some (W.abspath p) := by
          by_cases hr : restIsDefault D = true
          · rw [if_pos hr] at h
            rw [(elmDefault_fold W symbols f0 f h).1 s (by rw [hfs]; simp), hfs]
          · rw [if_neg hr] at h
            rw [← Except.ok.inj h, hfs]
        refine ⟨fun F hF => Or.inl ⟨p, ⟨D, rfl, hne, hp ▸ hm⟩, ?_, hf⟩, fun hn => ?_⟩
        · exact (Option.some.inj (hfin.symm.trans hF)).symm
        · rw [hfin] at hn; simp at hn
      · have hnc : notCustomElm (some D) s := by
          intro D' hD' v hm
          have hD' := Option.some.inj hD'
          subst hD'
          by_contra hne
          exact hsc ⟨v, hm, hne⟩
        have hf0 : f0 s = none := by
          refine h2 s ?_
          by_cases hsr : s = restKey
          · exact Or.inl hsr
          · exact Or.inr fun v hv => hsc ⟨v, hv, hsr⟩
        by_cases hr : restIsDefault D = true
        · rw [if_pos hr] at h
          obtain ⟨dir, hd, hf, hfs⟩ := (elmDefault_fold W symbols f0 f h).2 s hs hf0
          refine ⟨fun F hF => ?_, fun hn => ?_⟩
          · have hF := Option.some.inj (hfs.symm.trans hF)
            subst hF
            refine Or.inr ⟨hnc, fun D' hD' => ?_, dir, hd, rfl, hf⟩
            have hD' := Option.some.inj hD'
            subst hD'
            exact (restIsDefault_iff D).1 hr
          · rw [hfs] at hn; simp at hn
        · rw [if_neg hr] at h
          have hff := Except.ok.inj h
          refine ⟨fun F hF => ?_, fun _ => ⟨hnc, fun hra => ?_⟩⟩
          · rw [← hff, hf0] at hF; simp at hF
          · exact hr ((restIsDefault_iff D).2 (hra D rfl))

/-- There is one file for each element. -/
theorem ElmFileFor_unique {ρ : Type} (W : ElmWorld ρ) (E : Option (List (List Char × ElmVal ρ)))
    (hk : UniqueKeys E) (s F G : List Char) (h1 : ElmFileFor W E s F) (h2 : ElmFileFor W E s G) :
    F = G := by
  rcases h1 with ⟨p, ⟨D, hD, hne, hm⟩, rfl, _⟩ | ⟨hn, _, dir, hd, rfl, _⟩
  · rcases h2 with ⟨q, ⟨D', hD', _, hm'⟩, rfl, _⟩ | ⟨hn, _⟩
    · have hDD := Option.some.inj (hD.symm.trans hD')
      subst hDD
      have := List.inj_on_of_nodup_map (hk D hD) hm hm' rfl
      simp only [Prod.mk.injEq, ElmVal.path.injEq, true_and] at this
      rw [this]
    · exact absurd (hn D hD _ hm) hne
  · rcases h2 with ⟨q, ⟨D', hD', hne, hm'⟩, _, _⟩ | ⟨_, _, dir', hd', rfl, _⟩
    · exact absurd (hn D' hD' _ hm') hne
    · rw [Option.some.inj (hd.symm.trans hd')]

theorem elmFiles_of {ρ : Type} (W : ElmWorld ρ) (E : Option (List (List Char × ElmVal ρ)))
    (symbols : List (List Char)) (hk : UniqueKeys E) (hc : CustomsExist W E)
    (h : ∀ s ∈ symbols, ∃ F, ElmFileFor W E s F) : ∃ f, elmFiles W E symbols = .ok f := by
  cases E with
  | none =>
    refine elmDefault_ok W symbols _ fun s hs => Or.inr ?_
    obtain ⟨F, ⟨p, ⟨D, hD, _⟩, _⟩ | ⟨_, _, dir, hd, rfl, hf⟩⟩ := h s hs
    · simp at hD
    · exact ⟨dir, hd, hf⟩
  | some D =>
    obtain ⟨f0, h0⟩ := elmCustom_ok W D (fun _ => none) (hc D rfl)
    simp only [elmFiles, Bind.bind, Except.bind, h0]
    by_cases hr : restIsDefault D = true
    · rw [if_pos hr]
      refine elmDefault_ok W symbols _ fun s hs => ?_
      obtain ⟨F, ⟨p, ⟨D', hD, hne, hm⟩, _⟩ | ⟨_, _, dir, hd, rfl, hf⟩⟩ := h s hs
      · have hD := Option.some.inj hD
        subst hD
        obtain ⟨q, _, _, hfs⟩ := (elmCustom_fold W D _ (hk D rfl) f0 h0).1 s _ hm hne
        left; rw [hfs]; simp
      · exact Or.inr ⟨dir, hd, hf⟩
    · rw [if_neg hr]; exact ⟨f0, rfl⟩

/-! ### The directory -/

theorem dirRun_env (S : DirProc) (h : List DirEvent) : (dirRun S h).env = lastDir S.env h := by
  induction h generalizing S with
  | nil => rfl
  | cons a h ih =>
    show (dirRun (dirStep S a) h).env = _
    rw [ih]
    cases a with
    | new p => cases p <;> rfl
    | use i => rfl
    | setenv d => rfl

theorem dirRun_length (S : DirProc) (h : List DirEvent) :
    (dirRun S h).calcs.length = S.calcs.length + madeIn h := by
  induction h generalizing S with
  | nil => rfl
  | cons a h ih =>
    show (dirRun (dirStep S a) h).calcs.length = _
    rw [ih]
    cases a with
    | new p => simp [dirStep, madeIn]; omega
    | use i => simp [dirStep, madeIn]
    | setenv d => rfl

/-- A calculator already there stays as it is until its first use. -/
theorem dirRun_unused (S : DirProc) (h : List DirEvent) (i : ℕ) (c : DirCalc)
    (hc : S.calcs[i]? = some c) (hu : DirEvent.use i ∉ h) : (dirRun S h).calcs[i]? = some c := by
  induction h generalizing S with
  | nil => exact hc
  | cons a h ih =>
    refine ih (dirStep S a) ?_ fun hm => hu (List.mem_cons_of_mem _ hm)
    cases a with
    | new p =>
      have hi : i < S.calcs.length := (List.getElem?_eq_some_iff.1 hc).1
      show (S.calcs ++ [⟨p, none⟩])[i]? = some c
      rw [List.getElem?_append_left hi, hc]
    | use j =>
      have hij : j ≠ i := fun h => hu (h ▸ List.mem_cons_self)
      show (S.calcs.modify j _)[i]? = some c
      rw [List.getElem?_modify, hc]
      simp [hij]
    | setenv d => exact hc

/-- A calculator in use stays as it is. -/
theorem dirRun_used (S : DirProc) (h : List DirEvent) (i : ℕ) (c : DirCalc)
    (hc : S.calcs[i]? = some c) (hu : c.used ≠ none) : (dirRun S h).calcs[i]? = some c := by
  induction h generalizing S with
  | nil => exact hc
  | cons a h ih =>
    refine ih (dirStep S a) ?_
    cases a with
    | new p =>
      have hi : i < S.calcs.length := (List.getElem?_eq_some_iff.1 hc).1
      show (S.calcs ++ [⟨p, none⟩])[i]? = some c
      rw [List.getElem?_append_left hi, hc]
    | use j =>
      show (S.calcs.modify j _)[i]? = some c
      rw [List.getElem?_modify, hc]
      by_cases hij : j = i
      · cases hcu : c.used with
        | none => exact absurd hcu hu
        | some u => simp [hij, hcu]
      · simp [hij]
    | setenv d => exact hc

theorem lastDir_append (env : Option (List Char)) (h1 h2 : List DirEvent) :
    lastDir env (h1 ++ h2) = lastDir (lastDir env h1) h2 := by
  induction h1 generalizing env with
  | nil => rfl
  | cons a h ih =>
    cases a with
    | new p => cases p <;> exact ih _
    | use i => exact ih _
    | setenv d => exact ih _

theorem lastDir_same (d : List Char) (h : List DirEvent)
    (hn : ∀ d', DirEvent.new (some d') ∈ h → d' = d) (hs : ∀ d', DirEvent.setenv d' ∈ h → d' = d) :
    lastDir (some d) h = some d := by
  induction h with
  | nil => rfl
  | cons a h ih =>
    have ih' := ih (fun d' hd => hn d' (List.mem_cons_of_mem _ hd))
      (fun d' hd => hs d' (List.mem_cons_of_mem _ hd))
    cases a with
    | new p =>
      cases p with
      | none => exact ih'
      | some d' => rw [hn d' List.mem_cons_self]; exact ih'
    | use i => exact ih'
    | setenv d' => rw [hs d' List.mem_cons_self]; exact ih'

end Hotbit
