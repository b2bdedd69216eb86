import Verif.Model.Tables

/-!
# C35: choice of the Slater-Koster table files
-/

namespace Hotbit

/-- The file meant by an entry of `tables`. -/
def entryFile (dir : String) (v : Option String) : String := v.getD (dir ++ "/" ++ "null.par")

/-- The customised file of a pair: the entry for this order, else the entry for the other order. -/
def customFile (dir : String) (tables : Option TablesArg) (a b : String) : Option String :=
  match tables with
  | none => none
  | some T => ((T.entries.lookup (a, b)).or (T.entries.lookup (b, a))).map (entryFile dir)

/-- The default files that may serve a pair. -/
def IsDefault (E : TabEnv) (dir a b F : String) : Prop :=
  (F = defaultPar dir a b ∨ F = defaultPar dir b a) ∧ E.isfile F = true

/-- A dictionary has every key once. -/
def TablesArg.Dict (T : TablesArg) : Prop := (T.entries.map Prod.fst).Nodup

theorem foldlM_prefix {σ α : Type} {f : σ → α → Except Exn σ} {P : List α → σ → Prop}
    (step : ∀ l s a s', P l s → f s a = .ok s' → P (l ++ [a]) s') :
    ∀ (l pre : List α) (s s' : σ), P pre s → l.foldlM f s = .ok s' → P (pre ++ l) s'
  | [], pre, s, s', h, hf => by
    simp only [List.foldlM_nil, pure, Except.pure] at hf
    cases hf; simpa using h
  | a :: l, pre, s, s', h, hf => by
    rw [List.foldlM_cons] at hf
    cases hs : f s a with
    | error e => rw [hs] at hf; simp [bind, Except.bind] at hf
    | ok s1 =>
      rw [hs] at hf
      have := foldlM_prefix step l (pre ++ [a]) s1 s' (step pre s a s1 h hs) hf
      simpa using this

theorem lookup_none_of {α β : Type} [BEq α] [LawfulBEq α] {l : List (α × β)} {k : α}
    (h : k ∉ l.map Prod.fst) : l.lookup k = none := by
  rw [List.lookup_eq_none_iff]
  intro p hp
  simp only [ne_eq, bne_iff_ne]
  rintro rfl
  exact h (List.mem_map.mpr ⟨p, hp, rfl⟩)

theorem has_iff (T : TablesArg) (a b : String) : T.has a b = true ↔ (a, b) ∈ T.entries.map Prod.fst := by
  unfold TablesArg.has
  simp only [List.any_eq_true, beq_iff_eq, List.mem_map]

/-- The dictionary after the entries `l`. -/
def CustomInv (E : TabEnv) (dir : String) (T : TablesArg) (l : List ((String × String) × Option String))
    (f : Files) : Prop :=
  ∀ a b, f a b = match l.lookup (a, b) with
    | some v => some (E.abspath (entryFile dir v))
    | none => if T.has a b then none else (l.lookup (b, a)).map fun v => E.abspath (entryFile dir v)

theorem custom_step {E : TabEnv} {dir : String} {T : TablesArg} {l : List ((String × String) × Option String)}
    {f f' : Files} {p : (String × String) × Option String} (hp : p ∈ T.entries)
    (hn : p.1 ∉ l.map Prod.fst) (hl : ∀ q ∈ l, q ∈ T.entries) (h : CustomInv E dir T l f)
    (hs : customStep E dir T f p = .ok f') : CustomInv E dir T (l ++ [p]) f' := by
  obtain ⟨⟨e1, e2⟩, v⟩ := p
  have hh : T.has e1 e2 = true := (has_iff T e1 e2).mpr (List.mem_map.mpr ⟨_, hp, rfl⟩)
  have hlk : l.lookup (e1, e2) = none := lookup_none_of hn
  unfold customStep at hs
  dsimp only at hs
  by_cases hfile : E.isfile (v.getD (dir ++ "/" ++ "null.par")) = true
  swap
  · rw [if_pos hfile] at hs; cases hs
  rw [if_neg (not_not.mpr hfile)] at hs
  injection hs with hs
  subst hs
  intro a b
  have ha := h a b
  simp only [List.lookup_append, List.lookup_cons, List.lookup_nil]
  by_cases h1 : (a, b) = (e1, e2)
  · obtain ⟨rfl, rfl⟩ := Prod.mk.inj h1
    rw [hlk]
    by_cases h21 : T.has b a = true
    · simp [Files.set, entryFile, h21]
    · simp [Files.set, entryFile, h21]
  · by_cases h2 : (a, b) = (e2, e1)
    · obtain ⟨rfl, rfl⟩ := Prod.mk.inj h2
      have hne' : ¬ (a = b) := fun hc => h1 (by rw [hc])
      have hne : ¬ (a = b ∧ b = a) := fun hc => hne' hc.1
      have e : (((a, b) : String × String) == (b, a)) = false := by
        simp only [beq_eq_false_iff_ne, ne_eq, Prod.mk.injEq, not_and]; intro hc; exact absurd hc hne'
      by_cases h21 : T.has a b = true
      · rw [if_pos h21] at ha
        simp only [if_pos h21, Files.set, if_neg hne, e, ha]
        cases l.lookup (a, b) <;> rfl
      · have hl2 : l.lookup (a, b) = none := by
          apply lookup_none_of
          intro hc
          obtain ⟨q, hq, hqe⟩ := List.mem_map.mp hc
          exact h21 ((has_iff T a b).mpr (List.mem_map.mpr ⟨q, hl q hq, hqe⟩))
        simp only [if_neg h21, Files.set, e, hl2, hlk, beq_self_eq_true]
        simp [entryFile]
    · have n1 : ¬ (a = e1 ∧ b = e2) := fun hc => h1 (by rw [hc.1, hc.2])
      have n2 : ¬ (a = e2 ∧ b = e1) := fun hc => h2 (by rw [hc.1, hc.2])
      have b1 : (((a, b) : String × String) == (e1, e2)) = false := by
        simpa using fun hc1 hc2 => n1 ⟨hc1, hc2⟩
      have b2 : (((b, a) : String × String) == (e1, e2)) = false := by
        simpa using fun hc1 hc2 => n2 ⟨hc2, hc1⟩
      by_cases h21 : T.has e2 e1 = true
      · simp only [if_pos h21, Files.set, if_neg n1, b1, b2, ha, Option.or_none]
      · simp only [if_neg h21, Files.set, if_neg n1, if_neg n2, b1, b2, ha, Option.or_none]

theorem custom_fold {E : TabEnv} {dir : String} {T : TablesArg} (hd : T.Dict) {f : Files}
    (h : T.entries.foldlM (customStep E dir T) (fun _ _ => none) = .ok f) (a b : String) :
    f a b = (customFile dir (some T) a b).map E.abspath := by
  have key := foldlM_prefix (f := customStep E dir T)
    (P := fun l f => (∀ q ∈ l, q ∈ T.entries) → (l.map Prod.fst).Nodup → CustomInv E dir T l f)
    (by
      intro l s p s' hP hs hmem hnd
      have hnd' := hnd
      rw [List.map_append, List.nodup_append] at hnd'
      refine custom_step (hmem p (by simp)) ?_ (fun q hq => hmem q (by simp [hq]))
        (hP (fun q hq => hmem q (by simp [hq])) hnd'.1) hs
      intro hc
      exact hnd'.2.2 _ hc _ (by simp) rfl)
    T.entries [] _ f (by intro _ _ a b; simp) h (fun q hq => by simpa using hq) (by simpa [TablesArg.Dict] using hd)
  rw [List.nil_append] at key
  rw [key a b]
  unfold customFile
  cases hl : T.entries.lookup (a, b) with
  | some v => simp only [hl, Option.some_or, Option.map_some]
  | none =>
    have : T.has a b = false := by
      by_contra hc
      rw [Bool.not_eq_false, has_iff] at hc
      obtain ⟨q, hq, hqe⟩ := List.mem_map.mp hc
      rw [List.lookup_eq_none_iff] at hl
      have := hl q hq
      simp [hqe] at this
    rw [this]
    simp only [hl, Option.none_or, Option.map_map, Bool.false_eq_true, if_false]
    rfl

/-- What the default branch keeps true; `f0` are the customised files. -/
structure DefaultInv (E : TabEnv) (dir : String) (f0 f : Files) : Prop where
  keep : ∀ a b, f0 a b ≠ none → f a b = f0 a b
  new : ∀ a b, f0 a b = none → f a b = none ∨
    ∃ F, IsDefault E dir a b F ∧ f a b = some (E.abspath F) ∧ f b a = some (E.abspath F)

theorem IsDefault.swap {E : TabEnv} {dir a b F : String} (h : IsDefault E dir a b F) : IsDefault E dir b a F :=
  ⟨h.1.symm, h.2⟩

theorem default_set {E : TabEnv} {dir : String} {f0 f : Files} (hsym : ∀ a b, f0 a b = none ↔ f0 b a = none)
    (h : DefaultInv E dir f0 f) {p q F : String} (h0 : f p q = none) (hF : IsDefault E dir p q F) :
    DefaultInv E dir f0 ((f.set p q (E.abspath F)).set q p (E.abspath F)) := by
  have n0 : f0 p q = none := by
    by_contra hc
    exact hc (by rw [← h.keep p q hc]; exact h0)
  have n1 : f0 q p = none := (hsym p q).mp n0
  constructor
  · intro a b hab
    have e1 : ¬ (a = p ∧ b = q) := by rintro ⟨rfl, rfl⟩; exact hab n0
    have e2 : ¬ (a = q ∧ b = p) := by rintro ⟨rfl, rfl⟩; exact hab n1
    simp only [Files.set, if_neg e1, if_neg e2]
    exact h.keep a b hab
  · intro a b hab
    by_cases e1 : a = p ∧ b = q
    · obtain ⟨rfl, rfl⟩ := e1
      refine Or.inr ⟨F, hF, ?_, ?_⟩ <;> simp [Files.set]
    · by_cases e2 : a = q ∧ b = p
      · obtain ⟨rfl, rfl⟩ := e2
        refine Or.inr ⟨F, hF.swap, ?_, ?_⟩ <;> simp [Files.set]
      · have e3 : ¬ (b = p ∧ a = q) := fun hc => e2 ⟨hc.2, hc.1⟩
        have e4 : ¬ (b = q ∧ a = p) := fun hc => e1 ⟨hc.2, hc.1⟩
        simp only [Files.set, if_neg e1, if_neg e2, if_neg e3, if_neg e4]
        exact h.new a b hab

/-- The default branch succeeds iff every pair without customised file has a default one. -/
theorem default_fold {E : TabEnv} {dir : String} {f0 : Files} (hsym : ∀ a b, f0 a b = none ↔ f0 b a = none) :
    ∀ (l : List (String × String)) (f : Files), DefaultInv E dir f0 f →
      ((∀ q ∈ l, f0 q.1 q.2 = none → ∃ F, IsDefault E dir q.1 q.2 F) →
        ∃ f', l.foldlM (defaultStep E dir) f = .ok f' ∧ DefaultInv E dir f0 f' ∧
          (∀ a b, f a b ≠ none → f' a b ≠ none) ∧ ∀ q ∈ l, f' q.1 q.2 ≠ none) ∧
      ((¬ ∀ q ∈ l, f0 q.1 q.2 = none → ∃ F, IsDefault E dir q.1 q.2 F) →
        l.foldlM (defaultStep E dir) f = .error .runtimeError)
  | [], f, hf => by
    constructor
    · intro _
      exact ⟨f, rfl, hf, fun _ _ h => h, fun q hq => absurd hq (List.not_mem_nil)⟩
    · intro h; exact absurd (fun q hq => absurd hq (List.not_mem_nil)) h
  | q :: l, f, hf => by
    -- the step
    have hstep : (f q.1 q.2 ≠ none ∧ defaultStep E dir f q = .ok f) ∨
        (f q.1 q.2 = none ∧ ∃ F, IsDefault E dir q.1 q.2 F ∧
          defaultStep E dir f q = .ok ((f.set q.1 q.2 (E.abspath F)).set q.2 q.1 (E.abspath F))) ∨
        (f q.1 q.2 = none ∧ (¬ ∃ F, IsDefault E dir q.1 q.2 F) ∧
          defaultStep E dir f q = .error .runtimeError) := by
      by_cases h0 : f q.1 q.2 = none
      · right
        unfold defaultStep
        rw [if_neg (not_not.mpr h0)]
        by_cases h1 : E.isfile (defaultPar dir q.1 q.2) = true
        · left; exact ⟨h0, _, ⟨Or.inl rfl, h1⟩, by rw [if_pos h1]⟩
        · by_cases h2 : E.isfile (defaultPar dir q.2 q.1) = true
          · left; exact ⟨h0, _, ⟨Or.inr rfl, h2⟩, by rw [if_neg h1, if_pos h2]⟩
          · right
            refine ⟨h0, ?_, by rw [if_neg h1, if_neg h2]⟩
            rintro ⟨F, rfl | rfl, hF⟩
            · exact h1 hF
            · exact h2 hF
      · left
        exact ⟨h0, by unfold defaultStep; rw [if_pos h0]⟩
    rw [List.foldlM_cons]
    rcases hstep with ⟨h0, hs⟩ | ⟨h0, F, hF, hs⟩ | ⟨h0, hF, hs⟩
    · obtain ⟨ih1, ih2⟩ := default_fold hsym l f hf
      rw [hs]
      have hq : f0 q.1 q.2 = none → ∃ F, IsDefault E dir q.1 q.2 F := by
        intro hn
        rcases hf.new _ _ hn with h | ⟨F, hF, _⟩
        · exact absurd h h0
        · exact ⟨F, hF⟩
      refine ⟨fun hall => ?_, fun hall => ih2 fun hc => hall ?_⟩
      · obtain ⟨f', a1, a2, a3, a4⟩ := ih1 fun r hr => hall r (List.mem_cons_of_mem _ hr)
        refine ⟨f', a1, a2, a3, fun r hr => ?_⟩
        rcases List.mem_cons.mp hr with rfl | hr
        · exact a3 _ _ h0
        · exact a4 r hr
      · intro r hr
        rcases List.mem_cons.mp hr with rfl | hr
        · exact hq
        · exact hc r hr
    · have hf' := default_set hsym hf h0 hF
      obtain ⟨ih1, ih2⟩ := default_fold hsym l _ hf'
      rw [hs]
      refine ⟨fun hall => ?_, fun hall => ih2 fun hc => hall ?_⟩
      · obtain ⟨f', a1, a2, a3, a4⟩ := ih1 fun r hr => hall r (List.mem_cons_of_mem _ hr)
        refine ⟨f', a1, a2, fun a b hab => a3 a b ?_, fun r hr => ?_⟩
        · simp only [Files.set]
          split_ifs
          · simp
          · simp
          · exact hab
        · rcases List.mem_cons.mp hr with rfl | hr
          · refine a3 _ _ ?_
            simp only [Files.set, and_self, if_true]
            split_ifs <;> exact Option.some_ne_none _
          · exact a4 r hr
      · intro r hr
        rcases List.mem_cons.mp hr with rfl | hr
        · exact fun _ => ⟨F, hF⟩
        · exact hc r hr
    · rw [hs]
      refine ⟨fun hall => ?_, fun _ => rfl⟩
      exfalso
      have n0 : f0 q.1 q.2 = none := by
        by_contra hc
        exact hc (by rw [← hf.keep _ _ hc]; exact h0)
      exact hF (hall q (List.mem_cons_self) n0)

theorem customFile_sym (dir : String) (tables : Option TablesArg) (a b : String) :
    customFile dir tables a b = none ↔ customFile dir tables b a = none := by
  unfold customFile
  cases tables with
  | none => simp
  | some T => simp only [Option.map_eq_none_iff, Option.or_eq_none_iff]; exact and_comm

theorem mem_allPairs {present : List String} {a b : String} (ha : a ∈ present) (hb : b ∈ present) :
    (a, b) ∈ allPairs present := by
  unfold allPairs
  exact List.mem_flatMap.mpr ⟨a, ha, List.mem_map.mpr ⟨b, hb, rfl⟩⟩

/-- The customised files exist. -/
def CustomExist (E : TabEnv) (dir : String) (tables : Option TablesArg) : Prop :=
  ∀ T, tables = some T → ∀ p ∈ T.entries, E.isfile (entryFile dir p.2) = true

/-- The pairs left over have default files. -/
def DefaultsExist (E : TabEnv) (dir : String) (tables : Option TablesArg) (present : List String) : Prop :=
  defaultAllowed tables = true → ∀ a ∈ present, ∀ b ∈ present, customFile dir tables a b = none →
    ∃ F, IsDefault E dir a b F

theorem custom_total (E : TabEnv) (dir : String) (T : TablesArg) :
    ∀ (l : List ((String × String) × Option String)) (f : Files),
      ((∀ p ∈ l, E.isfile (entryFile dir p.2) = true) → ∃ f', l.foldlM (customStep E dir T) f = .ok f') ∧
      ((¬ ∀ p ∈ l, E.isfile (entryFile dir p.2) = true) → l.foldlM (customStep E dir T) f = .error .runtimeError)
  | [], f => ⟨fun _ => ⟨f, rfl⟩, fun h => absurd (fun p hp => absurd hp (List.not_mem_nil)) h⟩
  | p :: l, f => by
    rw [List.foldlM_cons]
    by_cases hp : E.isfile (entryFile dir p.2) = true
    · have hs : ∃ f1, customStep E dir T f p = .ok f1 := by
        unfold customStep
        unfold entryFile at hp
        exact ⟨_, if_neg (not_not.mpr hp)⟩
      obtain ⟨f1, hs⟩ := hs
      rw [hs]
      obtain ⟨ih1, ih2⟩ := custom_total E dir T l f1
      refine ⟨fun hall => ih1 fun q hq => hall q (List.mem_cons_of_mem _ hq), fun hall => ih2 fun hc => hall ?_⟩
      intro q hq
      rcases List.mem_cons.mp hq with rfl | hq
      · exact hp
      · exact hc q hq
    · have hs : customStep E dir T f p = .error .runtimeError := by
        unfold customStep
        unfold entryFile at hp
        exact if_pos hp
      rw [hs]
      exact ⟨fun hall => absurd (hall p (List.mem_cons_self)) hp, fun _ => rfl⟩

/-- **C35.**  The choice of the files succeeds iff all files needed exist; otherwise `RuntimeError`. -/
theorem c35_errors {E : TabEnv} {dir : String} (hE : E.default = some dir) (tables : Option TablesArg)
    (hd : ∀ T, tables = some T → T.Dict) (present : List String) :
    (CustomExist E dir tables ∧ DefaultsExist E dir tables present → ∃ f, chooseFiles E tables present = .ok f) ∧
    (¬ (CustomExist E dir tables ∧ DefaultsExist E dir tables present) →
      chooseFiles E tables present = .error .runtimeError) := by
  have hpairs : (∀ q ∈ allPairs present, customFile dir tables q.1 q.2 = none → ∃ F, IsDefault E dir q.1 q.2 F) ↔
      ∀ a ∈ present, ∀ b ∈ present, customFile dir tables a b = none → ∃ F, IsDefault E dir a b F := by
    constructor
    · intro h a ha b hb; exact h (a, b) (mem_allPairs ha hb)
    · intro h q hq
      unfold allPairs at hq
      obtain ⟨a, ha, hq⟩ := List.mem_flatMap.mp hq
      obtain ⟨b, hb, rfl⟩ := List.mem_map.mp hq
      exact h a ha b hb
  -- the result of the first part
  have hcust : (CustomExist E dir tables → ∃ f0 : Files, customFiles E dir tables = .ok f0 ∧
        ∀ a b, f0 a b = (customFile dir tables a b).map E.abspath) ∧
      (¬ CustomExist E dir tables → customFiles E dir tables = .error .runtimeError) := by
    cases tables with
    | none =>
      refine ⟨fun _ => ⟨fun _ _ => none, rfl, fun _ _ => rfl⟩, fun h => ?_⟩
      exact absurd (fun T hT => by cases hT) h
    | some T =>
      obtain ⟨t1, t2⟩ := custom_total E dir T T.entries (fun _ _ => none)
      refine ⟨fun h => ?_, fun h => t2 fun hc => h ?_⟩
      · obtain ⟨f0, hf0⟩ := t1 (h T rfl)
        exact ⟨f0, hf0, custom_fold (hd T rfl) hf0⟩
      · rintro T' ⟨⟩
        exact hc
  have hnone : ∀ f0 : Files, (∀ a b, f0 a b = (customFile dir tables a b).map E.abspath) → ∀ a b,
      f0 a b = none ↔ customFile dir tables a b = none := by
    intro f0 h a b; rw [h]; simp
  unfold chooseFiles
  rw [hE]
  dsimp only
  by_cases hc : CustomExist E dir tables
  · obtain ⟨f0, hf0, hval⟩ := hcust.1 hc
    rw [hf0]
    simp only [bind, Except.bind]
    by_cases ha : defaultAllowed tables = true
    · have hsym : ∀ a b, f0 a b = none ↔ f0 b a = none := fun a b => by
        rw [hnone f0 hval, hnone f0 hval]; exact customFile_sym dir tables a b
      obtain ⟨d1, d2⟩ := default_fold (E := E) (dir := dir) hsym (allPairs present) f0
        ⟨fun _ _ _ => rfl, fun _ _ h => Or.inl h⟩
      simp only [hnone f0 hval, hpairs] at d1 d2
      rw [if_pos ha]
      refine ⟨fun h => ?_, fun h => d2 fun hc2 => h ⟨hc, fun _ => hc2⟩⟩
      obtain ⟨f', h1, _⟩ := d1 (h.2 ha)
      exact ⟨f', h1⟩
    · rw [if_neg ha]
      refine ⟨fun _ => ⟨f0, rfl⟩, fun h => absurd ⟨hc, fun h2 => absurd h2 ha⟩ h⟩
  · rw [hcust.2 hc]
    exact ⟨fun h => absurd h.1 hc, fun _ => rfl⟩

/-- **C35.**  The files chosen: the customised file of the pair (this order first, then the other); if
there is none and defaults are allowed, an existing default file, the same for both orders; otherwise
none. -/
theorem c35_files {E : TabEnv} {dir : String} (hE : E.default = some dir) {tables : Option TablesArg}
    (hd : ∀ T, tables = some T → T.Dict) {present : List String} {f : Files}
    (h : chooseFiles E tables present = .ok f) {a b : String} (ha : a ∈ present) (hb : b ∈ present) :
    (∀ F, customFile dir tables a b = some F → E.isfile F = true ∧ f a b = some (E.abspath F)) ∧
    (customFile dir tables a b = none → defaultAllowed tables = true →
      ∃ F, IsDefault E dir a b F ∧ f a b = some (E.abspath F) ∧ f b a = some (E.abspath F)) ∧
    (customFile dir tables a b = none → defaultAllowed tables = false → f a b = none) := by
  have hok : CustomExist E dir tables ∧ DefaultsExist E dir tables present := by
    by_contra hc
    rw [(c35_errors hE tables hd present).2 hc] at h
    cases h
  have hfile : ∀ F, customFile dir tables a b = some F → E.isfile F = true := by
    intro F hF
    unfold customFile at hF
    cases tables with
    | none => cases hF
    | some T =>
      simp only [Option.map_eq_some_iff, Option.or_eq_some_iff] at hF
      have hl : ∀ k v, T.entries.lookup k = some v → E.isfile (entryFile dir v) = true := by
        intro k v hv
        rw [List.lookup_eq_some_iff] at hv
        obtain ⟨l1, l2, e, _⟩ := hv
        exact hok.1 T rfl (k, v) (by rw [e]; simp)
      obtain ⟨v, hv | ⟨_, hv⟩, rfl⟩ := hF
      · exact hl _ _ hv
      · exact hl _ _ hv
  -- first part
  have hcust : ∃ f0 : Files, customFiles E dir tables = .ok f0 ∧
        ∀ a b, f0 a b = (customFile dir tables a b).map E.abspath := by
    cases tables with
    | none => exact ⟨fun _ _ => none, rfl, fun _ _ => rfl⟩
    | some T =>
      obtain ⟨f0, hf0⟩ := (custom_total E dir T T.entries (fun _ _ => none)).1 (hok.1 T rfl)
      exact ⟨f0, hf0, custom_fold (hd T rfl) hf0⟩
  obtain ⟨f0, hf0, hval⟩ := hcust
  have hnone : ∀ a b, f0 a b = none ↔ customFile dir tables a b = none := by
    intro a b; rw [hval]; simp
  unfold chooseFiles at h
  rw [hE] at h
  dsimp only at h
  rw [hf0] at h
  simp only [bind, Except.bind] at h
  by_cases hall : defaultAllowed tables = true
  · rw [if_pos hall] at h
    have hsym : ∀ a b, f0 a b = none ↔ f0 b a = none := fun a b => by
      rw [hnone, hnone]; exact customFile_sym dir tables a b
    obtain ⟨d1, _⟩ := default_fold (E := E) (dir := dir) hsym (allPairs present) f0
      ⟨fun _ _ _ => rfl, fun _ _ h => Or.inl h⟩
    obtain ⟨f', e, hinv, _, hdef⟩ := d1 (by
      intro q hq hn
      unfold allPairs at hq
      obtain ⟨x, hx, hq⟩ := List.mem_flatMap.mp hq
      obtain ⟨y, hy, rfl⟩ := List.mem_map.mp hq
      exact hok.2 hall x hx y hy ((hnone x y).mp hn))
    rw [e] at h
    injection h with h
    subst h
    refine ⟨fun F hF => ⟨hfile F hF, ?_⟩, fun hn _ => ?_, fun _ hn => absurd hall (by rw [hn]; simp)⟩
    · rw [hinv.keep a b (by rw [hval, hF]; simp), hval, hF]; rfl
    · rcases hinv.new a b ((hnone a b).mpr hn) with h0 | h1
      · exact absurd h0 (hdef (a, b) (mem_allPairs ha hb))
      · exact h1
  · rw [if_neg hall] at h
    injection h with h
    subst h
    refine ⟨fun F hF => ⟨hfile F hF, by rw [hval, hF]; rfl⟩, fun _ h2 => absurd h2 hall,
      fun hn _ => by rw [hval, hn]; rfl⟩

/-- **C35.**  A pair of present elements without a file raises before any calculation. -/
theorem c35_unspecified {present : List String} {par : String → String → Option ParFile}
    (val : String → List ℕ) {a b : String} (ha : a ∈ present) (hb : b ∈ present) (h : par a b = none) :
    ∀ st, readTables present par val ≠ .ok st := by
  intro st hst
  have key := foldlM_prefix (f := readPair par val)
    (P := fun l _ => ∀ q ∈ l, par q.1 q.2 ≠ none)
    (by
      intro l s q s' hP hs r hr
      rcases List.mem_append.mp hr with hr | hr
      · exact hP r hr
      · have : r = q := by simpa using hr
        subst this
        intro hn
        unfold readPair at hs
        rw [hn] at hs
        cases hs)
    (allPairs present) [] _ st (by simp) hst
  exact key (a, b) (by simpa using mem_allPairs ha hb) h

/-- **C35.**  Without `HOTBIT_PARAMETERS` even a complete set of customised files does not help. -/
theorem c35_no_environment {E : TabEnv} (hE : E.default = none) (tables : Option TablesArg)
    (present : List String) : chooseFiles E tables present = .error .typeError := by
  unfold chooseFiles; rw [hE]

/-- **C35.**  With default files for both orders, the file of the later element first is not used:
hydrogen-carbon uses `C_H.par` although `H_C.par` is there. -/
theorem c35_reverse_default : ∃ f, chooseFiles ⟨some "p", fun _ => true, id⟩ none ["C", "H"] = .ok f ∧
    f "H" "C" = some "p/C_H.par" := by
  refine ⟨_, rfl, ?_⟩
  decide

/-! ### A concrete case -/

/-- Carbon-hydrogen customised, the rest from the default place. -/
def exampleTables : TablesArg := ⟨[(("C", "H"), some "my.par")], some "default"⟩

example : ∃ f, chooseFiles ⟨some "p", fun F => F = "my.par" ∨ F = "p/C_C.par" ∨ F = "p/H_H.par", id⟩
    (some exampleTables) ["C", "H"] = .ok f ∧ f "H" "C" = some "my.par" ∧ f "C" "C" = some "p/C_C.par" := by
  refine ⟨_, rfl, ?_⟩
  decide

example : exampleTables.Dict := by simp [exampleTables, TablesArg.Dict]

/-- Without `rest` nothing else is defined. -/
example : ∃ f, chooseFiles ⟨some "p", fun _ => true, id⟩ (some ⟨[(("C", "H"), some "my.par")], none⟩) ["C", "H"]
    = .ok f ∧ f "C" "C" = none := by
  refine ⟨_, rfl, ?_⟩
  decide

end Hotbit
