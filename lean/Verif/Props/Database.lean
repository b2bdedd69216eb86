import Verif.Lemmas.Database

/-!
# C117: parameter files of a directory are found
-/

namespace Hotbit

theorem elm_found {fs : FileSystem} {p : List Char} {els : List (List Char)}
    (h : ElmDirectory fs p els) (hne : els ≠ []) :
    ∃ r : TextDict × TextDict, databaseFromPath fs (.inl (some p)) = .ok r ∧
      (∀ a ∈ els, r.1 a = some (elmFile p a)) ∧ (∀ a, a ∉ els → r.1 a = none) ∧
      (∀ a ∈ els, ∀ b ∈ els, a.length = b.length → r.2 (a ++ b) = tableFor fs p a b) ∧
      ∀ k, k.length = 3 → r.2 k = none := by
  obtain ⟨hsym, hglob⟩ := h
  have hmem : ∀ f ∈ fs.globElm p, ∃ a ∈ els, f = elmFile p a := fun f hf => (hglob f).1 hf
  -- the symbol of a file
  have hinj : ∀ a b, elmFile p a = elmFile p b → a = b := by
    intro a b h
    simpa [elmFile] using h
  let key : List Char → List Char := fun f => pySlice f (rfind '/' f + 1) (rfind '.' f)
  let sl : List Char → List Char → List Char := fun f g => pySlice g (rfind '/' f + 1) (rfind '.' f)
  have hsl : ∀ a ∈ els, ∀ b ∈ els, sl (elmFile p a) (elmFile p b) =
      (b ++ ['.', 'e', 'l', 'm']).take a.length := by
    intro a ha b hb
    obtain ⟨r1, r2⟩ := rfind_elm (p := p) (symbol_chars (hsym a ha))
    simp only [sl, r1, r2]
    apply pySlice_elm
    have := symbol_length (hsym a ha)
    omega
  have hkey : ∀ a ∈ els, key (elmFile p a) = a := by
    intro a ha
    have := hsl a ha a ha
    rw [List.take_left] at this
    exact this
  have hfold := elm_fold fs p (fs.globElm p) key sl (fun _ _ => rfl) (fun _ _ _ _ => rfl) (fs.globElm p)
    (fun _ h => h) (fun _ => none, fun _ => none)
  obtain ⟨a0, ha0⟩ := List.exists_mem_of_ne_nil els hne
  have hpos : 0 < (fs.globElm p).length := List.length_pos_of_mem ((hglob _).2 ⟨a0, ha0, rfl⟩)
  have hd := dict_fold (fs.globElm p) key id (by
    intro f hf g hg e
    obtain ⟨a, ha, rfl⟩ := hmem f hf
    obtain ⟨b, hb, rfl⟩ := hmem g hg
    rw [hkey a ha, hkey b hb] at e
    rw [e]) (fun _ => none)
  simp only [id] at hd
  have hLen : ∀ q ∈ (fs.globElm p).flatMap (fun f => (fs.globElm p).map (fun g => (key f, sl f g))),
      q.1.length = q.2.length ∧ (q.1.length = 1 ∨ q.1.length = 2) := by
    intro q hq
    simp only [List.mem_flatMap, List.mem_map] at hq
    obtain ⟨f, hf, g, hg, rfl⟩ := hq
    obtain ⟨a, ha, rfl⟩ := hmem f hf
    obtain ⟨b, hb, rfl⟩ := hmem g hg
    have := symbol_length (hsym a ha)
    refine ⟨?_, by rw [hkey a ha]; exact this⟩
    simp only [hkey a ha, hsl a ha b hb, List.length_take, List.length_append, List.length_cons,
      List.length_nil]
    omega
  have ht := tables_fold fs p _ (fun q hq => (hLen q hq).1) (fun _ => none)
  refine ⟨((fs.globElm p).foldl (fun d f => d.set (key f) f) (fun _ => none),
    ((fs.globElm p).flatMap (fun f => (fs.globElm p).map (fun g => (key f, sl f g)))).foldl
      (fun t q => tableStep fs q.1 q.2 t p) (fun _ => none)), ?_, ?_, ?_, ?_, ?_⟩
  · exact (if_pos (by simpa using hpos)).trans (congrArg Except.ok hfold)
  · intro a ha
    have := hd.1 (elmFile p a) ((hglob _).2 ⟨a, ha, rfl⟩)
    rw [hkey a ha] at this
    exact this
  · intro a ha
    refine hd.2 a ?_
    intro f hf e
    obtain ⟨b, hb, rfl⟩ := hmem f hf
    rw [hkey b hb] at e
    exact ha (e ▸ hb)
  · intro a ha b hb hab
    refine ht.2 a b hab (.inl ⟨?_, rfl⟩)
    simp only [List.mem_flatMap, List.mem_map]
    refine ⟨_, (hglob _).2 ⟨a, ha, rfl⟩, _, (hglob _).2 ⟨b, hb, rfl⟩, ?_⟩
    rw [hkey a ha, hsl a ha b hb, hab, List.take_left]
  · intro k hk
    refine ht.1 k ?_
    intro q hq e
    have h1 := hLen q hq
    have h2 := congrArg List.length e
    rw [List.length_append] at h2
    omega

/-- **C117, partial.**  In one directory with element files of chemical symbols every element is found,
no other element is made up, and for two elements with symbols of the same length the table is the file
with the elements in this order, else the file in the other order.  (Missing: symbols of different
lengths, see `c117_mixed_fails`, and several directories.) -/
theorem c117_elm_partial {fs : FileSystem} {p : List Char} {els : List (List Char)}
    (h : ElmDirectory fs p els) (hne : els ≠ []) :
    ∃ r : TextDict × TextDict, databaseFromPath fs (.inl (some p)) = .ok r ∧
      (∀ a ∈ els, r.1 a = some (elmFile p a)) ∧ (∀ a, a ∉ els → r.1 a = none) ∧
      (∀ a ∈ els, ∀ b ∈ els, a.length = b.length → r.2 (a ++ b) = tableFor fs p a b) := by
  obtain ⟨r, h1, h2, h3, h4, -⟩ := elm_found h hne
  exact ⟨r, h1, h2, h3, h4⟩

/-- **C117 fails for symbols of different lengths:** for elements such as C and Au no table is ever
found, whatever files the directory holds. -/
theorem c117_mixed_fails {fs : FileSystem} {p : List Char} {els : List (List Char)}
    (h : ElmDirectory fs p els) {a b : List Char} (ha : a ∈ els) (hb : b ∈ els)
    (hab : a.length ≠ b.length) :
    ∃ r : TextDict × TextDict, databaseFromPath fs (.inl (some p)) = .ok r ∧
      r.2 (a ++ b) = none ∧ r.2 (b ++ a) = none := by
  obtain ⟨r, h1, -, -, -, h5⟩ := elm_found h (List.ne_nil_of_mem ha)
  have l1 := symbol_length (h.1 a ha)
  have l2 := symbol_length (h.1 b hb)
  refine ⟨r, h1, h5 _ ?_, h5 _ ?_⟩ <;> rw [List.length_append] <;> omega

/-- **C117, skf files.**  In one directory without element files every skf file is found: as table of
its pair, and as element data if both elements are the same; nothing else is made up. -/
theorem c117_skf {fs : FileSystem} {p : List Char} {prs : List (List Char × List Char)}
    (h : SkfDirectory fs p prs) (hne : prs ≠ []) (hno : fs.globElm p = []) :
    ∃ r : TextDict × TextDict, databaseFromPath fs (.inl (some p)) = .ok r ∧
      (∀ a b, IsElementName a → IsElementName b →
        r.2 (a ++ b) = if (a, b) ∈ prs then some (skfFile p a b) else none) ∧
      (∀ a, r.1 a = if (a, a) ∈ prs then some (skfFile p a a) else none) := by
  obtain ⟨hsym, hglob⟩ := h
  have hmem : ∀ f ∈ fs.globSkf p, ∃ q ∈ prs, f = skfFile p q.1 q.2 := fun f hf => (hglob f).1 hf
  obtain ⟨q0, hq0⟩ := List.exists_mem_of_ne_nil prs hne
  have hpos : 0 < (fs.globSkf p).length := List.length_pos_of_mem ((hglob _).2 ⟨q0, hq0, rfl⟩)
  let k1 : List Char → List Char := fun f => pySlice f (rfind '/' f + 1) (rfind '-' f)
  let k2 : List Char → List Char := fun f => pySlice f (rfind '-' f + 1) (rfind '.' f)
  have hk : ∀ q ∈ prs, k1 (skfFile p q.1 q.2) = q.1 ∧ k2 (skfFile p q.1 q.2) = q.2 := fun q hq =>
    skf_slices (symbol_chars (hsym q hq).1) (symbol_chars (hsym q hq).2)
  -- the two dictionaries are filled independently
  have hfold : ∀ (L : List (List Char)) (s : TextDict × TextDict), L.foldl skfStep s =
      ((L.filter (fun f => k1 f = k2 f)).foldl (fun d f => d.set (k1 f) f) s.1,
        L.foldl (fun d f => d.set (k1 f ++ k2 f) f) s.2) := by
    intro L
    induction L with
    | nil => intro s; rfl
    | cons f L ih =>
      intro s
      rw [List.foldl_cons, ih, List.foldl_cons]
      by_cases hf : k1 f = k2 f
      · rw [List.filter_cons_of_pos (by simpa using hf), List.foldl_cons]
        have : (skfStep s f).1 = s.1.set (k1 f) f := if_pos hf
        rw [this]
        rfl
      · rw [List.filter_cons_of_neg (by simpa using hf)]
        have : (skfStep s f).1 = s.1 := if_neg hf
        rw [this]
        rfl
  have hT := dict_fold (fs.globSkf p) (fun f => k1 f ++ k2 f) id (by
    intro f hf g hg e
    obtain ⟨q, hq, rfl⟩ := hmem f hf
    obtain ⟨q', hq', rfl⟩ := hmem g hg
    simp only [(hk q hq).1, (hk q hq).2, (hk q' hq').1, (hk q' hq').2] at e
    obtain ⟨e1, e2⟩ := symbols_append_inj (hsym q hq).1 (hsym q hq).2 (hsym q' hq').1 (hsym q' hq').2 e
    rw [e1, e2]) (fun _ => none)
  have hE := dict_fold ((fs.globSkf p).filter (fun f => k1 f = k2 f)) k1 id (by
    intro f hf g hg e
    rw [List.mem_filter] at hf hg
    obtain ⟨hf, hf'⟩ := hf
    obtain ⟨hg, hg'⟩ := hg
    obtain ⟨q, hq, rfl⟩ := hmem f hf
    obtain ⟨q', hq', rfl⟩ := hmem g hg
    simp only [(hk q hq).1, (hk q hq).2, (hk q' hq').1, (hk q' hq').2, decide_eq_true_eq] at e hf' hg'
    rw [← hf', ← hg', e]) (fun _ => none)
  simp only [id] at hT hE
  refine ⟨(((fs.globSkf p).filter (fun f => k1 f = k2 f)).foldl (fun d f => d.set (k1 f) f) (fun _ => none),
    (fs.globSkf p).foldl (fun d f => d.set (k1 f ++ k2 f) f) (fun _ => none)), ?_, ?_, ?_⟩
  · exact (if_neg (by simp [hno])).trans ((if_pos (by simpa using hpos)).trans
      (congrArg Except.ok (hfold _ _)))
  · intro a b ha hb
    split_ifs with hab
    · have := hT.1 _ ((hglob _).2 ⟨(a, b), hab, rfl⟩)
      rw [(hk _ hab).1, (hk _ hab).2] at this
      exact this
    · refine hT.2 _ ?_
      intro f hf e
      obtain ⟨q, hq, rfl⟩ := hmem f hf
      rw [(hk q hq).1, (hk q hq).2] at e
      obtain ⟨e1, e2⟩ := symbols_append_inj (hsym q hq).1 (hsym q hq).2 ha hb e
      exact hab (by rw [← e1, ← e2]; exact hq)
  · intro a
    split_ifs with haa
    · have := hE.1 (skfFile p a a) (by
        rw [List.mem_filter]
        refine ⟨(hglob _).2 ⟨(a, a), haa, rfl⟩, ?_⟩
        have := hk _ haa
        simp only at this
        simp [this.1, this.2])
      rw [(hk _ haa).1] at this
      exact this
    · refine hE.2 _ ?_
      intro f hf e
      rw [List.mem_filter] at hf
      obtain ⟨hf, hf'⟩ := hf
      obtain ⟨q, hq, rfl⟩ := hmem f hf
      simp only [(hk q hq).1, (hk q hq).2, decide_eq_true_eq] at e hf'
      exact haa (by rw [← e]; nth_rw 2 [hf']; exact hq)

/-- **C117 fails for skf files in several directories:** all directories but the last are ignored. -/
theorem c117_skf_directories_fails (fs : FileSystem) (ps : List (List Char)) (p : List Char)
    (hno : ∀ q ∈ ps ++ [p], fs.globElm q = []) :
    databaseFromPath fs (.inr (ps ++ [p])) = databaseFromPath fs (.inl (some p)) := by
  have he : ∀ L : List (List Char), (∀ q ∈ L, fs.globElm q = []) →
      L.foldl (fun fns p => fns ++ fs.globElm p) [] = [] := by
    intro L
    induction L with
    | nil => intro _; rfl
    | cons q L ih =>
      intro h
      rw [List.foldl_cons, h q (by simp), List.append_nil]
      exact ih (fun r hr => h r (by simp [hr]))
  simp only [databaseFromPath, databaseFromList]
  rw [he _ hno, he [p] (by intro q hq; exact hno q (by simp_all)), List.foldl_append]
  rfl

/-- **C117.**  A search that finds no file raises `RuntimeError`; without a directory the current one is
searched. -/
theorem c117_nothing (fs : FileSystem) (path : List (List Char))
    (h : ∀ q ∈ path, fs.globElm q = [] ∧ fs.globSkf q = []) :
    databaseFromPath fs (.inr path) = .error .runtimeError ∧
      databaseFromPath fs (.inl none) = databaseFromPath fs (.inl (some ['.'])) := by
  refine ⟨?_, rfl⟩
  have he : ∀ L : List (List Char), (∀ q ∈ L, fs.globElm q = []) →
      L.foldl (fun fns p => fns ++ fs.globElm p) [] = [] := by
    intro L
    induction L with
    | nil => intro _; rfl
    | cons q L ih =>
      intro h
      rw [List.foldl_cons, h q (by simp), List.append_nil]
      exact ih (fun r hr => h r (by simp [hr]))
  have hs : ∀ L : List (List Char), (∀ q ∈ L, fs.globSkf q = []) →
      L.foldl (fun _ p => fs.globSkf p) ([] : List (List Char)) = [] := by
    intro L
    induction L with
    | nil => intro _; rfl
    | cons q L ih =>
      intro h
      rw [List.foldl_cons, h q (by simp)]
      exact ih (fun r hr => h r (by simp [hr]))
  simp only [databaseFromPath, databaseFromList]
  rw [he _ (fun q hq => (h q hq).1), hs _ (fun q hq => (h q hq).2)]
  rfl

/-! ### Examples -/

/-- A directory `d` with carbon, hydrogen and gold, and all tables in one order. -/
def exFs : FileSystem where
  globElm := fun p => if p = ['d'] then
    [elmFile ['d'] ['C'], elmFile ['d'] ['A', 'u'], elmFile ['d'] ['H']] else []
  globSkf := fun p => if p = ['s'] then
    [skfFile ['s'] ['C'] ['C'], skfFile ['s'] ['C'] ['A', 'u'], skfFile ['s'] ['H'] ['H']] else []
  pathExists := fun f => f = parPath ['d'] ['C'] ['H'] ∨ f = parPath ['d'] ['C'] ['A', 'u'] ∨
    f = parPath ['d'] ['C'] ['C'] ∨ f = parPath ['b', 'b'] ['C'] ['H']

theorem exFs_elm : ElmDirectory exFs ['d'] [['C'], ['A', 'u'], ['H']] := by
  refine ⟨?_, ?_⟩
  · intro a ha
    simp only [List.mem_cons, List.not_mem_nil, or_false] at ha
    rcases ha with rfl | rfl | rfl
    · exact ⟨'C', rfl, .inl rfl⟩
    · exact ⟨'A', rfl, .inr ⟨'u', rfl, rfl⟩⟩
    · exact ⟨'H', rfl, .inl rfl⟩
  · intro f
    simp [exFs]

/-- The table of H and C is the file of C and H; the table of C and gold is there but not found. -/
example : ∃ r : TextDict × TextDict, databaseFromPath exFs (.inl (some ['d'])) = .ok r ∧
    r.2 ['H', 'C'] = some (parPath ['d'] ['C'] ['H']) ∧ exFs.pathExists (parPath ['d'] ['C'] ['A', 'u']) = true ∧
    r.2 ['C', 'A', 'u'] = none ∧ r.2 ['A', 'u', 'C'] = none := by
  obtain ⟨r, h1, -, -, h4⟩ := c117_elm_partial exFs_elm (by simp)
  obtain ⟨r', h1', h2, h3⟩ := c117_mixed_fails exFs_elm (a := ['C']) (b := ['A', 'u']) (by simp) (by simp)
    (by simp)
  rw [h1] at h1'
  cases h1'
  refine ⟨r, h1, ?_, by decide, h2, h3⟩
  have := h4 ['H'] (by simp) ['C'] (by simp) rfl
  rw [show tableFor exFs ['d'] ['H'] ['C'] = some (parPath ['d'] ['C'] ['H']) by decide] at this
  exact this

/-- `c117_skf` applies to the directory `s`. -/
example : ∃ r : TextDict × TextDict, databaseFromPath exFs (.inl (some ['s'])) = .ok r ∧
    r.2 ['C', 'A', 'u'] = some (skfFile ['s'] ['C'] ['A', 'u']) := by
  obtain ⟨r, h1, h2, -⟩ := c117_skf (fs := exFs) (p := ['s'])
    (prs := [(['C'], ['C']), (['C'], ['A', 'u']), (['H'], ['H'])]) ⟨by
      intro q hq
      have c : IsElementName ['C'] := ⟨'C', rfl, .inl rfl⟩
      have u : IsElementName ['A', 'u'] := ⟨'A', rfl, .inr ⟨'u', rfl, rfl⟩⟩
      have h : IsElementName ['H'] := ⟨'H', rfl, .inl rfl⟩
      simp only [List.mem_cons, List.not_mem_nil, or_false] at hq
      rcases hq with rfl | rfl | rfl
      · exact ⟨c, c⟩
      · exact ⟨c, u⟩
      · exact ⟨h, h⟩, by intro f; simp [exFs]⟩ (by simp) (by decide)
  refine ⟨r, h1, ?_⟩
  have := h2 ['C'] ['A', 'u'] ⟨'C', rfl, .inl rfl⟩ ⟨'A', rfl, .inr ⟨'u', rfl, rfl⟩⟩
  rw [if_pos (by simp)] at this
  exact this

/-- Two directories with skf files, the last one empty: nothing is found. -/
example : databaseFromPath exFs (.inr [['s'], ['e']]) = .error .runtimeError := by
  rw [show [['s'], ['e']] = [['s']] ++ [['e']] from rfl,
    c117_skf_directories_fails exFs [['s']] ['e'] (by decide)]
  rfl

/-- Two directories with element files. -/
def exFs2 : FileSystem where
  globElm := fun p => if p = ['d'] then [elmFile ['d'] ['C']]
    else if p = ['b', 'b'] then [elmFile ['b', 'b'] ['H']] else []
  globSkf := fun _ => []
  pathExists := fun f => f = parPath ['d'] ['C'] ['H'] ∨ f = parPath ['b', 'b'] ['H'] ['C']

/-- **C117 fails for element files in directories with names of different lengths:** the tables of C and
H are there but not found. -/
theorem c117_directories_fails : ∃ r : TextDict × TextDict,
    databaseFromPath exFs2 (.inr [['d'], ['b', 'b']]) = .ok r ∧
      r.1 ['C'] = some (elmFile ['d'] ['C']) ∧ r.1 ['H'] = some (elmFile ['b', 'b'] ['H']) ∧
      exFs2.pathExists (parPath ['d'] ['C'] ['H']) = true ∧
      r.2 ['C', 'H'] = none ∧ r.2 ['H', 'C'] = none := by
  refine ⟨_, rfl, ?_, ?_, ?_, ?_, ?_⟩ <;> decide

end Hotbit
