import Verif.Props.Analysis
import Verif.Spec.Dos
import Verif.Lemmas.KPoints
import Verif.Lemmas.Coulomb

/-!
# C85: densities of states
-/

namespace Hotbit

variable {nk n : ℕ}

/-- Every atom has an s, sp or spd basis. -/
def Shells (elements : String → Option ElementData) (symbols : List String) : Prop :=
  ∀ (I : ℕ) (s : String), symbols[I]? = some s → ∃ (el : ElementData) (no : ℕ), elements s = some el ∧ (no = 1 ∨ no = 4 ∨ no = 9) ∧
    el.orbitals = orbitalList.take no ∧ el.energies.length = no

theorem allStates_sum (F : Fin nk × Fin n → ℝ) : ((allStates nk n).map F).sum = ∑ k, ∑ a, F (k, a) := by
  unfold allStates
  rw [List.map_flatMap, sum_flatMap]
  simp only [List.map_map, Function.comp_def]
  rw [Fin.sum_univ_def]
  congr 1

theorem peaks_sum (D : DosData nk n) (F : ℝ × ℝ → ℝ) : (D.peaks.map F).sum = ∑ k, ∑ a, F (D.e k a, D.wk k) := by
  unfold DosData.peaks
  rw [List.map_flatMap, sum_flatMap, Finset.sum_comm]
  simp only [List.map_map, Function.comp_def]
  rw [Fin.sum_univ_def]
  congr 1

theorem filter_map_sum {α : Type} (p : α → Bool) (F : α → ℝ) : ∀ l : List α,
    ((l.filter p).map F).sum = (l.map fun x => if p x then F x else 0).sum
  | [] => rfl
  | a :: l => by
    have ih := filter_map_sum p F l
    cases h : p a <;> simp [h, ih]

theorem inWindow_sum (D : DosData nk n) (mn mx w z : ℝ) (g : Fin nk → Fin n → ℝ) :
    ((D.inWindow mn mx).map fun s => g s.1 s.2 * peak w (D.e s.1 s.2) z .gaussian).sum
      = densityAt D.e g (Set.Icc mn mx) w z := by
  classical
  unfold DosData.inWindow
  rw [filter_map_sum, allStates_sum]
  unfold densityAt
  apply Finset.sum_congr rfl
  intro k _
  apply Finset.sum_congr rfl
  intro a _
  simp only [decide_eq_true_eq, Set.mem_Icc]
  rfl

theorem limits_eq (D : DosData nk n) (hk : 0 < nk) (hn : 0 < n) :
    ∃ mn mx, (∀ window, D.limits window = .ok (window.getD (mn, mx))) ∧ (∀ k a, mn ≤ D.e k a ∧ D.e k a ≤ mx) ∧
      (∃ k a, D.e k a = mn) ∧ (∃ k a, D.e k a = mx) := by
  have mem : ∀ x, x ∈ ((allStates nk n).map fun s => D.e s.1 s.2) ↔ ∃ k a, D.e k a = x := by
    intro x
    simp [allStates]
  have hne : ((allStates nk n).map fun s => D.e s.1 s.2) ≠ [] := by
    intro h
    have := (mem (D.e ⟨0, hk⟩ ⟨0, hn⟩)).2 ⟨_, _, rfl⟩
    rw [h] at this
    simp at this
  obtain ⟨lo, hlo⟩ : ∃ lo, ((allStates nk n).map fun s => D.e s.1 s.2).min? = some lo := by
    cases h : ((allStates nk n).map fun s => D.e s.1 s.2).min? with
    | none => rw [List.min?_eq_none_iff] at h; exact absurd h hne
    | some m => exact ⟨m, rfl⟩
  obtain ⟨hi, hhi⟩ : ∃ lo, ((allStates nk n).map fun s => D.e s.1 s.2).max? = some lo := by
    cases h : ((allStates nk n).map fun s => D.e s.1 s.2).max? with
    | none => rw [List.max?_eq_none_iff] at h; exact absurd h hne
    | some m => exact ⟨m, rfl⟩
  have h1 := List.min?_eq_some_iff.1 hlo
  have h2 := List.max?_eq_some_iff.1 hhi
  refine ⟨lo, hi, ?_, ?_, (mem _).1 h1.1, (mem _).1 h2.1⟩
  · intro window
    unfold DosData.limits
    simp only [hlo, hhi]
  · intro k a
    exact ⟨h1.2 _ ((mem _).2 ⟨k, a, rfl⟩), h2.2 _ ((mem _).2 ⟨k, a, rfl⟩)⟩

theorem limits_of (D : DosData nk n) (hk : 0 < nk) (hn : 0 < n) (window : Option (ℝ × ℝ)) (mn mx : ℝ)
    (hg : GridEnds D.e window mn mx) : D.limits window = .ok (mn, mx) := by
  obtain ⟨m0, m1, l1, l2, ⟨k3, c3, l3⟩, k4, c4, l4⟩ := limits_eq D hk hn
  rw [l1 window]
  cases window with
  | some w => cases hg; rfl
  | none =>
    obtain ⟨⟨⟨k, c, q2⟩, q1⟩, ⟨k', c', q3⟩, q4⟩ := hg
    have w1 := q1 ⟨k3, c3, rfl⟩
    have w2 := q4 ⟨k4, c4, rfl⟩
    have w3 := (l2 k c).1
    have w4 := (l2 k' c').2
    simp only [Option.getD_none, Except.ok.injEq, Prod.mk.injEq]
    constructor <;> linarith

/-- There are ends of the axis as soon as there is a state. -/
theorem gridEnds_exists (e : Fin nk → Fin n → ℝ) (hk : 0 < nk) (hn : 0 < n) (window : Option (ℝ × ℝ)) :
    ∃ mn mx, GridEnds e window mn mx := by
  cases window with
  | some w => exact ⟨w.1, w.2, rfl⟩
  | none =>
    obtain ⟨m0, m1, l1, l2, l3, l4⟩ := limits_eq (⟨{}, fun _ => 0, fun _ _ _ => 0, e, e⟩ : DosData nk n) hk hn
    refine ⟨m0, m1, ⟨l3, ?_⟩, l4, ?_⟩
    · rintro x ⟨k, a, rfl⟩; exact (l2 k a).1
    · rintro x ⟨k, a, rfl⟩; exact (l2 k a).2

theorem broaden_gauss (x ys : List ℝ) (width mn mx : ℝ) (npts : ℕ) :
    broaden x (some ys) width .gaussian false npts (some mn) (some mx) none
      = .ok (linspace mn mx npts, (linspace mn mx npts).map (broadAt .gaussian width (x.zip ys))) := by
  unfold broaden lowEnd highEnd
  rfl

theorem ldosAtom_eq (elements : String → Option ElementData) (symbols : List String) (t : OrbTables)
    (h : orbInit elements symbols = .ok t) (D : DosData nk t.norb) (hD : D.t = t) (width mn mx : ℝ) (npts I : ℕ)
    (hI : I < symbols.length) :
    D.ldosAtom width mn mx npts I = .ok (linspace mn mx npts, (linspace mn mx npts).map
      (densityAt D.e (fun k a => D.wk k * atomPart t I (D.aux k a)) (Set.Icc mn mx) width)) := by
  have hb := blocks_length _ _ _ h
  unfold DosData.ldosAtom
  dsimp only
  rw [hD, mapM_ok_of_forall _ (fun s : Fin nk × Fin t.norb => D.wk s.1 * atomPart t I (D.aux s.1 s.2))]
  · simp only [bind, Except.bind]
    rw [broaden_gauss]
    congr 3
    funext z
    rw [← inWindow_sum]
    unfold broadAt
    rw [List.zip_map', List.map_map]
    rfl
  · intro s _
    rw [atomWf_eq _ _ _ h D.wk D.aux I s.1 s.2 true (by omega), sliceSum_atomPart _ _ _ h I (by omega)]
    rfl

theorem pldosAtom_eq (elements : String → Option ElementData) (symbols : List String) (t : OrbTables)
    (h : orbInit elements symbols = .ok t) (hsh : Shells elements symbols) (D : DosData nk t.norb) (hD : D.t = t)
    (width mn mx : ℝ) (npts I l : ℕ) (hI : I < symbols.length) (hl : l < 3) :
    D.pldosAtom width mn mx npts I l = if D.inWindow mn mx = [] then .error .indexError else
      .ok ((linspace mn mx npts).map
        (densityAt D.e (fun k a => D.wk k * shellPart t I l (D.aux k a)) (Set.Icc mn mx) width)) := by
  obtain ⟨el, no, hel, hno, horb, hen⟩ := hsh I _ (List.getElem?_eq_getElem hI)
  unfold DosData.pldosAtom
  dsimp only
  rw [hD, mapM_ok_of_forall _ (fun s : Fin nk × Fin t.norb => [D.wk s.1 * shellPart t I 0 (D.aux s.1 s.2),
    D.wk s.1 * shellPart t I 1 (D.aux s.1 s.2), D.wk s.1 * shellPart t I 2 (D.aux s.1 s.2)])]
  · simp only [bind, Except.bind, List.map_eq_nil_iff]
    by_cases hw : D.inWindow mn mx = []
    · rw [if_pos hw, if_pos hw]; rfl
    · rw [if_neg hw, if_neg hw]
      simp only [pure, Except.pure]
      rw [broaden_gauss]
      simp only
      congr 2
      funext z
      rw [← inWindow_sum]
      unfold broadAt
      rw [List.map_map, List.zip_map', List.map_map]
      congr 1
      apply List.map_congr_left
      intro s _
      interval_cases l <;> rfl
  · intro s _
    rw [c46_state_angmom _ _ _ h D.wk D.aux s.1 s.2 true I _ el (List.getElem?_eq_getElem hI) hel no hno horb hen]
    rfl

/-- C85: the local density of states of atom `I` at every grid point is the sum, over the states in the window
and no others, of k-point weight times population of the state on the atom times a normalized Gaussian. -/
theorem c85_local (elements : String → Option ElementData) (symbols : List String) (t : OrbTables)
    (h : orbInit elements symbols = .ok t) (D : DosData nk t.norb) (hD : D.t = t) (hk : 0 < nk) (hn : 0 < t.norb)
    (width : ℝ) (window : Option (ℝ × ℝ)) (npts : ℕ) (mn mx : ℝ) (hg : GridEnds D.e window mn mx) :
    D.localDos width window npts = .ok (linspace mn mx npts, (List.range symbols.length).map fun I =>
        (linspace mn mx npts).map
          (densityAt D.e (fun k a => D.wk k * atomPart t I (D.aux k a)) (Set.Icc mn mx) width)) := by
  have hb := blocks_length _ _ _ h
  unfold DosData.localDos
  rw [limits_of D hk hn window mn mx hg]
  have hne : D.t.blocks ≠ [] := by
    intro e
    obtain ⟨a, o, m, ho, -⟩ := (c23_orbital _ _ _ h 0).1 hn
    rw [hD] at e
    rw [e] at ho
    simp at ho
  simp only [bind, Except.bind, if_neg hne, pure, Except.pure]
  rw [mapM_ok_of_forall _ (fun I => (linspace mn mx npts, (linspace mn mx npts).map
      (densityAt D.e (fun k a => D.wk k * atomPart t I (D.aux k a)) (Set.Icc mn mx) width)))]
  · simp only [List.map_map, Function.comp_def, hD, hb]
  · intro I hI
    rw [hD, hb] at hI
    exact ldosAtom_eq _ _ _ h D hD width _ _ npts I (List.mem_range.1 hI)

theorem shell_atom (elements : String → Option ElementData) (symbols : List String) (t : OrbTables)
    (h : orbInit elements symbols = .ok t) (hsh : Shells elements symbols) (v : Fin t.norb → ℝ) (I : ℕ)
    (hI : I < symbols.length) :
    shellPart t I 0 v + shellPart t I 1 v + shellPart t I 2 v = atomPart t I v := by
  obtain ⟨el, no, hel, hno, horb, hen⟩ := hsh I _ (List.getElem?_eq_getElem hI)
  exact (c46_angmom _ _ _ h v I _ el (List.getElem?_eq_getElem hI) hel no hno horb hen).2

theorem densityAt_add (e g g' : Fin nk → Fin n → ℝ) (W : Set ℝ) (w z : ℝ) :
    densityAt e (fun k a => g k a + g' k a) W w z = densityAt e g W w z + densityAt e g' W w z := by
  unfold densityAt
  simp only [← Finset.sum_add_distrib]
  apply Finset.sum_congr rfl; intro k _
  apply Finset.sum_congr rfl; intro a _
  split_ifs
  · ring
  · ring

theorem densityAt_zero (e : Fin nk → Fin n → ℝ) (W : Set ℝ) (w z : ℝ) : densityAt e (fun _ _ => 0) W w z = 0 := by
  simp [densityAt]

theorem densityAt_list {ι : Type} (L : List ι) (e : Fin nk → Fin n → ℝ) (g : ι → Fin nk → Fin n → ℝ) (W : Set ℝ)
    (w z : ℝ) : (L.map fun i => densityAt e (g i) W w z).sum
      = densityAt e (fun k a => (L.map fun i => g i k a).sum) W w z := by
  induction L with
  | nil => simp [densityAt_zero]
  | cons i L ih => simp only [List.map_cons, List.sum_cons, ih, ← densityAt_add]

/-- C85: the densities per angular momentum likewise, and their sum over the three angular momenta is the local
density; the assertion about that sum never fails. A window without states raises `IndexError`. -/
theorem c85_projected (elements : String → Option ElementData) (symbols : List String) (t : OrbTables)
    (h : orbInit elements symbols = .ok t) (hsh : Shells elements symbols) (D : DosData nk t.norb) (hD : D.t = t)
    (hk : 0 < nk) (hn : 0 < t.norb) (width : ℝ) (window : Option (ℝ × ℝ)) (npts : ℕ) (mn mx : ℝ)
    (hg : GridEnds D.e window mn mx) :
    ((∃ k a, D.e k a ∈ Set.Icc mn mx) → D.localDosProj width window npts = .ok (linspace mn mx npts,
        (List.range symbols.length).map (fun I => (linspace mn mx npts).map
          (densityAt D.e (fun k a => D.wk k * atomPart t I (D.aux k a)) (Set.Icc mn mx) width)),
        (List.range symbols.length).map fun I => (List.range 3).map fun l => (linspace mn mx npts).map
          (densityAt D.e (fun k a => D.wk k * shellPart t I l (D.aux k a)) (Set.Icc mn mx) width))) ∧
      ((¬ ∃ k a, D.e k a ∈ Set.Icc mn mx) → D.localDosProj width window npts = .error .indexError) ∧
      ∀ I < symbols.length, ∀ z, densityAt D.e (fun k a => D.wk k * shellPart t I 0 (D.aux k a)) (Set.Icc mn mx) width z
        + densityAt D.e (fun k a => D.wk k * shellPart t I 1 (D.aux k a)) (Set.Icc mn mx) width z
        + densityAt D.e (fun k a => D.wk k * shellPart t I 2 (D.aux k a)) (Set.Icc mn mx) width z
        = densityAt D.e (fun k a => D.wk k * atomPart t I (D.aux k a)) (Set.Icc mn mx) width z := by
  have hb := blocks_length _ _ _ h
  have h1 := limits_of D hk hn window mn mx hg
  have hne : D.t.blocks ≠ [] := by
    intro e
    obtain ⟨a, o, m, ho, -⟩ := (c23_orbital _ _ _ h 0).1 hn
    rw [hD] at e
    rw [e] at ho
    simp at ho
  have hpos : 0 < symbols.length := by
    rw [← hb, ← hD]; exact List.length_pos_iff.2 hne
  have hw : D.inWindow mn mx = [] ↔ ¬ ∃ k a, D.e k a ∈ Set.Icc mn mx := by
    unfold DosData.inWindow
    rw [List.filter_eq_nil_iff]
    simp only [allStates, Set.mem_Icc, not_exists]
    simp
  have hsum : ∀ I < symbols.length, ∀ z,
      densityAt D.e (fun k a => D.wk k * shellPart t I 0 (D.aux k a)) (Set.Icc mn mx) width z
        + densityAt D.e (fun k a => D.wk k * shellPart t I 1 (D.aux k a)) (Set.Icc mn mx) width z
        + densityAt D.e (fun k a => D.wk k * shellPart t I 2 (D.aux k a)) (Set.Icc mn mx) width z
        = densityAt D.e (fun k a => D.wk k * atomPart t I (D.aux k a)) (Set.Icc mn mx) width z := by
    intro I hI z
    rw [← densityAt_add, ← densityAt_add]
    congr 1
    funext k a
    rw [← shell_atom _ _ _ h hsh (D.aux k a) I hI]
    ring
  refine ⟨?_, ?_, hsum⟩
  · intro hin
    have hnil : ¬ D.inWindow mn mx = [] := fun e => hw.1 e hin
    unfold DosData.localDosProj
    rw [h1]
    simp only [bind, Except.bind, if_neg hne, pure, Except.pure]
    rw [mapM_ok_of_forall _ (fun I => ((linspace mn mx npts).map
        (densityAt D.e (fun k a => D.wk k * atomPart t I (D.aux k a)) (Set.Icc mn mx) width),
      (List.range 3).map fun l => (linspace mn mx npts).map
          (densityAt D.e (fun k a => D.wk k * shellPart t I l (D.aux k a)) (Set.Icc mn mx) width)))]
    · simp only
      rw [if_neg]
      · simp only [List.map_map, Function.comp_def, hD, hb]
      · rintro ⟨r, hr, i, hi, hh⟩
        apply hh
        obtain ⟨I, hI, rfl⟩ := List.mem_map.1 hr
        rw [hD, hb, List.mem_range] at hI
        have hil : i < (linspace mn mx npts).length := by rw [linspace_length]; exact hi
        have e3 : (List.range 3) = [0, 1, 2] := rfl
        simp only [e3, List.map_cons, List.map_nil, List.sum_cons, List.sum_nil, List.getD_eq_getElem?_getD,
          List.getElem?_map, List.getElem?_eq_getElem hil, Option.map_some, Option.getD_some]
        rw [← hsum I hI]
        rw [show ∀ a b c : ℝ, a + b + c - (a + (b + (c + 0))) = 0 from fun a b c => by ring]
        norm_num
    · intro I hI
      rw [hD, hb] at hI
      have hI' := List.mem_range.1 hI
      unfold DosData.ldosChecked
      rw [ldosAtom_eq _ _ _ h D hD width _ _ npts I hI']
      simp only [bind, Except.bind]
      rw [mapM_ok_of_forall _ (fun l => (linspace mn mx npts).map
          (densityAt D.e (fun k a => D.wk k * shellPart t I l (D.aux k a)) (Set.Icc mn mx) width))]
      · rfl
      · intro l hl
        rw [pldosAtom_eq _ _ _ h hsh D hD width _ _ npts I l hI' (List.mem_range.1 hl), if_neg hnil]
  · intro hin
    have hnil : D.inWindow mn mx = [] := hw.2 hin
    unfold DosData.localDosProj
    rw [h1]
    simp only [bind, Except.bind, if_neg hne, pure, Except.pure]
    obtain ⟨m, hm⟩ : ∃ m, D.t.blocks.length = m + 1 := ⟨D.t.blocks.length - 1, by rw [hD, hb]; omega⟩
    rw [hm, List.range_succ_eq_map, List.mapM_cons]
    have : D.ldosChecked width mn mx npts 0 = .error .indexError := by
      unfold DosData.ldosChecked
      rw [ldosAtom_eq _ _ _ h D hD width _ _ npts 0 hpos]
      simp only [bind, Except.bind]
      rw [show List.range 3 = 0 :: [1, 2] from rfl, List.mapM_cons,
        pldosAtom_eq _ _ _ h hsh D hD width _ _ npts 0 0 hpos (by norm_num), if_pos hnil]
      rfl
    rw [this]
    rfl

theorem sumRows_map {ι : Type} (L : List ι) (F : ι → ℝ → ℝ) (g : List ℝ) :
    sumRows g.length (L.map fun I => g.map (F I)) = g.map fun z => (L.map fun I => F I z).sum := by
  unfold sumRows
  have gen : ∀ (L : List ι) (G : ℝ → ℝ), (L.map fun I => g.map (F I)).foldl addRows (g.map G)
      = g.map fun z => G z + (L.map fun I => F I z).sum := by
    intro L
    induction L with
    | nil => intro G; simp
    | cons I L ih =>
      intro G
      simp only [List.map_cons, List.foldl_cons]
      have : addRows (g.map G) (g.map (F I)) = g.map fun z => G z + F I z := by
        unfold addRows
        rw [List.zipWith_map]
        simp
      rw [this, ih]
      simp [add_assoc]
  have := gen L fun _ => 0
  simpa using this

/-- The populations of a state on all atoms add up to its total population. -/
theorem atomPart_sum (elements : String → Option ElementData) (symbols : List String) (t : OrbTables)
    (h : orbInit elements symbols = .ok t) (v : Fin t.norb → ℝ) :
    ((List.range symbols.length).map fun I => atomPart t I v).sum = ∑ mu, v mu := by
  have hb := blocks_length _ _ _ h
  rw [← blocks_sum elements symbols t h, ← range_blocks_sum t (sliceSum v), hb]
  congr 1
  apply List.map_congr_left
  intro I hI
  rw [sliceSum_atomPart _ _ _ h I (by rw [hb]; exact List.mem_range.1 hI)]

/-- C85: the total density of states is the sum over ALL states, in the window or not, of the k-point weight times
a normalized Gaussian. -/
theorem c85_total {n : ℕ} (D : DosData nk n) (hk : 0 < nk) (hn : 0 < n) (width : ℝ) (window : Option (ℝ × ℝ))
    (npts : ℕ) (mn mx : ℝ) (hg : GridEnds D.e window mn mx) :
    D.dos true false false width window npts = .ok ⟨linspace mn mx npts,
        (linspace mn mx npts).map (densityAt D.e (fun k _ => D.wk k) Set.univ width), none, none⟩ := by
  unfold DosData.dos
  rw [limits_of D hk hn window mn mx hg]
  simp only [Bool.and_false, Bool.or_self, Bool.false_eq_true, if_false, if_true, bind, Except.bind, pure,
    Except.pure]
  rw [broaden_gauss]
  simp only
  congr 2
  apply List.map_congr_left
  intro z _
  unfold broadAt
  rw [List.zip_map', List.map_map]
  have := peaks_sum D (fun p => p.2 * peak width p.1 z .gaussian)
  simp only [densityAt, Set.mem_univ, if_true]
  exact this

/-- C85: for states normalized to one, if no state lies outside the window (in particular without a window), then
the local densities of the atoms add up to the total density, and so do the total and the angular momentum densities
of the projected mode. -/
theorem c85_sum_partial (elements : String → Option ElementData) (symbols : List String) (t : OrbTables)
    (h : orbInit elements symbols = .ok t) (hsh : Shells elements symbols) (D : DosData nk t.norb) (hD : D.t = t)
    (hk : 0 < nk) (hn : 0 < t.norb) (haux : ∀ k a, ∑ mu, D.aux k a mu = 1) (width : ℝ)
    (window : Option (ℝ × ℝ)) (npts : ℕ)
    (hwin : ∀ w, window = some w → ∀ k a, w.1 ≤ D.e k a ∧ D.e k a ≤ w.2) :
    ∃ es d rows pd, D.dos true false false width window npts = .ok ⟨es, d, none, none⟩ ∧
      D.localDos width window npts = .ok (es, rows) ∧ sumRows npts rows = d ∧
      D.dos true true false width window npts = .ok ⟨es, d, some pd, none⟩ ∧
      pd.length = 3 ∧ sumRows npts pd = d := by
  obtain ⟨mn, mx, hg⟩ := gridEnds_exists D.e hk hn window
  have hin : ∀ k a, D.e k a ∈ Set.Icc mn mx := by
    intro k a
    cases window with
    | some w =>
      cases hg
      exact hwin _ rfl k a
    | none => exact ⟨hg.1.2 ⟨k, a, rfl⟩, hg.2.2 ⟨k, a, rfl⟩⟩
  have hall : ∀ g w z, densityAt D.e g (Set.Icc mn mx) w z = densityAt D.e g Set.univ w z := by
    intro g w z
    simp [densityAt, hin]
  have hlen := linspace_length mn mx npts
  have hsum : ∀ z, ((List.range symbols.length).map fun I =>
      densityAt D.e (fun k a => D.wk k * atomPart t I (D.aux k a)) (Set.Icc mn mx) width z).sum
      = densityAt D.e (fun k _ => D.wk k) Set.univ width z := by
    intro z
    rw [densityAt_list, hall]
    congr 1
    funext k a
    rw [List.sum_map_mul_left, atomPart_sum _ _ _ h, haux, mul_one]
  obtain ⟨g2, -, g4⟩ := c85_projected _ _ _ h hsh D hD hk hn width window npts mn mx hg
  have g2 := g2 ⟨⟨0, hk⟩, ⟨0, hn⟩, hin _ _⟩
  have hd : ∀ F : ℕ → ℝ → ℝ, sumRows npts ((List.range symbols.length).map fun I => (linspace mn mx npts).map (F I))
      = (linspace mn mx npts).map fun z => ((List.range symbols.length).map fun I => F I z).sum := by
    intro F
    have := sumRows_map (List.range symbols.length) F (linspace mn mx npts)
    rwa [hlen] at this
  refine ⟨_, _, _, (List.range 3).map fun l => (linspace mn mx npts).map fun z =>
      ((List.range symbols.length).map fun I =>
        densityAt D.e (fun k a => D.wk k * shellPart t I l (D.aux k a)) (Set.Icc mn mx) width z).sum,
    c85_total D hk hn width window npts mn mx hg, c85_local _ _ _ h D hD hk hn width window npts mn mx hg,
    ?_, ?_, by simp, ?_⟩
  · rw [hd]
    simp only [hsum]
  · unfold DosData.dos
    rw [g2]
    simp only [Bool.and_false, Bool.or_self, Bool.false_eq_true, if_false, if_true, bind, Except.bind, pure,
      Except.pure]
    rw [hd]
    simp only [hsum, Except.ok.injEq, DosResult.mk.injEq, true_and, Option.some.injEq, and_true]
    apply List.map_congr_left
    intro l hl
    rw [← hd]
    congr 1
    rw [List.map_map]
    apply List.map_congr_left
    intro I hI
    simp only [Function.comp]
    rw [List.getD_eq_getElem?_getD, List.getElem?_map, List.getElem?_range (List.mem_range.1 hl)]
    rfl
  · have := sumRows_map (List.range 3) (fun l z => ((List.range symbols.length).map fun I =>
        densityAt D.e (fun k a => D.wk k * shellPart t I l (D.aux k a)) (Set.Icc mn mx) width z).sum)
        (linspace mn mx npts)
    rw [hlen] at this
    rw [this]
    apply List.map_congr_left
    intro z _
    rw [← hsum z]
    rw [show List.range 3 = [0, 1, 2] from rfl]
    simp only [List.map_cons, List.map_nil, List.sum_cons, List.sum_nil, add_zero]
    rw [← List.sum_map_add, ← List.sum_map_add]
    congr 1
    apply List.map_congr_left
    intro I hI
    rw [← g4 I (List.mem_range.1 hI) z]
    ring

theorem gaussAt_pos (w c z : ℝ) (hw : 0 < w) : 0 < gaussAt w c z := by
  have := Real.pi_pos
  unfold gaussAt
  positivity

/-- C85: as soon as the window leaves out a state, the projected total density (which counts the states in the
window only) is smaller than the total density (which counts all of them), at every energy. -/
theorem c85_window_differs (elements : String → Option ElementData) (symbols : List String) (t : OrbTables)
    (h : orbInit elements symbols = .ok t) (hsh : Shells elements symbols) (D : DosData nk t.norb) (hD : D.t = t)
    (haux : ∀ k a, ∑ mu, D.aux k a mu = 1) (hwk : ∀ k, 0 < D.wk k) (width : ℝ) (hw : 0 < width)
    (w : ℝ × ℝ) (npts : ℕ) (hin : ∃ k a, D.e k a ∈ Set.Icc w.1 w.2) (hout : ∃ k a, D.e k a ∉ Set.Icc w.1 w.2) :
    ∃ es d d' pd, D.dos true false false width (some w) npts = .ok ⟨es, d, none, none⟩ ∧
      D.dos true true false width (some w) npts = .ok ⟨es, d', pd, none⟩ ∧ d.length = npts ∧ d'.length = npts ∧
      ∀ i (h1 : i < d.length) (h2 : i < d'.length), d'[i] < d[i] := by
  obtain ⟨k0, a0, h0⟩ := hout
  have hk : 0 < nk := k0.pos
  have hn : 0 < t.norb := a0.pos
  have hg : GridEnds D.e (some w) w.1 w.2 := rfl
  have hlen := linspace_length w.1 w.2 npts
  obtain ⟨g2, -, g4⟩ := c85_projected _ _ _ h hsh D hD hk hn width (some w) npts w.1 w.2 hg
  have g2 := g2 hin
  have hd : ∀ F : ℕ → ℝ → ℝ, sumRows npts ((List.range symbols.length).map fun I => (linspace w.1 w.2 npts).map (F I))
      = (linspace w.1 w.2 npts).map fun z => ((List.range symbols.length).map fun I => F I z).sum := by
    intro F
    have := sumRows_map (List.range symbols.length) F (linspace w.1 w.2 npts)
    rwa [hlen] at this
  have hsum : ∀ z, ((List.range symbols.length).map fun I =>
      densityAt D.e (fun k a => D.wk k * atomPart t I (D.aux k a)) (Set.Icc w.1 w.2) width z).sum
      = densityAt D.e (fun k _ => D.wk k) (Set.Icc w.1 w.2) width z := by
    intro z
    rw [densityAt_list]
    congr 1
    funext k a
    rw [List.sum_map_mul_left, atomPart_sum _ _ _ h, haux, mul_one]
  have hpd : ∃ pd, D.dos true true false width (some w) npts = .ok ⟨linspace w.1 w.2 npts,
      (linspace w.1 w.2 npts).map (densityAt D.e (fun k _ => D.wk k) (Set.Icc w.1 w.2) width), some pd, none⟩ := by
    unfold DosData.dos
    rw [g2]
    simp only [Bool.and_false, Bool.or_self, Bool.false_eq_true, if_false, if_true, bind, Except.bind, pure,
      Except.pure]
    rw [hd]
    simp only [hsum]
    exact ⟨_, rfl⟩
  obtain ⟨pd, hpd⟩ := hpd
  refine ⟨linspace w.1 w.2 npts, _, _, some pd,
    c85_total D hk hn width (some w) npts w.1 w.2 hg, hpd, by simp [hlen], by simp [hlen], ?_⟩
  · intro i h1 h2
    simp only [List.getElem_map]
    generalize (linspace w.1 w.2 npts)[i]'(by simpa using h1) = z
    unfold densityAt
    have pos : ∀ k a, 0 < D.wk k * gaussAt width (D.e k a) z := fun k a =>
      mul_pos (hwk k) (gaussAt_pos width (D.e k a) z hw)
    simp only [Set.mem_univ, if_true]
    apply Finset.sum_lt_sum
    · intro k _
      refine Finset.sum_le_sum fun a _ => ?_
      have := pos k a
      split_ifs <;> linarith
    · refine ⟨k0, Finset.mem_univ _, Finset.sum_lt_sum (fun a _ => ?_) ⟨a0, Finset.mem_univ _, ?_⟩⟩
      · have := pos k0 a
        split_ifs <;> linarith
      · rw [if_neg h0]
        exact pos k0 a0

theorem exShells : Shells exElements ["H", "O", "H"] := by
  intro I s hs
  have hI : I < 3 := (List.getElem?_eq_some_iff.1 hs).1
  interval_cases I
  · cases hs; exact ⟨_, 1, rfl, by norm_num, rfl, rfl⟩
  · cases hs; exact ⟨_, 4, rfl, by norm_num, rfl, rfl⟩
  · cases hs; exact ⟨_, 1, rfl, by norm_num, rfl, rfl⟩

/-- C85 refuted for windows that leave out states, with a concrete case: water with six states of energies
0, 1, ..., 5 and the window from 0 to 2. -/
theorem c85_window_fails : ∃ (elements : String → Option ElementData) (symbols : List String) (t : OrbTables)
    (D : DosData 1 t.norb), orbInit elements symbols = .ok t ∧ D.t = t ∧
    (∀ k a, ∑ mu, D.aux k a mu = 1) ∧
    ∃ es d d' pd, D.dos true false false 0.05 (some (0, 2)) 200 = .ok ⟨es, d, none, none⟩ ∧
      D.dos true true false 0.05 (some (0, 2)) 200 = .ok ⟨es, d', pd, none⟩ ∧ d ≠ d' := by
  obtain ⟨t, ht, hn⟩ : ∃ t, orbInit exElements ["H", "O", "H"] = .ok t ∧ t.norb = 6 := ⟨_, rfl, rfl⟩
  have haux : ∀ (k : Fin 1) (a : Fin t.norb), ∑ mu : Fin t.norb, (if a = mu then (1 : ℝ) else 0) = 1 := by
    intro k a; simp
  refine ⟨exElements, ["H", "O", "H"], t,
    ⟨t, fun _ => 1, fun _ a mu => if a = mu then 1 else 0, fun _ a => a.val, fun _ _ => 1⟩, ht, rfl, haux, ?_⟩
  obtain ⟨es, d, d', pd, h1, h2, h3, h4, h5⟩ := c85_window_differs _ _ _ ht exShells
    ⟨t, fun _ => 1, fun _ a mu => if a = mu then 1 else 0, fun _ a => a.val, fun _ _ => 1⟩ rfl haux
    (fun _ => one_pos) 0.05 (by norm_num) (0, 2) 200 ⟨0, ⟨1, by omega⟩, by norm_num⟩
    ⟨0, ⟨3, by omega⟩, by norm_num⟩
  refine ⟨es, d, d', pd, h1, h2, ?_⟩
  rintro rfl
  exact lt_irrefl _ (h5 0 (by omega) (by omega))

/-- C85: without broadening there is one peak for each state, with the weight of its k-point: the weights add up to
the number of basis functions times the sum of the weights, weighted with the occupations to the number of
electrons, and weighted also with the energies to the sum of the energies of the occupied states. Occupations are refused with
broadening or projection. -/
theorem c85_plain {n : ℕ} (D : DosData nk n) (hk : 0 < nk) (hn : 0 < n) (width : ℝ) (window : Option (ℝ × ℝ))
    (npts : ℕ) (br : Bool) :
    (∃ es ds fs, D.dos false false true width window npts = .ok ⟨es, ds, none, some fs⟩ ∧
      es.length = n * nk ∧ ds.length = n * nk ∧ fs.length = n * nk ∧
      ds.sum = n * ∑ k, D.wk k ∧ (List.zipWith (· * ·) ds fs).sum = ∑ k, D.wk k * ∑ a, D.f k a ∧
      (List.zipWith (· * ·) (List.zipWith (· * ·) ds fs) es).sum = ∑ k, D.wk k * ∑ a, D.f k a * D.e k a) ∧
    D.dos true br true width window npts = .error .assertionError ∧
    D.dos br true true width window npts = .error .assertionError := by
  refine ⟨?_, ?_, ?_⟩
  · obtain ⟨mn, mx, hg⟩ := gridEnds_exists D.e hk hn window
    set L : List (Fin nk × Fin n) := (List.finRange n).flatMap fun a => (List.finRange nk).map fun k => (k, a) with hL
    have hp : D.peaks = L.map fun s => (D.e s.1 s.2, D.wk s.1) := by
      rw [hL, List.map_flatMap]
      simp only [List.map_map, Function.comp_def]
      rfl
    have ho : D.occs = L.map fun s => D.f s.1 s.2 := by
      rw [hL, List.map_flatMap]
      simp only [List.map_map, Function.comp_def]
      rfl
    have hsum : ∀ F : Fin nk × Fin n → ℝ, (L.map F).sum = ∑ k, ∑ a, F (k, a) := by
      intro F
      rw [hL, List.map_flatMap, sum_flatMap, Finset.sum_comm]
      simp only [List.map_map, Function.comp_def]
      rfl
    have hlen : L.length = n * nk := by
      rw [hL]; simp
    refine ⟨L.map fun s => D.e s.1 s.2, L.map fun s => D.wk s.1, L.map fun s => D.f s.1 s.2, by
      have e1 : L.map (fun s => D.e s.1 s.2) = D.peaks.map Prod.fst := by rw [hp, List.map_map]; rfl
      have e2 : L.map (fun s => D.wk s.1) = D.peaks.map Prod.snd := by rw [hp, List.map_map]; rfl
      rw [e1, e2, ← ho]
      unfold DosData.dos
      rw [limits_of D hk hn window mn mx hg]
      rfl, ?_, ?_, ?_, ?_, ?_, ?_⟩
    · simp [hlen]
    · simp [hlen]
    · simp [hlen]
    · rw [hsum]
      simp [Finset.mul_sum]
    · rw [List.zipWith_map, List.zipWith_self, hsum]
      simp [Finset.mul_sum]
    · rw [List.zipWith_map, List.zipWith_self, List.zipWith_map, List.zipWith_self, hsum]
      simp [Finset.mul_sum, mul_assoc]
  · unfold DosData.dos
    simp
    rfl
  · unfold DosData.dos
    simp
    rfl

end Hotbit
