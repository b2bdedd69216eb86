import Verif.Model.Dielectric
import Verif.Props.Broaden
import Verif.Props.Dos

/-!
# C109: the dielectric function
-/

namespace Hotbit

open Classical

theorem indexTrue_ok {l : List ℝ} {p : ℝ → Prop} {i : ℕ} (h : indexTrue l p = .ok i) :
    i < l.length ∧ p (l.getD i 0) ∧ ∀ j < i, ¬ p (l.getD j 0) := by
  unfold indexTrue at h
  cases hf : l.findIdx? (fun x => decide (p x)) with
  | none => rw [hf] at h; simp at h
  | some k =>
    rw [hf] at h
    simp only [Except.ok.injEq] at h
    subst h
    rw [List.findIdx?_eq_some_iff_getElem] at hf
    obtain ⟨hk, hp, hn⟩ := hf
    refine ⟨hk, ?_, ?_⟩
    · simpa [List.getElem?_eq_getElem hk] using hp
    · intro j hj
      have := hn j hj
      simpa [List.getElem?_eq_getElem (by omega : j < l.length)] using this

theorem indexTrue_error {l : List ℝ} {p : ℝ → Prop} {x : Exn} (h : indexTrue l p = .error x) : x = .valueError ∧ ∀ y ∈ l, ¬ p y := by
  unfold indexTrue at h
  cases hf : l.findIdx? (fun x => decide (p x)) with
  | none =>
    rw [hf] at h
    rw [List.findIdx?_eq_none_iff] at hf
    refine ⟨by simpa using h.symm, fun y hy => by simpa using hf y hy⟩
  | some k => rw [hf] at h; simp at h

theorem indexTrue_none {l : List ℝ} {p : ℝ → Prop} (h : ∀ y ∈ l, ¬ p y) : indexTrue l p = .error .valueError := by
  unfold indexTrue
  rw [List.findIdx?_eq_none_iff.2 (fun y hy => by simpa using h y hy)]

theorem mem_rangeIncl {i j x : ℕ} : x ∈ rangeIncl i j ↔ i ≤ x ∧ x ≤ j := by
  simp only [rangeIncl, List.mem_map, List.mem_range]
  constructor
  · rintro ⟨k, hk, rfl⟩; omega
  · rintro ⟨h1, h2⟩; exact ⟨x - i, by omega, by omega⟩

theorem nodup_rangeIncl (i j : ℕ) : (rangeIncl i j).Nodup := by
  unfold rangeIncl
  exact List.nodup_range.map fun a b h => by simpa using h

theorem mapM_ok_map {α β : Type} (g : α → Except Exn β) (l : List α) (r : List β) (h : l.mapM g = .ok r) :
    (∀ a ∈ l, ∃ b, g a = .ok b) ∧ ∀ g' : α → β, (∀ a ∈ l, g a = .ok (g' a)) → r = l.map g' := by
  induction l generalizing r with
  | nil =>
    simp only [List.mapM_nil, pure, Except.pure, Except.ok.injEq] at h
    subst h
    simp
  | cons a l ih =>
    rw [List.mapM_cons] at h
    cases ha : g a with
    | error e => simp [ha, Bind.bind, Except.bind] at h
    | ok b =>
      cases hl : l.mapM g with
      | error e => simp [ha, hl, Bind.bind, Except.bind] at h
      | ok bs =>
        simp only [ha, hl, Bind.bind, Except.bind, pure, Except.pure, Except.ok.injEq] at h
        subst h
        obtain ⟨h1, h2⟩ := ih bs hl
        refine ⟨?_, ?_⟩
        · intro x hx
          rcases List.mem_cons.1 hx with rfl | hx
          · exact ⟨b, ha⟩
          · exact h1 x hx
        · intro g' hg'
          have := hg' a (by simp)
          rw [ha] at this
          simp only [Except.ok.injEq] at this
          rw [List.map_cons, ← this, h2 g' fun x hx => hg' x (by simp [hx])]

theorem mapM_error_mem {α β : Type} (g : α → Except Exn β) (l : List α) (x : Exn) (h : l.mapM g = .error x) :
    ∃ a ∈ l, g a = .error x := by
  induction l with
  | nil => simp [pure, Except.pure] at h
  | cons a l ih =>
    rw [List.mapM_cons] at h
    cases ha : g a with
    | error e =>
      simp only [ha, Bind.bind, Except.bind, Except.error.injEq] at h
      exact ⟨a, by simp, by rw [ha, h]⟩
    | ok b =>
      cases hl : l.mapM g with
      | error e =>
        simp only [ha, hl, Bind.bind, Except.bind, Except.error.injEq] at h
        obtain ⟨y, hy, he⟩ := ih (by rw [hl, h])
        exact ⟨y, by simp [hy], he⟩
      | ok bs => simp [ha, hl, Bind.bind, Except.bind, pure, Except.pure] at h

/-- Excitations of a k-point: energy and weight for the three directions. -/
noncomputable def KStates.transition (K : KStates) (hbar : ℝ) (p : ℕ × ℕ) : ℝ × (Fin 3 → ℝ) :=
  (K.e.getD p.2 0 - K.e.getD p.1 0, fun d => K.wk * (K.f.getD p.1 0 - K.f.getD p.2 0) * ‖K.velocity hbar p.1 p.2 d‖ ^ 2)

/-- Every number in the list of energies is a band energy in ascending order, occupations are between 0 and 2, in descending order. -/
structure KStates.Ordered (K : KStates) : Prop where
  len : K.f.length = K.e.length
  e_mono : ∀ i j, i ≤ j → j < K.e.length → K.e.getD i 0 ≤ K.e.getD j 0
  f_anti : ∀ i j, i ≤ j → j < K.f.length → K.f.getD j 0 ≤ K.f.getD i 0
  f_le : ∀ i < K.f.length, K.f.getD i 0 ≤ 2
  f_nonneg : ∀ i < K.f.length, 0 ≤ K.f.getD i 0

/-- C109: the excitations of a k-point are transitions between different pairs of states, from lower to higher, with an occupation
difference of at least 0.05, and all states below the upper one are below the cutoff; all pairs with a larger difference of occupations and
an energy below the cutoff are there. -/
theorem c109_excitations (K : KStates) (hK : K.Ordered) (hbar cutoff : ℝ) (L : List (ℝ × (Fin 3 → ℝ)))
    (h : K.excitations hbar 0.05 cutoff = .ok L) :
    ∃ P : List (ℕ × ℕ), P.Nodup ∧ L = P.map (K.transition hbar) ∧
      (∀ a b, (a, b) ∈ P → a < b ∧ b < K.e.length ∧ 0.05 ≤ K.f.getD a 0 - K.f.getD b 0 ∧
        ∀ c < b, K.e.getD c 0 ≤ K.e.getD a 0 + cutoff) ∧
      ∀ a b, a < b → b < K.e.length → 0.05 < K.f.getD a 0 - K.f.getD b 0 → K.e.getD b 0 < K.e.getD a 0 + cutoff → (a, b) ∈ P := by
  unfold KStates.excitations at h
  cases h1 : indexTrue K.f fun x => x < 2 - 0.05 with
  | error e => simp only [h1, Bind.bind, Except.bind, reduceCtorEq] at h
  | ok bmin =>
  cases h2 : indexTrue K.e fun x => x > K.e.getD bmin 0 - cutoff with
  | error e => simp only [h1, h2, Bind.bind, Except.bind, reduceCtorEq] at h
  | ok amin =>
  cases h3 : indexTrue K.f fun x => x < 0.05 with
  | error e => simp only [h1, h2, h3, Bind.bind, Except.bind, reduceCtorEq] at h
  | ok amax =>
  cases h4 : (rangeIncl amin amax).mapM fun a => K.from_ hbar 0.05 cutoff bmin a with
  | error e => simp only [h1, h2, h3, h4, Bind.bind, Except.bind, reduceCtorEq] at h
  | ok l =>
  simp only [h1, h2, h3, h4, Bind.bind, Except.bind, pure, Except.pure, Except.ok.injEq] at h
  obtain ⟨g1, g2⟩ := mapM_ok_map _ _ _ h4
  have key : ∀ a ∈ rangeIncl amin amax, ∃ bm, (indexTrue K.e fun x => x > K.e.getD a 0 + cutoff) = .ok bm := by
    intro a ha
    obtain ⟨b, hb⟩ := g1 a ha
    unfold KStates.from_ at hb
    cases hi : indexTrue K.e fun x => x > K.e.getD a 0 + cutoff with
    | error e => simp only [hi, Bind.bind, Except.bind, reduceCtorEq] at hb
    | ok bm => exact ⟨bm, rfl⟩
  let bm : ℕ → ℕ := fun a => match indexTrue K.e fun x => x > K.e.getD a 0 + cutoff with
    | .ok b => b
    | .error _ => 0
  have hbm : ∀ a ∈ rangeIncl amin amax, (indexTrue K.e fun x => x > K.e.getD a 0 + cutoff) = .ok (bm a) := by
    intro a ha
    obtain ⟨b, hb⟩ := key a ha
    simp only [bm, hb]
  have hl := g2 (fun a => (rangeIncl (max (a + 1) bmin) (bm a)).flatMap fun b => K.pair hbar 0.05 a b) (by
    intro a ha
    simp only [KStates.from_, hbm a ha, Bind.bind, Except.bind, pure, Except.pure])
  let P : List (ℕ × ℕ) := (rangeIncl amin amax).flatMap fun a =>
    ((rangeIncl (max (a + 1) bmin) (bm a)).filter fun b => decide ¬ (K.f.getD a 0 - K.f.getD b 0 < 0.05)).map fun b => (a, b)
  have memP : ∀ a b, (a, b) ∈ P ↔ (amin ≤ a ∧ a ≤ amax) ∧ (max (a + 1) bmin ≤ b ∧ b ≤ bm a) ∧ ¬ (K.f.getD a 0 - K.f.getD b 0 < 0.05) := by
    intro a b
    simp only [P, List.mem_flatMap, List.mem_map, List.mem_filter, mem_rangeIncl, decide_eq_true_eq, Prod.mk.injEq]
    constructor
    · rintro ⟨a', ha', b', hb', rfl, rfl⟩; exact ⟨ha', hb'⟩
    · rintro ⟨ha, hb⟩; exact ⟨a, ha, b, hb, rfl, rfl⟩
  obtain ⟨i1, i2, i3⟩ := indexTrue_ok h1
  obtain ⟨j1, j2, j3⟩ := indexTrue_ok h2
  obtain ⟨k1, k2, k3⟩ := indexTrue_ok h3
  refine ⟨P, ?_, ?_, ?_, ?_⟩
  · simp only [P]
    rw [List.nodup_flatMap]
    constructor
    · intro a _
      exact ((nodup_rangeIncl _ _).filter _).map fun x y h => by simpa using h
    · refine (nodup_rangeIncl amin amax).imp ?_
      intro a a' hne
      simp only [Function.onFun, List.disjoint_left, List.mem_map, List.mem_filter]
      rintro x ⟨b, -, rfl⟩ ⟨b', -, h⟩
      simp only [Prod.mk.injEq] at h
      exact hne h.1.symm
  · rw [← h, hl]
    simp only [P, List.map_flatMap]
    rw [List.flatMap_def]
    congr 1
    apply List.map_congr_left
    intro a _
    rw [List.flatMap_def]
    generalize rangeIncl (max (a + 1) bmin) (bm a) = R
    induction R with
    | nil => rfl
    | cons b R ih =>
      rw [List.map_cons, List.flatten_cons, ih, List.filter_cons]
      by_cases hd : K.f.getD a 0 - K.f.getD b 0 < 0.05
      · have hp : K.pair hbar 0.05 a b = [] := by simp only [KStates.pair, if_pos hd]
        rw [hp, if_neg (by simpa using hd)]; rfl
      · have hp : K.pair hbar 0.05 a b = [K.transition hbar (a, b)] := by
          simp only [KStates.pair, if_neg hd, KStates.transition]
        rw [hp, if_pos (by simpa using hd)]; rfl
  · intro a b hab
    obtain ⟨ha, hb, hd⟩ := (memP a b).1 hab
    obtain ⟨m1, m2, m3⟩ := indexTrue_ok (hbm a (mem_rangeIncl.2 ha))
    refine ⟨by omega, by omega, not_lt.1 hd, ?_⟩
    intro c hc
    exact not_lt.1 (m3 c (by omega))
  · intro a b hab hb hdf hde
    have hbl : b < K.f.length := by rw [hK.len]; exact hb
    have hb1 : bmin ≤ b := by
      by_contra hcon
      apply i3 b (by omega)
      have := hK.f_le a (by omega)
      linarith
    have ha1 : amin ≤ a := by
      by_contra hcon
      apply j3 a (by omega)
      have := hK.e_mono bmin b hb1 hb
      change _ < _
      linarith
    have ha2 : a ≤ amax := by
      by_contra hcon
      have := hK.f_anti amax a (by omega) (by omega)
      have := hK.f_nonneg b hbl
      linarith
    obtain ⟨m1, m2, m3⟩ := indexTrue_ok (hbm a (mem_rangeIncl.2 ⟨ha1, ha2⟩))
    have hb2 : b ≤ bm a := by
      by_contra hcon
      have h5 := hK.e_mono (bm a) b (by omega) hb
      have : K.e.getD (bm a) 0 > K.e.getD a 0 + cutoff := m2
      linarith
    exact (memP a b).2 ⟨⟨ha1, ha2⟩, ⟨by omega, hb2⟩, not_lt.2 hdf.le⟩

/-- C109 fails without a cutoff: the default arguments always raise an error, for every set of bands whose energies span less
than the built-in limit of `1e10` Hartree. -/
theorem c109_default_fails (hbar hartree width : ℝ) (N : ℕ) (ks : List KStates)
    (he : ∀ K ∈ ks, ∀ x ∈ K.e, ∀ y ∈ K.e, x ≤ y + 1E10) (hl : ∀ K ∈ ks, K.f.length = K.e.length) (running : List String)
    (hr : "dielectric function" ∉ running) :
    dielectric hbar hartree width none N ks running = ("dielectric function" :: running, .error .valueError) := by
  have hfrom : ∀ K ∈ ks, ∀ bmin a, a < K.e.length → K.from_ hbar 0.05 1E10 bmin a = .error .valueError := by
    intro K hK bmin a ha
    unfold KStates.from_
    rw [indexTrue_none]
    · rfl
    · intro y hy
      rw [gt_iff_lt, not_lt]
      apply he K hK y hy
      rw [List.getD_eq_getElem?_getD, List.getElem?_eq_getElem ha, Option.getD_some]
      exact List.getElem_mem ha
  have hexc : ∀ K ∈ ks, K.excitations hbar 0.05 1E10 = .error .valueError ∨ K.excitations hbar 0.05 1E10 = .ok [] := by
    intro K hK
    unfold KStates.excitations
    cases h1 : indexTrue K.f fun x => x < 2 - 0.05 with
    | error e => left; simp only [Bind.bind, Except.bind, (indexTrue_error h1).1]
    | ok bmin =>
    cases h2 : indexTrue K.e fun x => x > K.e.getD bmin 0 - 1E10 with
    | error e => left; simp only [Bind.bind, Except.bind, h2, (indexTrue_error h2).1]
    | ok amin =>
    cases h3 : indexTrue K.f fun x => x < 0.05 with
    | error e => left; simp only [Bind.bind, Except.bind, h2, h3, (indexTrue_error h3).1]
    | ok amax =>
    simp only [h2, h3, Bind.bind, Except.bind]
    cases h4 : (rangeIncl amin amax).mapM fun a => K.from_ hbar 0.05 1E10 bmin a with
    | error e =>
      left
      obtain ⟨a, ha, hae⟩ := mapM_error_mem _ _ _ h4
      have := hfrom K hK bmin a (by
        have := (indexTrue_ok h3).1
        have := (mem_rangeIncl.1 ha).2
        have := hl K hK
        omega)
      rw [this] at hae
      simp only [Except.error.injEq] at hae
      simp only [hae]
    | ok l =>
      right
      have hnil : rangeIncl amin amax = [] := by
        rw [List.eq_nil_iff_forall_not_mem]
        intro a ha
        obtain ⟨b, hb⟩ := (mapM_ok_map _ _ _ h4).1 a ha
        rw [hfrom K hK bmin a (by
          have := (indexTrue_ok h3).1
          have := (mem_rangeIncl.1 ha).2
          have := hl K hK
          omega)] at hb
        simp at hb
      rw [hnil] at h4
      simp only [List.mapM_nil, pure, Except.pure, Except.ok.injEq] at h4
      subst h4
      rfl
  have hmap : (ks.mapM fun K => K.excitations hbar 0.05 1E10) = .error .valueError ∨
      ∃ l, (ks.mapM fun K => K.excitations hbar 0.05 1E10) = .ok l ∧ l.flatten = [] := by
    cases h : ks.mapM fun K => K.excitations hbar 0.05 1E10 with
    | error e =>
      left
      obtain ⟨K, hK, hKe⟩ := mapM_error_mem _ _ _ h
      rcases hexc K hK with h' | h'
      · rw [h'] at hKe; simpa using hKe.symm
      · rw [h'] at hKe; simp at hKe
    | ok l =>
      right
      obtain ⟨g1, g2⟩ := mapM_ok_map _ _ _ h
      refine ⟨l, rfl, ?_⟩
      rw [g2 (fun _ => []) (by
        intro K hK
        rcases hexc K hK with h' | h'
        · obtain ⟨b, hb⟩ := g1 K hK; rw [h'] at hb; simp at hb
        · exact h')]
      simp
  unfold dielectric
  rw [if_neg hr]
  simp only
  rcases hmap with h | ⟨l, h, hnil⟩
  · rw [h]
  · rw [h]
    simp only [hnil]
    simp [dielectricBroaden, Bind.bind, Except.bind]

/-- C109: after an error of any kind its timer stays on, so all further calls fail. -/
theorem c109_again_fails (hbar hartree width : ℝ) (cutoff : Option ℝ) (N : ℕ) (ks : List KStates) (running : List String) (e : Exn)
    (h : (dielectric hbar hartree width cutoff N ks running).2 = .error e) (width' : ℝ) (cutoff' : Option ℝ) (N' : ℕ) (ks' : List KStates) :
    (dielectric hbar hartree width' cutoff' N' ks' (dielectric hbar hartree width cutoff N ks running).1).2 = .error .assertionError := by
  have hin : "dielectric function" ∈ (dielectric hbar hartree width cutoff N ks running).1 := by
    unfold dielectric at h ⊢
    by_cases hr : "dielectric function" ∈ running
    · rw [if_pos hr]; exact hr
    · rw [if_neg hr] at h ⊢
      revert h
      cases cutoff with
      | none =>
        dsimp only
        generalize ks.mapM (fun K => K.excitations hbar 0.05 1E10) = m
        cases m with
        | error e => intro _; exact List.mem_cons_self
        | ok l =>
          dsimp only
          generalize dielectricBroaden hbar hartree (width / hartree) 1E10 N l.flatten = b
          cases b with
          | error e => intro _; exact List.mem_cons_self
          | ok r => intro h; simp at h
      | some c =>
        dsimp only
        generalize ks.mapM (fun K => K.excitations hbar 0.05 (c / hartree)) = m
        cases m with
        | error e => intro _; exact List.mem_cons_self
        | ok l =>
          dsimp only
          generalize dielectricBroaden hbar hartree (width / hartree) (c / hartree) N l.flatten = b
          cases b with
          | error e => intro _; exact List.mem_cons_self
          | ok r => intro h; simp at h
  generalize (dielectric hbar hartree width cutoff N ks running).1 = run at hin
  unfold dielectric
  rw [if_pos hin]

/-- C109: when there are excitations, the function returned is, at `N` energies from the width to the largest excitation energy
(or to the cutoff if that is less), the sum of the Gaussians of all excitations divided by the square of the energy, times `4π²/ħ`,
for each direction; it is never negative. -/
theorem c109_values (hbar hartree width cutoff : ℝ) (hb : 0 < hbar) (hw : 0 < width) (N : ℕ) (ex : List (ℝ × (Fin 3 → ℝ)))
    (hex : ex ≠ []) (hwt : ∀ p ∈ ex, ∀ d, 0 ≤ p.2 d) :
    ∃ top ∈ ex.map Prod.fst, (∀ p ∈ ex, p.1 ≤ top) ∧
      ∃ y : Fin 3 → List ℝ, dielectricBroaden hbar hartree width cutoff N ex =
        .ok ((linspace width (min top cutoff) N).map (· * hartree), y) ∧
      ∀ d, y d = (linspace width (min top cutoff) N).map (fun x =>
        (ex.map fun p => p.2 d * peak width p.1 x .gaussian).sum / x ^ 2 * (4 * Real.pi ^ 2 / hbar)) ∧ ∀ v ∈ y d, 0 ≤ v := by
  obtain ⟨top, ht⟩ : ∃ t, (ex.map Prod.fst).max? = some t := by
    cases h : (ex.map Prod.fst).max? with
    | none => rw [List.max?_eq_none_iff] at h; simp at h; exact absurd h hex
    | some m => exact ⟨m, rfl⟩
  have h2 := List.max?_eq_some_iff.1 ht
  have hz : ∀ g : List ℝ, ∀ F : ℝ → ℝ, List.zipWith (fun v g => v / g ^ 2 * (4 * Real.pi ^ 2 / hbar)) (g.map F) g =
      g.map fun x => F x / x ^ 2 * (4 * Real.pi ^ 2 / hbar) := by
    intro g F
    induction g with
    | nil => rfl
    | cons a g ih => simp only [List.map_cons, List.zipWith_cons_cons, ih]
  have hba : ∀ d x, broadAt .gaussian width ((ex.map Prod.fst).zip (ex.map fun p => p.2 d)) x =
      (ex.map fun p => p.2 d * peak width p.1 x .gaussian).sum := by
    intro d x
    unfold broadAt
    congr 1
    clear hex hwt ht h2
    induction ex with
    | nil => rfl
    | cons a l ih => simp only [List.map_cons, List.zip_cons_cons, ih]
  let y : Fin 3 → List ℝ := fun d => (linspace width (min top cutoff) N).map (fun x =>
        (ex.map fun p => p.2 d * peak width p.1 x .gaussian).sum / x ^ 2 * (4 * Real.pi ^ 2 / hbar))
  refine ⟨top, h2.1, fun p hp => h2.2 _ (List.mem_map_of_mem hp), y, ?_, ?_⟩
  · unfold dielectricBroaden
    simp only [ht, broaden_gauss, Bind.bind, Except.bind, pure, Except.pure, hz, Except.ok.injEq, Prod.mk.injEq, true_and]
    funext d
    fin_cases d <;> simp [y, hba]
  · intro d
    refine ⟨rfl, ?_⟩
    intro v hv
    obtain ⟨x, -, rfl⟩ := List.mem_map.1 hv
    have : 0 ≤ (ex.map fun p => p.2 d * peak width p.1 x .gaussian).sum := by
      apply List.sum_nonneg
      intro z hz
      obtain ⟨p, hp, rfl⟩ := List.mem_map.1 hz
      exact mul_nonneg (hwt p hp d) (peak_pos .gaussian (by simp [BroadFn.Known]) width p.1 x hw).le
    positivity

/-- C109: an example with three bands, one of them full. Although the cutoff is 1 the excitation of energy 2, to the first
band above the cutoff, is there. -/
theorem c109_cutoff_fails : ∃ K : KStates, K.Ordered ∧
    K.excitations 1 0.05 1 = .ok [K.transition 1 (0, 1), K.transition 1 (0, 2)] ∧ (K.transition 1 (0, 2)).1 = 2 := by
  let K : KStates := ⟨[0, 1 / 2, 2], [2, 0, 0], 1, fun _ _ => 1, fun _ _ _ => 1⟩
  refine ⟨K, ⟨rfl, ?_, ?_, ?_, ?_⟩, ?_, by norm_num [K, KStates.transition]⟩
  · intro i j hij hj
    simp only [K, List.length_cons, List.length_nil] at hj
    interval_cases j <;> interval_cases i <;> norm_num [K]
  · intro i j hij hj
    simp only [K, List.length_cons, List.length_nil] at hj
    interval_cases j <;> interval_cases i <;> norm_num [K]
  · intro i hi
    simp only [K, List.length_cons, List.length_nil] at hi
    interval_cases i <;> norm_num [K]
  · intro i hi
    simp only [K, List.length_cons, List.length_nil] at hi
    interval_cases i <;> norm_num [K]
  · have h1 : (indexTrue K.f fun x => x < 2 - 0.05) = .ok 1 := by
      norm_num [indexTrue, K, List.findIdx?_cons]
    have h2 : (indexTrue K.e fun x => x > K.e.getD 1 0 - 1) = .ok 0 := by
      norm_num [indexTrue, K, List.findIdx?_cons]
    have h3 : (indexTrue K.f fun x => x < 0.05) = .ok 1 := by
      norm_num [indexTrue, K, List.findIdx?_cons]
    have h4 : (indexTrue K.e fun x => x > K.e.getD 0 0 + 1) = .ok 2 := by
      norm_num [indexTrue, K, List.findIdx?_cons]
    have h5 : (indexTrue K.e fun x => x > K.e.getD 1 0 + 1) = .ok 2 := by
      norm_num [indexTrue, K, List.findIdx?_cons]
    have p1 : K.pair 1 0.05 0 1 = [K.transition 1 (0, 1)] := by
      norm_num [KStates.pair, KStates.transition, K]
    have p2 : K.pair 1 0.05 0 2 = [K.transition 1 (0, 2)] := by
      norm_num [KStates.pair, KStates.transition, K]
    have p3 : K.pair 1 0.05 1 2 = [] := by
      norm_num [KStates.pair, K]
    have r1 : rangeIncl 0 1 = [0, 1] := by decide
    have r2 : rangeIncl (max (0 + 1) 1) 2 = [1, 2] := by decide
    have r3 : rangeIncl (max (1 + 1) 1) 2 = [2] := by decide
    have f0 : K.from_ 1 0.05 1 1 0 = .ok [K.transition 1 (0, 1), K.transition 1 (0, 2)] := by
      simp only [KStates.from_, h4, Bind.bind, Except.bind, r2, pure, Except.pure, List.flatMap_cons, List.flatMap_nil, p1, p2]
      rfl
    have f1 : K.from_ 1 0.05 1 1 1 = .ok [] := by
      simp only [KStates.from_, h5, Bind.bind, Except.bind, r3, pure, Except.pure, List.flatMap_cons, List.flatMap_nil, p3]
      rfl
    simp only [KStates.excitations, h1, h2, h3, Bind.bind, Except.bind, r1, List.mapM_cons, List.mapM_nil, f0, f1, pure, Except.pure]
    rfl

end Hotbit
