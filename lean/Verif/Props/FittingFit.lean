import Verif.Props.Fitting
import Mathlib.Data.List.SplitBy
import Mathlib.MeasureTheory.Integral.IntervalIntegral.Basic

/-!
# C111: the fitted repulsion
-/

namespace Hotbit

/-! ### Grouping -/

/-- The data whose distance has the same first four decimals as `x`. -/
noncomputable def sameCell (data : List (ℝ × ℝ × ℝ)) (x : ℝ) : List (ℝ × ℝ × ℝ) :=
  data.filter fun a => decide (⌊a.1 * 10 ^ 4⌋ = ⌊x * 10 ^ 4⌋)

/-- `q` stands for the given data: mean of the distances, mean of the values with the weights, sum of the weights. -/
def Averages (g : List (ℝ × ℝ × ℝ)) (q : ℝ × ℝ × ℝ) : Prop :=
  g ≠ [] ∧ q.1 = (g.map fun a => a.1).sum / g.length ∧
    q.2.1 = (g.map fun a => a.2.1 * a.2.2).sum / (g.map fun a => a.2.2).sum ∧ q.2.2 = (g.map fun a => a.2.2).sum

theorem Averages.perm {g g' : List (ℝ × ℝ × ℝ)} {q : ℝ × ℝ × ℝ} (h : g.Perm g') (ha : Averages g q) : Averages g' q := by
  obtain ⟨h1, h2, h3, h4⟩ := ha
  refine ⟨fun h0 => h1 (by rw [h0] at h; exact h.eq_nil), ?_, ?_, ?_⟩
  · rw [h2, (h.map _).sum_eq, h.length_eq]
  · rw [h3, (h.map _).sum_eq, (h.map fun a : ℝ × ℝ × ℝ => a.2.2).sum_eq]
  · rw [h4, (h.map _).sum_eq]

theorem pseudoX_nonneg {x : ℝ} (h : 0 ≤ x) : pseudoX x = ⌊x * 10 ^ 4⌋ := by
  unfold pseudoX truncZ
  rw [if_neg (not_lt.2 (by positivity))]

theorem chain_keys {α : Type} (key : α → ℤ) (gs : List (List α)) (h1 : ∀ g ∈ gs, g ≠ [] ∧ ∀ x ∈ g, ∀ y ∈ g, key x = key y)
    (h2 : gs.IsChain fun a b => ∃ ha hb, (key (a.getLast ha) == key (b.head hb)) = false)
    (h3 : gs.Pairwise fun a b => ∀ x ∈ a, ∀ y ∈ b, key x ≤ key y) :
    gs.Pairwise fun a b => ∀ x ∈ a, ∀ y ∈ b, key x < key y := by
  induction gs with
  | nil => exact List.Pairwise.nil
  | cons a l ih =>
    have ih' := ih (fun g hg => h1 g (List.mem_cons_of_mem _ hg)) h2.tail (List.pairwise_cons.1 h3).2
    refine List.pairwise_cons.2 ⟨?_, ih'⟩
    intro b hb x hx y hy
    cases l with
    | nil => simp at hb
    | cons c l =>
      obtain ⟨ha, hc, hne⟩ := (List.isChain_cons_cons.1 h2).1
      have hac := (List.pairwise_cons.1 h3).1 c List.mem_cons_self
      have hlt : ∀ x ∈ a, ∀ y ∈ c, key x < key y := by
        intro x hx y hy
        have e1 := (h1 a List.mem_cons_self).2 x hx _ (List.getLast_mem ha)
        have e2 := (h1 c (by simp)).2 y hy _ (List.head_mem hc)
        refine lt_of_le_of_ne (hac x hx y hy) ?_
        rw [e1, e2]
        simpa using hne
      rcases List.mem_cons.1 hb with rfl | hb
      · exact hlt x hx y hy
      · exact (hlt x hx _ (List.head_mem hc)).trans ((List.pairwise_cons.1 ih').1 b hb _ (List.head_mem hc) y hy)

/-- The mean of numbers of one cell is in this cell. -/
theorem mean_floor (g : List ℝ) (hne : g ≠ []) (c : ℤ) (h : ∀ x ∈ g, ⌊x * 10 ^ 4⌋ = c) : ⌊g.sum / g.length * 10 ^ 4⌋ = c := by
  have hn : (0 : ℝ) < g.length := by exact_mod_cast List.length_pos_iff.2 hne
  have hb : ∀ x ∈ g, (c : ℝ) / 10 ^ 4 ≤ x ∧ x < ((c : ℝ) + 1) / 10 ^ 4 := by
    intro x hx
    have := Int.floor_eq_iff.1 (h x hx)
    constructor
    · rw [div_le_iff₀ (by positivity)]; exact this.1
    · rw [lt_div_iff₀ (by positivity)]; exact this.2
  have hs : g.length * ((c : ℝ) / 10 ^ 4) ≤ g.sum ∧ g.sum < g.length * (((c : ℝ) + 1) / 10 ^ 4) := by
    clear h hn
    induction g with
    | nil => exact absurd rfl hne
    | cons a g ih =>
      have ha := hb a List.mem_cons_self
      rw [List.sum_cons, List.length_cons]
      push_cast
      by_cases hg : g = []
      · subst hg
        simp only [List.sum_nil, List.length_nil, Nat.cast_zero]
        constructor <;> linarith [ha.1, ha.2]
      · have := ih hg fun x hx => hb x (List.mem_cons_of_mem _ hx)
        constructor <;> nlinarith [ha.1, ha.2, this.1, this.2]
  rw [Int.floor_eq_iff]
  constructor
  · rw [div_mul_eq_mul_div, le_div_iff₀ hn]
    have := mul_le_mul_of_nonneg_right hs.1 (show (0 : ℝ) ≤ 10 ^ 4 by positivity)
    calc (c : ℝ) * g.length = g.length * ((c : ℝ) / 10 ^ 4) * 10 ^ 4 := by field_simp
      _ ≤ _ := this
  · rw [div_mul_eq_mul_div, div_lt_iff₀ hn]
    have := mul_lt_mul_of_pos_right hs.2 (show (0 : ℝ) < 10 ^ 4 by positivity)
    calc g.sum * 10 ^ 4 < _ := this
      _ = ((c : ℝ) + 1) * g.length := by field_simp

theorem groupPoints_spec {l out : List (ℝ × ℝ × ℝ)} (hs : l.Pairwise fun a b => a.1 ≤ b.1) (h0 : ∀ a ∈ l, 0 ≤ a.1)
    (h : groupPoints l = .ok out) :
    (out.Pairwise fun a b => a.1 < b.1) ∧ (∀ q ∈ out, Averages (sameCell l q.1) q) ∧
      ∀ a ∈ l, ∃ q ∈ out, ⌊q.1 * 10 ^ 4⌋ = ⌊a.1 * 10 ^ 4⌋ := by
  unfold groupPoints at h
  by_cases hl : l = []
  · rw [if_pos hl] at h; cases h
  rw [if_neg hl] at h
  simp only [Except.ok.injEq] at h
  subst h
  set gs := l.splitBy fun a b => pseudoX a.1 == pseudoX b.1 with hgs
  have hflat : gs.flatten = l := List.flatten_splitBy _ _
  have hmem : ∀ g ∈ gs, ∀ a ∈ g, a ∈ l := fun g hg a ha => by rw [← hflat]; exact List.mem_flatten.2 ⟨g, hg, ha⟩
  set key : ℝ × ℝ × ℝ → ℤ := fun a => pseudoX a.1 with hkey
  have hkf : ∀ a ∈ l, key a = ⌊a.1 * 10 ^ 4⌋ := fun a ha => pseudoX_nonneg (h0 a ha)
  have h1 : ∀ g ∈ gs, g ≠ [] ∧ ∀ x ∈ g, ∀ y ∈ g, key x = key y := by
    intro g hg
    refine ⟨List.ne_nil_of_mem_splitBy hg, ?_⟩
    have hc := List.isChain_of_mem_splitBy hg
    have hp : g.Pairwise fun x y => key x = key y := by
      have hc' : g.IsChain fun x y => key x = key y := hc.imp fun x y hxy => by simpa [hkey] using hxy
      haveI : IsTrans (ℝ × ℝ × ℝ) fun x y => key x = key y := ⟨fun _ _ _ => Eq.trans⟩
      exact List.isChain_iff_pairwise.1 hc'
    intro x hx y hy
    rw [List.pairwise_iff_getElem] at hp
    obtain ⟨i, hi, rfl⟩ := List.getElem_of_mem hx
    obtain ⟨j, hj, rfl⟩ := List.getElem_of_mem hy
    rcases lt_trichotomy i j with hij | rfl | hij
    · exact hp i j hi hj hij
    · rfl
    · exact (hp j i hj hi hij).symm
  have h2 := List.isChain_getLast_head_splitBy (fun a b : ℝ × ℝ × ℝ => pseudoX a.1 == pseudoX b.1) l
  have h3 : gs.Pairwise fun a b => ∀ x ∈ a, ∀ y ∈ b, x.1 ≤ y.1 := by
    rw [← hflat, List.pairwise_flatten] at hs
    exact hs.2
  have h3' : gs.Pairwise fun a b => ∀ x ∈ a, ∀ y ∈ b, key x ≤ key y := by
    refine h3.imp_of_mem ?_
    intro a b ha hb hab x hx y hy
    rw [hkf x (hmem a ha x hx), hkf y (hmem b hb y hy)]
    exact Int.floor_le_floor (mul_le_mul_of_nonneg_right (hab x hx y hy) (by positivity))
  have h4 := chain_keys key gs h1 h2 h3'
  have hcell : ∀ g ∈ gs, ∀ x ∈ g, ⌊(groupPoint g).1 * 10 ^ 4⌋ = key x := by
    intro g hg x hx
    have := mean_floor (g.map fun a => a.1) (by simpa using (h1 g hg).1) (key x) (by
      intro y hy
      obtain ⟨a, ha, rfl⟩ := List.mem_map.1 hy
      rw [← hkf a (hmem g hg a ha)]
      exact (h1 g hg).2 a ha x hx)
    rw [List.length_map] at this
    exact this
  refine ⟨?_, ?_, ?_⟩
  · rw [List.pairwise_map]
    refine h4.imp_of_mem ?_
    intro a b ha hb hab
    obtain ⟨x, hx⟩ := List.exists_mem_of_ne_nil a (h1 a ha).1
    obtain ⟨y, hy⟩ := List.exists_mem_of_ne_nil b (h1 b hb).1
    have := hab x hx y hy
    rw [← hcell a ha x hx, ← hcell b hb y hy] at this
    have h5 := lt_of_not_ge fun hle => (not_le.2 this) (Int.floor_le_floor (mul_le_mul_of_nonneg_right hle
      (show (0 : ℝ) ≤ 10 ^ 4 by positivity)))
    exact h5
  · intro q hq
    obtain ⟨g, hg, rfl⟩ := List.mem_map.1 hq
    have hsame : sameCell l (groupPoint g).1 = g := by
      obtain ⟨pre, post, hsplit⟩ := List.append_of_mem hg
      obtain ⟨x, hx⟩ := List.exists_mem_of_ne_nil g (h1 g hg).1
      have hp := h4
      rw [hsplit] at hp
      have hp' := List.pairwise_append.1 hp
      unfold sameCell
      rw [hcell g hg x hx, ← hflat, hsplit, List.flatten_append, List.flatten_cons, List.filter_append, List.filter_append]
      have hkd : ∀ g' ∈ gs, ∀ a ∈ g', ⌊a.1 * 10 ^ 4⌋ = key a := fun g' hg' a ha => (hkf a (hmem g' hg' a ha)).symm
      have e1 : pre.flatten.filter (fun a => decide (⌊a.1 * 10 ^ 4⌋ = key x)) = [] := by
        rw [List.filter_eq_nil_iff]
        intro a ha
        obtain ⟨g', hg', ha'⟩ := List.mem_flatten.1 ha
        have hg'' : g' ∈ gs := by rw [hsplit]; exact List.mem_append_left _ hg'
        rw [hkd g' hg'' a ha']
        have := hp'.2.2 g' hg' g List.mem_cons_self a ha' x hx
        simpa using this.ne
      have e2 : post.flatten.filter (fun a => decide (⌊a.1 * 10 ^ 4⌋ = key x)) = [] := by
        rw [List.filter_eq_nil_iff]
        intro a ha
        obtain ⟨g', hg', ha'⟩ := List.mem_flatten.1 ha
        have hg'' : g' ∈ gs := by rw [hsplit]; exact List.mem_append_right _ (List.mem_cons_of_mem _ hg')
        rw [hkd g' hg'' a ha']
        have := (List.pairwise_cons.1 hp'.2.1).1 g' hg' x hx a ha'
        simpa using this.ne'
      have e3 : g.filter (fun a => decide (⌊a.1 * 10 ^ 4⌋ = key x)) = g := by
        rw [List.filter_eq_self]
        intro a ha
        rw [hkd g hg a ha]
        simpa using (h1 g hg).2 a ha x hx
      rw [e1, e2, e3, List.nil_append, List.append_nil]
    rw [hsame]
    exact ⟨(h1 g hg).1, rfl, rfl, rfl⟩
  · intro a ha
    rw [← hflat] at ha
    obtain ⟨g, hg, hag⟩ := List.mem_flatten.1 ha
    refine ⟨groupPoint g, List.mem_map.2 ⟨g, hg, rfl⟩, ?_⟩
    rw [hcell g hg a hag, hkf a (hmem g hg a hag)]

theorem fitData_eq {l : List FitPoint} {data : List (ℝ × ℝ × ℝ)} (h : fitData l = .ok data) :
    l.map (fun p => (p.R, p.dv, p.w)) = data.map fun a => (a.1, some a.2.1, a.2.2) := by
  unfold fitData at h
  induction l generalizing data with
  | nil =>
    simp only [List.mapM_nil, pure, Except.pure, Except.ok.injEq] at h
    subst h; rfl
  | cons p l ih =>
    simp only [List.mapM_cons, bind, Except.bind] at h
    cases hp : p.dv with
    | none => rw [hp] at h; simp at h
    | some d =>
      rw [hp] at h
      simp only at h
      split at h
      · cases h
      · rename_i ds hds
        simp only [pure, Except.pure, Except.ok.injEq] at h
        subst h
        rw [List.map_cons, List.map_cons, ih hds, hp]

theorem fitData_ok (data : List (ℝ × ℝ × ℝ)) (l : List FitPoint)
    (h : l.map (fun p => (p.R, p.dv, p.w)) = data.map fun a => (a.1, some a.2.1, a.2.2)) : fitData l = .ok data := by
  unfold fitData
  induction l generalizing data with
  | nil =>
    rw [List.map_nil, eq_comm, List.map_eq_nil_iff] at h
    subst h; rfl
  | cons p l ih =>
    cases data with
    | nil => simp at h
    | cons a data =>
      simp only [List.map_cons, List.cons.injEq, Prod.mk.injEq] at h
      simp only [List.mapM_cons, bind, Except.bind, h.1.2.1, ih data h.2, pure, Except.pure, h.1.1, h.1.2.2]

theorem sorted_mergeSort (data : List (ℝ × ℝ × ℝ)) :
    (data.mergeSort fun a b => decide (a.1 ≤ b.1)).Pairwise fun a b => a.1 ≤ b.1 := by
  have := List.pairwise_mergeSort (le := fun a b : ℝ × ℝ × ℝ => decide (a.1 ≤ b.1))
    (fun a b c hab hbc => by simp only [decide_eq_true_eq] at *; exact hab.trans hbc)
    (fun a b => by simp only [Bool.or_eq_true, decide_eq_true_eq]; exact le_total _ _) data
  exact this.imp fun h => by simpa using h

/-- **C111.** The spline is fitted to the data as follows: distances increase; each point but the last stands for all data with the same
four decimals, with their means and the sum of their weights, and is within the cutoff; the last point is zero at the cutoff, with a
thousand times the largest weight; no datum within the cutoff is left out. -/
theorem c111_points {rcut : ℝ} {deriv : List FitPoint} {l data : List (ℝ × ℝ × ℝ)}
    (hdata : deriv.map (fun p => (p.R, p.dv, p.w)) = data.map fun a => (a.1, some a.2.1, a.2.2)) (h0 : ∀ a ∈ data, 0 ≤ a.1)
    (h : fitPoints rcut deriv = .ok l) :
    (l.Pairwise fun a b => a.1 < b.1) ∧ ∃ pts w, l = pts ++ [(rcut, 0, w)] ∧ pts ≠ [] ∧
      (∀ q ∈ pts, q.1 < rcut ∧ Averages (sameCell data q.1) q) ∧
      ((∃ q ∈ pts, w = 1000 * q.2.2) ∧ ∀ q ∈ pts, 1000 * q.2.2 ≤ w) ∧
      ∀ a ∈ data, a.1 + 1 / 10 ^ 4 ≤ rcut → ∃ q ∈ pts, ⌊q.1 * 10 ^ 4⌋ = ⌊a.1 * 10 ^ 4⌋ := by
  unfold fitPoints at h
  rw [fitData_ok data deriv hdata] at h
  simp only [bind, Except.bind, pure, Except.pure] at h
  have hperm := List.mergeSort_perm data fun a b => decide (a.1 ≤ b.1)
  cases hg : groupPoints (data.mergeSort fun a b => decide (a.1 ≤ b.1)) with
  | error e => rw [hg] at h; simp at h
  | ok out =>
    rw [hg] at h
    simp only at h
    obtain ⟨hinc, hav, hall⟩ := groupPoints_spec (sorted_mergeSort data) (fun a ha => h0 a (hperm.mem_iff.1 ha)) hg
    by_cases hne : out.filter (fun q => decide (q.1 < rcut)) = []
    · rw [if_pos hne] at h; cases h
    rw [if_neg hne] at h
    simp only [Except.ok.injEq] at h
    subst h
    set pts := out.filter (fun q => decide (q.1 < rcut)) with hpts
    have hlt : ∀ q ∈ pts, q.1 < rcut := fun q hq => by simpa using (List.mem_filter.1 hq).2
    have hmax : ∀ q ∈ pts, q.2.2 ≤ listMax (pts.map fun q => q.2.2) := by
      have : ∀ (l : List ℝ) (a : ℝ), a ≤ l.foldl max a ∧ ∀ x ∈ l, x ≤ l.foldl max a := by
        intro l
        induction l with
        | nil => intro a; simp
        | cons b l ih =>
          intro a
          rw [List.foldl_cons]
          obtain ⟨h1, h2⟩ := ih (max a b)
          refine ⟨(le_max_left _ _).trans h1, ?_⟩
          intro x hx
          rcases List.mem_cons.1 hx with rfl | hx
          · exact (le_max_right _ _).trans h1
          · exact h2 x hx
      intro q hq
      unfold listMax
      have hm : q.2.2 ∈ pts.map fun q => q.2.2 := List.mem_map_of_mem hq
      cases hL : pts.map fun q => q.2.2 with
      | nil => rw [hL] at hm; simp at hm
      | cons a L =>
        rw [hL] at hm
        rcases List.mem_cons.1 hm with h | h
        · rw [h]; exact (this L a).1
        · exact (this L a).2 _ h
    refine ⟨?_, pts, _, rfl, hne, ?_, ⟨?_, ?_⟩, ?_⟩
    · refine List.pairwise_append.2 ⟨hinc.filter _, List.pairwise_singleton _ _, ?_⟩
      intro a ha b hb
      rw [List.mem_singleton.1 hb]
      exact hlt a ha
    · intro q hq
      refine ⟨hlt q hq, (hav q (List.mem_filter.1 hq).1).perm ?_⟩
      exact hperm.filter _
    · obtain ⟨q, hq, hqe⟩ := List.mem_map.1 (listMax_mem (l := pts.map fun q => q.2.2) (by simpa using hne))
      exact ⟨q, hq, by rw [hqe]; norm_num⟩
    · intro q hq
      have := hmax q hq
      norm_num
      exact this
    · intro a ha hle
      obtain ⟨q, hq, hqa⟩ := hall a (hperm.mem_iff.2 ha)
      refine ⟨q, List.mem_filter.2 ⟨hq, ?_⟩, hqa⟩
      have h1 := (Int.floor_eq_iff.1 hqa).2
      have h2 := Int.floor_le (a.1 * 10 ^ 4)
      have : q.1 * 10 ^ 4 < (a.1 + 1 / 10 ^ 4) * 10 ^ 4 := by
        calc q.1 * 10 ^ 4 < _ := h1
          _ ≤ a.1 * 10 ^ 4 + 1 := by linarith
          _ = _ := by ring
      have := lt_of_mul_lt_mul_right this (by positivity)
      simpa using this.trans_le hle

/-- Two data of one distance and one of another. -/
example : ∃ l, fitPoints 3 [⟨2, some (-1), 1, [], none⟩, ⟨1, some (-5), 1, [], none⟩, ⟨2, some (-2), 3, [], none⟩] = .ok l := by
  have hd : fitData [⟨2, some (-1), 1, [], none⟩, ⟨1, some (-5), 1, [], none⟩, ⟨2, some (-2), 3, [], none⟩] =
      .ok [(2, -1, 1), (1, -5, 1), (2, -2, 3)] := by rfl
  unfold fitPoints
  rw [hd]
  simp only [bind, Except.bind, pure, Except.pure]
  have hne : ([(2, -1, 1), (1, -5, 1), (2, -2, 3)] : List (ℝ × ℝ × ℝ)).mergeSort (fun a b => decide (a.1 ≤ b.1)) ≠ [] := by
    intro h
    have := congrArg List.length h
    simp at this
  cases hg : groupPoints (([(2, -1, 1), (1, -5, 1), (2, -2, 3)] : List (ℝ × ℝ × ℝ)).mergeSort fun a b => decide (a.1 ≤ b.1)) with
  | error e => unfold groupPoints at hg; rw [if_neg hne] at hg; cases hg
  | ok out =>
    simp only
    have hperm := List.mergeSort_perm ([(2, -1, 1), (1, -5, 1), (2, -2, 3)] : List (ℝ × ℝ × ℝ)) fun a b => decide (a.1 ≤ b.1)
    obtain ⟨-, -, hall⟩ := groupPoints_spec (sorted_mergeSort _) (fun a ha => by
      have := hperm.mem_iff.1 ha
      simp only [List.mem_cons, List.not_mem_nil, or_false] at this
      rcases this with rfl | rfl | rfl <;> norm_num) hg
    obtain ⟨q, hq, hqa⟩ := hall (1, -5, 1) (hperm.mem_iff.2 (by simp))
    rw [if_neg]
    · exact ⟨_, rfl⟩
    · intro h
      have := (List.filter_eq_nil_iff.1 h) q hq
      have h1 := (Int.floor_eq_iff.1 hqa).2
      have h2 : ((⌊(1 : ℝ) * 10 ^ 4⌋ : ℤ) : ℝ) ≤ 10 ^ 4 := by
        have := Int.floor_le ((1 : ℝ) * 10 ^ 4)
        simpa using this
      simp at this
      norm_num at h1 h2
      linarith

/-! ### The potential -/

theorem integrateSteps_spec (quad : (ℝ → ℝ) → ℝ → ℝ → ℝ) (dv : ℝ → ℝ) (c : ℝ) (hdv : Continuous dv)
    (hq : ∀ a b, quad dv a b = ∫ x in a..b, dv x) (r v : ℝ) (rs : List ℝ) (hv : v = ∫ x in c..r, dv x) :
    (integrateSteps quad dv r v rs).map Prod.fst = r :: rs ∧
      ∀ p ∈ integrateSteps quad dv r v rs, p.2 = ∫ x in c..p.1, dv x := by
  induction rs generalizing r v with
  | nil =>
    refine ⟨rfl, ?_⟩
    intro p hp
    rw [List.mem_singleton.1 (show p ∈ [(r, v)] from hp)]
    exact hv
  | cons r' rs ih =>
    have := ih r' (v + quad dv r r') (by
      rw [hq, hv, intervalIntegral.integral_add_adjacent_intervals (hdv.intervalIntegrable _ _) (hdv.intervalIntegrable _ _)])
    unfold integrateSteps
    refine ⟨by rw [List.map_cons, this.1], ?_⟩
    intro p hp
    rcases List.mem_cons.1 hp with rfl | hp
    · exact hv
    · exact this.2 p hp

theorem fitLinspace_down {rcut : ℝ} (h : 0 < rcut) (N : ℕ) (hN : 2 ≤ N) :
    (fitLinspace rcut 0 N).Pairwise fun a b => b < a := by
  unfold fitLinspace
  rw [List.pairwise_map]
  refine List.pairwise_lt_range.imp ?_
  intro a b hab
  have hN' : (0 : ℝ) < ((N - 1 : ℕ) : ℝ) := by exact_mod_cast (by omega)
  have hd : (0 - rcut) / ((N - 1 : ℕ) : ℝ) < 0 := div_neg_of_neg_of_pos (by linarith) hN'
  have hab' : (a : ℝ) < b := by exact_mod_cast hab
  have := mul_lt_mul_of_neg_right hab' hd
  linarith

theorem integratePoints_spec (quad : (ℝ → ℝ) → ℝ → ℝ → ℝ) (dv : ℝ → ℝ) {rcut : ℝ} (h : 0 < rcut) (N : ℕ) (hN : 2 ≤ N)
    (hdv : Continuous dv) (hq : ∀ a b, quad dv a b = ∫ x in a..b, dv x) :
    ((integratePoints quad dv rcut N).Pairwise fun a b => a.1 < b.1) ∧
      ∀ i : ℕ, i ≤ N - 1 → (rcut * i / (N - 1 : ℕ), ∫ x in rcut..rcut * i / (N - 1 : ℕ), dv x) ∈ integratePoints quad dv rcut N := by
  have hN' : (0 : ℝ) < ((N - 1 : ℕ) : ℝ) := by exact_mod_cast (by omega)
  have hdown := fitLinspace_down h N hN
  have hmem : ∀ i : ℕ, i ≤ N - 1 → rcut * i / (N - 1 : ℕ) ∈ fitLinspace rcut 0 N := by
    intro i hi
    unfold fitLinspace
    refine List.mem_map.2 ⟨N - 1 - i, List.mem_range.2 (by omega), ?_⟩
    rw [Nat.cast_sub hi]
    field_simp
    ring
  have hhead : (fitLinspace rcut 0 N).head? = some rcut := by
    unfold fitLinspace
    obtain ⟨n, rfl⟩ : ∃ n, N = n + 1 := ⟨N - 1, by omega⟩
    rw [List.range_succ_eq_map]
    simp
  unfold integratePoints
  cases hL : fitLinspace rcut 0 N with
  | nil => rw [hL] at hhead; simp at hhead
  | cons r rs =>
    rw [hL] at hdown hmem hhead
    simp only [List.head?_cons, Option.some.injEq] at hhead
    subst hhead
    obtain ⟨h1, h2⟩ := integrateSteps_spec quad dv r hdv hq r 0 rs (by simp)
    refine ⟨?_, ?_⟩
    · simp only [List.pairwise_reverse]
      rw [← h1, List.pairwise_map] at hdown
      exact hdown
    · intro i hi
      have := hmem i hi
      rw [← h1] at this
      obtain ⟨p, hp, hpe⟩ := List.mem_map.1 this
      rw [List.mem_reverse]
      have h3 := h2 p hp
      rw [← hpe, ← h3]
      exact hp

/-- What a successful fit has done. -/
theorem fit_ok {F F' : Fitting} {S : Scipy} (h : F.fit S = (F', .ok ())) :
    ∃ l dv, fitPoints F.rcut F.deriv = .ok l ∧ 1 ≤ min F.deriv.length F.k ∧ min F.deriv.length F.k < l.length ∧
      S.splrep l (F.s.getD (l.length - √(2 * l.length))) (min F.deriv.length F.k) = .ok dv ∧
      F'.v = some (S.integrateVrep dv F.rcut 100, dv) := by
  unfold Fitting.fit at h
  simp only at h
  cases hl : fitPoints F.rcut F.deriv with
  | error e => rw [hl] at h; simp at h
  | ok l =>
    rw [hl] at h
    simp only at h
    cases hs : S.spline l (F.s.getD (l.length - √(2 * l.length))) (min F.deriv.length F.k) with
    | error e => rw [hs] at h; simp at h
    | ok dv =>
      rw [hs] at h
      simp only [Prod.mk.injEq, and_true] at h
      unfold Scipy.spline at hs
      by_cases hk : 1 ≤ min F.deriv.length F.k ∧ min F.deriv.length F.k ≤ 5
      · rw [if_neg (not_not.2 hk)] at hs
        by_cases hn : l.length ≤ min F.deriv.length F.k
        · rw [if_pos hn] at hs; cases hs
        · rw [if_neg hn] at hs
          exact ⟨l, dv, rfl, hk.1, not_le.1 hn, hs, by rw [← h]⟩
      · rw [if_pos hk] at hs; cases hs

/-- **C111.** After a fit the derivative is the smoothing spline through the points of `c111_points`, of the wanted order or the
number of data if it is smaller; the potential is zero outside the range, zero at the cutoff, and at the points of the grid it is the
integral of the derivative from the cutoff, if scipy's integrals are exact and its interpolation passes through the points. Higher
derivatives raise `NotImplementedError`. -/
theorem c111_potential {F F' : Fitting} {S : Scipy} (h : F.fit S = (F', .ok ())) :
    ∃ l dv, fitPoints F.rcut F.deriv = .ok l ∧
      S.splrep l (F.s.getD (l.length - √(2 * l.length))) (min F.deriv.length F.k) = .ok dv ∧
      (∀ r, F'.call r 1 = .ok (dv r)) ∧
      (∀ r der, 2 ≤ der → F'.call r der = .error .notImplementedError) ∧
      (∀ r, r < 0 ∨ r > F.rcut → F'.call r 0 = .ok 0) ∧
      (0 < F.rcut → Continuous dv → (∀ a b, S.quad dv a b = ∫ x in a..b, dv x) →
        (∀ pts : List (ℝ × ℝ), (pts.Pairwise fun a b => a.1 < b.1) → ∀ p ∈ pts, S.interp pts p.1 = p.2) →
        F'.call F.rcut 0 = .ok 0 ∧
        ∀ i : ℕ, i ≤ 99 → F'.call (F.rcut * i / 99) 0 = .ok (- ∫ x in (F.rcut * i / 99)..F.rcut, dv x)) := by
  obtain ⟨l, dv, h1, -, -, h2, h3⟩ := fit_ok h
  refine ⟨l, dv, h1, h2, ?_, ?_, ?_, ?_⟩
  · intro r
    unfold Fitting.call
    rw [h3]
    simp
  · intro r der hd
    unfold Fitting.call
    rw [h3]
    simp only
    rw [if_neg (by omega), if_neg (by omega)]
  · intro r hr
    unfold Fitting.call
    rw [h3]
    simp only [if_true]
    unfold Scipy.integrateVrep
    rw [if_pos hr]
  · intro hpos hcont hquad hint
    obtain ⟨g1, g2⟩ := integratePoints_spec S.quad dv hpos 100 (by norm_num) hcont hquad
    have hgrid : ∀ i : ℕ, i ≤ 99 → F'.call (F.rcut * i / 99) 0 = .ok (- ∫ x in (F.rcut * i / 99)..F.rcut, dv x) := by
      intro i hi
      have hi' : (i : ℝ) ≤ 99 := by exact_mod_cast hi
      have hm := g2 i hi
      have e : ((100 - 1 : ℕ) : ℝ) = 99 := by norm_num
      rw [e] at hm
      unfold Fitting.call
      rw [h3]
      simp only [if_true]
      unfold Scipy.integrateVrep
      rw [if_neg]
      · have := hint _ g1 _ hm
        simp only at this
        rw [this, intervalIntegral.integral_symm]
      · rw [not_or, not_lt, not_lt]
        refine ⟨by positivity, ?_⟩
        rw [div_le_iff₀ (by norm_num)]
        exact mul_le_mul_of_nonneg_left hi' hpos.le
    refine ⟨?_, hgrid⟩
    have := hgrid 99 le_rfl
    rw [show F.rcut * ((99 : ℕ) : ℝ) / 99 = F.rcut by norm_num] at this
    rw [this]
    simp

/-! ### Data in different cells -/

theorem groupPoints_sep {l : List (ℝ × ℝ × ℝ)} (hne : l ≠ []) (hc : l.Pairwise fun a b => pseudoX a.1 < pseudoX b.1)
    (hw : ∀ a ∈ l, a.2.2 ≠ 0) : groupPoints l = .ok l := by
  unfold groupPoints
  rw [if_neg hne]
  have hs : l.splitBy (fun a b => pseudoX a.1 == pseudoX b.1) = l.map fun a => [a] := by
    rw [List.splitBy_eq_iff]
    refine ⟨by simp [← List.flatMap_def], by simp, ?_, ?_⟩
    · intro m hm
      obtain ⟨a, -, rfl⟩ := List.mem_map.1 hm
      exact List.isChain_singleton _
    · rw [List.isChain_map]
      exact hc.isChain.imp fun a b hab => ⟨by simp, by simp, by simpa using hab.ne⟩
  rw [hs, List.map_map]
  congr 1
  conv_rhs => rw [← List.map_id l]
  refine List.map_congr_left fun a ha => ?_
  have := hw a ha
  obtain ⟨x, y, w⟩ := a
  simp only at this
  simp [groupPoint, this]

theorem fitPoints_sep {rcut : ℝ} {deriv : List FitPoint} {data : List (ℝ × ℝ × ℝ)}
    (hdata : deriv.map (fun p => (p.R, p.dv, p.w)) = data.map fun a => (a.1, some a.2.1, a.2.2)) (hne : data ≠ [])
    (hs : data.Pairwise fun a b => a.1 ≤ b.1) (hc : data.Pairwise fun a b => pseudoX a.1 < pseudoX b.1)
    (hw : ∀ a ∈ data, a.2.2 ≠ 0) (hr : ∀ a ∈ data, a.1 < rcut) :
    fitPoints rcut deriv = .ok (data ++ [(rcut, 0, 1E3 * listMax (data.map fun q => q.2.2))]) := by
  unfold fitPoints
  rw [fitData_ok data deriv hdata]
  simp only [bind, Except.bind, pure, Except.pure]
  rw [List.mergeSort_of_pairwise (hs.imp fun h => by simpa using h), groupPoints_sep hne hc hw]
  simp only
  rw [show (data.filter fun q => decide (q.1 < rcut)) = data from List.filter_eq_self.2 fun a ha => by simpa using hr a ha,
    if_neg hne]

/-- **C111 fails for close data.** Data as close as one likes are not joined if a multiple of `1E-4` Å is between them, though data with
almost the same distance make the spline impossible: the spline gets both of them. -/
theorem c111_close_fails {ε : ℝ} (hε : 0 < ε) (y1 y2 : ℝ) :
    ∃ R1 R2 : ℝ, R1 < R2 ∧ R2 - R1 < ε ∧
      fitPoints 2 [⟨R1, some y1, 1, [], none⟩, ⟨R2, some y2, 1, [], none⟩] = .ok [(R1, y1, 1), (R2, y2, 1), (2, 0, 1000)] := by
  set δ := min (ε / 2) (1 / 2) with hδ
  have h1 : 0 < δ := lt_min (by linarith) (by norm_num)
  have h2 : δ ≤ 1 / 2 := min_le_right _ _
  have h3 : δ ≤ ε / 2 := min_le_left _ _
  refine ⟨1 - δ, 1, by linarith, by linarith, ?_⟩
  have hc : pseudoX (1 - δ) < pseudoX 1 := by
    rw [pseudoX_nonneg (by linarith), pseudoX_nonneg (by norm_num)]
    have e : ⌊(1 : ℝ) * 10 ^ 4⌋ = 10000 := by
      rw [Int.floor_eq_iff]; norm_num
    rw [e, Int.floor_lt]
    push_cast
    nlinarith
  rw [fitPoints_sep (data := [(1 - δ, y1, 1), (1, y2, 1)]) rfl (by simp)]
  · simp [listMax]
    norm_num
  · simp; linarith
  · simpa using hc
  · simp
  · simp; linarith

example : ∃ R1 R2 : ℝ, R1 < R2 ∧ R2 - R1 < 1 / 10 ^ 9 ∧
    fitPoints 2 [⟨R1, some (-3), 1, [], none⟩, ⟨R2, some (-7), 1, [], none⟩] = .ok [(R1, -3, 1), (R2, -7, 1), (2, 0, 1000)] :=
  c111_close_fails (by positivity) _ _

/-! ### Order and smoothing -/

/-- **C111 fails: the order.** The order is made smaller if there are not enough data, but the data are counted before data of one
distance are joined: any two or more data of one distance stop the fit with `TypeError`, unless the order is one. -/
theorem c111_order_fails (F : Fitting) (S : Scipy) {R : ℝ} (hR : R < F.rcut) (hn : 2 ≤ F.deriv.length) (hk : 2 ≤ F.k)
    (hd : ∀ p ∈ F.deriv, p.R = R ∧ p.dv ≠ none) : (F.fit S).2 = .error .typeError := by
  set data : List (ℝ × ℝ × ℝ) := F.deriv.map fun p => (p.R, p.dv.getD 0, p.w) with hdata
  have hne : data ≠ [] := by
    intro h
    rw [hdata, List.map_eq_nil_iff] at h
    rw [h] at hn
    simp at hn
  have hRd : ∀ a ∈ data, a.1 = R := by
    intro a ha
    obtain ⟨p, hp, rfl⟩ := List.mem_map.1 ha
    exact (hd p hp).1
  have hpts : ∃ l, fitPoints F.rcut F.deriv = .ok l ∧ l.length = 2 := by
    unfold fitPoints
    rw [fitData_ok data F.deriv (by
      rw [hdata, List.map_map]
      refine List.map_congr_left fun p hp => ?_
      have := (hd p hp).2
      cases hv : p.dv with
      | none => exact absurd hv this
      | some d => simp [hv])]
    simp only [bind, Except.bind, pure, Except.pure]
    have hall : ∀ (P : ℝ × ℝ × ℝ → ℝ × ℝ × ℝ → Prop), (∀ a ∈ data, ∀ b ∈ data, P a b) → data.Pairwise P :=
      fun P h => List.pairwise_of_forall_mem_list h
    rw [List.mergeSort_of_pairwise (hall _ fun a ha b hb => by simp [hRd a ha, hRd b hb])]
    unfold groupPoints
    rw [if_neg hne, List.splitBy_of_isChain hne (hall _ fun a ha b hb => by simp [hRd a ha, hRd b hb]).isChain]
    have hm : (groupPoint data).1 = R := by
      have : data.map (fun a => a.1) = List.replicate data.length R := by
        rw [List.eq_replicate_iff]
        refine ⟨by simp, ?_⟩
        intro x hx
        obtain ⟨a, ha, rfl⟩ := List.mem_map.1 hx
        exact hRd a ha
      have hl : (data.length : ℝ) ≠ 0 := by
        have := List.length_pos_iff.2 hne
        positivity
      simp only [groupPoint, this, List.sum_replicate, nsmul_eq_mul]
      field_simp
    simp only [List.map_cons, List.map_nil]
    rw [show ([groupPoint data].filter fun q => decide (q.1 < F.rcut)) = [groupPoint data] from
      List.filter_eq_self.2 fun a ha => by rw [List.mem_singleton.1 ha, hm]; simpa using hR, if_neg (by simp)]
    exact ⟨_, rfl, by simp⟩
  obtain ⟨l, hl, hlen⟩ := hpts
  unfold Fitting.fit
  simp only [hl]
  unfold Scipy.spline
  by_cases h5 : 1 ≤ min F.deriv.length F.k ∧ min F.deriv.length F.k ≤ 5
  · rw [if_neg (not_not.2 h5), if_pos (by rw [hlen]; exact le_min hn hk)]
  · rw [if_pos h5]

/-- Order three and three data of one distance. -/
example (F : Fitting) (S : Scipy) : (({ F with rcut := 3, k := 3, deriv := [⟨2, some (-1), 1, [], none⟩, ⟨2, some (-2), 1, [], none⟩,
    ⟨2, some (-3), 1, [], none⟩] } : Fitting).fit S).2 = .error .typeError :=
  c111_order_fails _ S (R := 2) (by norm_num) (by simp) (by simp) (by simp)

theorem fit_keeps (F : Fitting) (S : Scipy) : (F.fit S).1.k = min F.deriv.length F.k ∧ (F.fit S).1.rcut = F.rcut ∧
    (F.fit S).1.deriv = F.deriv ∧ (∀ s, F.s = some s → (F.fit S).1.s = some s) ∧
    (∀ l, fitPoints F.rcut F.deriv = .ok l → (F.fit S).1.s = some (F.s.getD (l.length - √(2 * l.length)))) := by
  unfold Fitting.fit
  simp only
  cases hl : fitPoints F.rcut F.deriv with
  | error e => simp
  | ok l =>
    simp only
    cases hs : S.spline l (F.s.getD (l.length - √(2 * l.length))) (min F.deriv.length F.k) with
    | error e =>
      refine ⟨rfl, rfl, rfl, ?_, ?_⟩
      · intro s hs; simp [hs]
      · intro l' h; cases h; rfl
    | ok dv =>
      refine ⟨rfl, rfl, rfl, ?_, ?_⟩
      · intro s hs; simp [hs]
      · intro l' h; cases h; rfl

/-- **C111 fails when fitting again.** The order and the smoothing of the first fit stay, whatever data are appended before the next one:
after a fit with `n` data the order is never more than `n`, and after a fit without data no fit is possible any more (`TypeError` or the
error of the data); the smoothing is that of the number of points of the first fit. -/
theorem c111_refit_fails (F : Fitting) (S : Scipy) (more : List FitPoint) :
    (({ (F.fit S).1 with deriv := more } : Fitting).fit S).1.k ≤ F.deriv.length ∧
      (F.deriv = [] → ∀ F' : Fitting, ({ (F.fit S).1 with deriv := more } : Fitting).fit S ≠ (F', .ok ())) ∧
      (∀ l, F.s = none → fitPoints F.rcut F.deriv = .ok l →
        (({ (F.fit S).1 with deriv := more } : Fitting).fit S).1.s = some (l.length - √(2 * l.length))) := by
  obtain ⟨h1, -, -, -, h5⟩ := fit_keeps F S
  obtain ⟨g1, -, -, g4, -⟩ := fit_keeps ({ (F.fit S).1 with deriv := more } : Fitting) S
  refine ⟨?_, ?_, ?_⟩
  · rw [g1]
    simp only [h1]
    omega
  · intro hd F' h
    obtain ⟨l, dv, -, hk, -⟩ := fit_ok h
    simp only [h1, hd, List.length_nil] at hk
    omega
  · intro l hs hl
    refine g4 _ ?_
    simp only
    rw [h5 l hl, hs]
    rfl

/-- One datum first, then five: the order stays one, and the smoothing zero. -/
example (F : Fitting) (S : Scipy) (more : List FitPoint) :
    let F1 : Fitting := { F with rcut := 3, k := 3, s := none, deriv := [⟨2, some (-1), 1, [], none⟩] }
    (({ (F1.fit S).1 with deriv := more } : Fitting).fit S).1.k ≤ 1 ∧
      (({ (F1.fit S).1 with deriv := more } : Fitting).fit S).1.s = some 0 := by
  intro F1
  obtain ⟨h1, -, h3⟩ := c111_refit_fails F1 S more
  refine ⟨h1, ?_⟩
  have := h3 [(2, -1, 1), (3, 0, 1E3 * listMax [1])] rfl
    (fitPoints_sep (data := [(2, -1, 1)]) rfl (by simp) (by simp) (by simp) (by simp) (by simp; norm_num))
  rw [this]
  norm_num

/-! ### Errors, and the range -/

/-- **C111.** Without a fit there is no potential; a fit without data within the cutoff raises `ValueError` and leaves the potential. -/
theorem c111_unfitted (F : Fitting) (S : Scipy) : (F.v = none → ∀ r der, F.call r der = .error .assertionError) ∧
    ((∀ p ∈ F.deriv, F.rcut ≤ p.R) → (F.fit S).2 = .error .valueError ∧ ∀ r der, (F.fit S).1.call r der = F.call r der) := by
  refine ⟨fun h r der => by unfold Fitting.call; rw [h], ?_⟩
  intro h
  have hp : fitPoints F.rcut F.deriv = .error .valueError := by
    unfold fitPoints
    simp only [bind, Except.bind, pure, Except.pure]
    cases hd : fitData F.deriv with
    | error e =>
      simp only
      have : ∀ (l : List FitPoint) e, fitData l = .error e → e = .valueError := by
        intro l
        unfold fitData
        induction l with
        | nil => intro e h; cases h
        | cons p l ih =>
          intro e h
          simp only [List.mapM_cons, bind, Except.bind] at h
          cases hv : p.dv with
          | none => rw [hv] at h; simp only [Except.error.injEq] at h; exact h.symm
          | some d =>
            rw [hv] at h
            simp only at h
            split at h
            · rename_i e' he'
              rw [← Except.error.inj h]
              exact ih _ he'
            · cases h
      rw [this _ _ hd]
    | ok data =>
      simp only
      have hdat := fitData_eq hd
      have hR : ∀ a ∈ data, F.rcut ≤ a.1 := by
        intro a ha
        have : (a.1, some a.2.1, a.2.2) ∈ F.deriv.map fun p => (p.R, p.dv, p.w) := by
          rw [hdat]; exact List.mem_map.2 ⟨a, ha, rfl⟩
        obtain ⟨p, hp, hpe⟩ := List.mem_map.1 this
        have := h p hp
        simp only [Prod.mk.injEq] at hpe
        rw [hpe.1] at this
        exact this
      have hperm := List.mergeSort_perm data fun a b => decide (a.1 ≤ b.1)
      unfold groupPoints
      by_cases h0 : data.mergeSort (fun a b => decide (a.1 ≤ b.1)) = []
      · rw [if_pos h0]
      · rw [if_neg h0]
        simp only
        rw [if_pos]
        · rfl
        rw [List.filter_eq_nil_iff]
        intro q hq
        obtain ⟨g, hg, rfl⟩ := List.mem_map.1 hq
        have hgne := List.ne_nil_of_mem_splitBy hg
        have hgl : ∀ x ∈ g.map (fun a => a.1), F.rcut ≤ x := by
          intro x hx
          obtain ⟨a, ha, rfl⟩ := List.mem_map.1 hx
          refine hR a (hperm.mem_iff.1 ?_)
          rw [← List.flatten_splitBy (fun a b : ℝ × ℝ × ℝ => pseudoX a.1 == pseudoX b.1) (data.mergeSort _)]
          exact List.mem_flatten.2 ⟨g, hg, ha⟩
        have hs := List.card_nsmul_le_sum _ _ hgl
        rw [List.length_map, nsmul_eq_mul] at hs
        have hpos : (0 : ℝ) < g.length := by exact_mod_cast List.length_pos_iff.2 hgne
        have : F.rcut ≤ (groupPoint g).1 := by
          simp only [groupPoint]
          rw [le_div_iff₀ hpos, mul_comm]
          exact hs
        simpa using this
  unfold Fitting.fit
  simp only [hp]
  exact ⟨trivial, fun r der => rfl⟩

/-- No data, and a datum beyond the cutoff. -/
example (F : Fitting) (S : Scipy) : (({ F with rcut := 3, deriv := [] } : Fitting).fit S).2 = .error .valueError ∧
    (({ F with rcut := 3, deriv := [⟨4, some 1, 1, [], none⟩] } : Fitting).fit S).2 = .error .valueError :=
  ⟨((c111_unfitted _ S).2 (by simp)).1, ((c111_unfitted _ S).2 (by simp; norm_num)).1⟩

/-- **C111 fails beyond the cutoff.** The potential is zero there, but its derivative is not: for data on a line, which any smoothing
spline gives back, the slope goes on beyond the cutoff. -/
theorem c111_beyond_fails (S : Scipy)
    (hline : ∀ (l : List (ℝ × ℝ × ℝ)) (s a b : ℝ) (k : ℕ), (∀ q ∈ l, q.2.1 = a + b * q.1) → 1 ≤ k → k < l.length →
      (l.Pairwise fun p q => p.1 < q.1) → S.splrep l s k = .ok fun r => a + b * r) (F : Fitting) :
    let F1 : Fitting := { F with rcut := 3, k := 3, deriv := [⟨1, some (-2), 1, [], none⟩, ⟨2, some (-1), 1, [], none⟩] }
    (F1.fit S).2 = .ok () ∧ ∀ r, 3 < r → (F1.fit S).1.call r 0 = .ok 0 ∧ (F1.fit S).1.call r 1 = .ok (r - 3) := by
  intro F1
  have hc : pseudoX 1 < pseudoX 2 := by
    rw [pseudoX_nonneg (by norm_num), pseudoX_nonneg (by norm_num)]
    have e1 : ⌊(1 : ℝ) * 10 ^ 4⌋ = 10000 := by rw [Int.floor_eq_iff]; norm_num
    have e2 : ⌊(2 : ℝ) * 10 ^ 4⌋ = 20000 := by rw [Int.floor_eq_iff]; norm_num
    rw [e1, e2]; norm_num
  have hp : fitPoints F1.rcut F1.deriv = .ok ([(1, -2, 1), (2, -1, 1)] ++ [(3, 0, 1E3 * listMax [1, 1])]) :=
    fitPoints_sep (data := [(1, -2, 1), (2, -1, 1)]) rfl (by simp) (by simp) (by simpa using hc) (by simp)
      (by simp [F1]; norm_num)
  have hsp : ∀ s, S.spline ([(1, -2, 1), (2, -1, 1)] ++ [(3, 0, 1E3 * listMax [1, 1])]) s 2 = .ok fun r => -3 + 1 * r := by
    intro s
    unfold Scipy.spline
    rw [if_neg (by norm_num), if_neg (by simp)]
    exact hline _ _ _ _ _ (by simp; norm_num) (by norm_num) (by simp) (by simp; norm_num)
  have hfit : F1.fit S = ((F1.fit S).1, .ok ()) := by
    refine Prod.ext rfl ?_
    unfold Fitting.fit
    simp only [hp]
    rw [show min F1.deriv.length F1.k = 2 from rfl, hsp]
  refine ⟨congrArg Prod.snd hfit, ?_⟩
  obtain ⟨l, dv, h1, h2, h3, -, h5, -⟩ := c111_potential hfit
  intro r hr
  refine ⟨h5 r (Or.inr hr), ?_⟩
  rw [hp] at h1
  obtain rfl := Except.ok.inj h1
  have hs2 := hsp (F1.s.getD ((([(1, -2, 1), (2, -1, 1)] ++ [(3, 0, 1E3 * listMax [1, 1])] : List (ℝ × ℝ × ℝ)).length : ℝ) -
    √(2 * ([(1, -2, 1), (2, -1, 1)] ++ [(3, 0, 1E3 * listMax [1, 1])] : List (ℝ × ℝ × ℝ)).length)))
  unfold Scipy.spline at hs2
  rw [if_neg (by norm_num), if_neg (by simp)] at hs2
  rw [show min F1.deriv.length F1.k = 2 from rfl, hs2] at h2
  rw [h3 r, ← Except.ok.inj h2]
  congr 1
  ring

open Classical in
/-- There is such a spline: where the points are on a line, this line, and zero otherwise. -/
example : ∃ S : Scipy, ∀ (l : List (ℝ × ℝ × ℝ)) (s a b : ℝ) (k : ℕ), (∀ q ∈ l, q.2.1 = a + b * q.1) → 1 ≤ k → k < l.length →
      (l.Pairwise fun p q => p.1 < q.1) → S.splrep l s k = .ok fun r => a + b * r := by
  refine ⟨⟨fun l _ _ => if h : ∃ c : ℝ × ℝ, ∀ q ∈ l, q.2.1 = c.1 + c.2 * q.1 then .ok fun r => h.choose.1 + h.choose.2 * r
    else .ok fun _ => 0, fun _ _ _ => 0, fun _ _ => 0⟩, ?_⟩
  intro l s a b k hl hk hn hinc
  have hex : ∃ c : ℝ × ℝ, ∀ q ∈ l, q.2.1 = c.1 + c.2 * q.1 := ⟨(a, b), hl⟩
  simp only
  rw [dif_pos hex]
  have hc := hex.choose_spec
  set c := hex.choose
  match l, hn, hinc, hl, hc with
  | [], hn, _, _, _ => simp at hn
  | [_], hn, _, _, _ => simp at hn; omega
  | p :: q :: l, _, hinc, hl, hc =>
    have hpq : p.1 < q.1 := (List.pairwise_cons.1 hinc).1 q (by simp)
    have e1 := hl p (by simp)
    have e2 := hl q (by simp)
    have e3 := hc p (by simp)
    have e4 := hc q (by simp)
    have hb : c.2 = b := by
      have : (c.2 - b) * (q.1 - p.1) = 0 := by linarith
      rcases mul_eq_zero.1 this with h | h
      · linarith
      · linarith
    have ha : c.1 = a := by rw [hb] at e3; linarith
    rw [ha, hb]

theorem le_listMax {l : List ℝ} {x : ℝ} (hx : x ∈ l) : x ≤ listMax l := by
  have h : ∀ (l : List ℝ) (a : ℝ), a ≤ l.foldl max a ∧ ∀ x ∈ l, x ≤ l.foldl max a := by
    intro l
    induction l with
    | nil => intro a; simp
    | cons b l ih =>
      intro a
      obtain ⟨h1, h2⟩ := ih (max a b)
      refine ⟨(le_max_left a b).trans h1, fun x hx => ?_⟩
      rcases List.mem_cons.1 hx with rfl | hx
      · exact (le_max_right a x).trans h1
      · exact h2 x hx
  cases l with
  | nil => cases hx
  | cons a l =>
    rcases List.mem_cons.1 hx with rfl | hx
    · exact (h l x).1
    · exact (h l a).2 x hx

theorem listMin_le {l : List ℝ} {x : ℝ} (hx : x ∈ l) : listMin l ≤ x := by
  have h : ∀ (l : List ℝ) (a : ℝ), l.foldl min a ≤ a ∧ ∀ x ∈ l, l.foldl min a ≤ x := by
    intro l
    induction l with
    | nil => intro a; simp
    | cons b l ih =>
      intro a
      obtain ⟨h1, h2⟩ := ih (min a b)
      refine ⟨h1.trans (min_le_left a b), fun x hx => ?_⟩
      rcases List.mem_cons.1 hx with rfl | hx
      · exact h1.trans (min_le_right a x)
      · exact h2 x hx
  cases l with
  | nil => cases hx
  | cons a l =>
    rcases List.mem_cons.1 hx with rfl | hx
    · exact (h l x).1
    · exact (h l a).2 x hx

/-- **C111, range.** The reported range holds all data points and has a data point at each end; without data
points there is an error. -/
theorem c111_range (F : Fitting) : (F.deriv = [] → F.getRange = .error .valueError) ∧
    (F.deriv ≠ [] → ∃ a b, F.getRange = .ok (a, b) ∧ (∀ p ∈ F.deriv, a ≤ p.R ∧ p.R ≤ b) ∧
      (∃ p ∈ F.deriv, p.R = a) ∧ ∃ p ∈ F.deriv, p.R = b) := by
  unfold Fitting.getRange
  refine ⟨fun h => if_pos h, fun h => ⟨_, _, if_neg h, fun p hp => ?_, ?_, ?_⟩⟩
  · exact ⟨listMin_le (List.mem_map.2 ⟨p, hp, rfl⟩), le_listMax (List.mem_map.2 ⟨p, hp, rfl⟩)⟩
  · obtain ⟨p, hp, he⟩ := List.mem_map.1 (listMin_mem (l := F.deriv.map fun p => p.R) (by simpa using h))
    exact ⟨p, hp, he⟩
  · obtain ⟨p, hp, he⟩ := List.mem_map.1 (listMax_mem (l := F.deriv.map fun p => p.R) (by simpa using h))
    exact ⟨p, hp, he⟩

/-- Hypotheses of `c111_range`: two data points. -/
example (F : Fitting) : ∃ a b, ({ F with deriv := [⟨2, some (-1), 1, [], none⟩, ⟨1, some (-5), 1, [], none⟩] } : Fitting).getRange =
    .ok (a, b) ∧ a ≤ 1 ∧ 2 ≤ b := by
  obtain ⟨a, b, h1, h2, -⟩ := (c111_range { F with deriv := [⟨2, some (-1), 1, [], none⟩, ⟨1, some (-5), 1, [], none⟩] }).2 (by simp)
  exact ⟨a, b, h1, (h2 ⟨1, some (-5), 1, [], none⟩ (by simp)).1, (h2 ⟨2, some (-1), 1, [], none⟩ (by simp)).2⟩

end Hotbit
