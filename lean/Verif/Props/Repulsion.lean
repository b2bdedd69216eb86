import Verif.Lemmas.PairTerms
import Mathlib.Topology.Order.Basic
import Mathlib.Tactic.IntervalCases
import Verif.Props.MatricesContainers

/-!
# C31: repulsive energy and forces
-/

set_option linter.unusedSimpArgs false

namespace Hotbit

open Matrix

/-- The two orders of a pair of elements have the same potential. -/
def SymmetricPot (G : Geom) (V : String → String → Pot) : Prop :=
  ∀ i < G.N, ∀ j < G.N, V (G.sym i) (G.sym j) = V (G.sym j) (G.sym i)

open Classical in
/-- The potential between atoms `i` and `j`, cut at `rmax`. -/
noncomputable def cutPot (G : Geom) (V : String → String → Pot) (rmax : ℝ) (i j : ℕ) (d : ℝ) : ℝ :=
  if d ≤ rmax then V (G.sym i) (G.sym j) 0 d else 0

open Classical in
/-- The derivative used by the forces, cut at `rmax`. -/
noncomputable def cutDer (G : Geom) (V : String → String → Pot) (rmax : ℝ) (i j : ℕ) (d : ℝ) : ℝ :=
  if d < rmax then V (G.sym i) (G.sym j) 1 d else 0

theorem cut_hasDerivAt {f f' : ℝ → ℝ} {rmax d : ℝ} (hd : d ≠ rmax)
    (h : d < rmax → HasDerivAt f (f' d) d) :
    HasDerivAt (fun x => open Classical in if x ≤ rmax then f x else 0)
      (open Classical in if d < rmax then f' d else 0) d := by
  rcases lt_or_gt_of_ne hd with hlt | hgt
  · rw [if_pos hlt]
    refine (h hlt).congr_of_eventuallyEq ?_
    filter_upwards [eventually_lt_nhds hlt] with x hx
    exact if_pos hx.le
  · rw [if_neg (not_lt.mpr hgt.le)]
    refine (hasDerivAt_const d (0 : ℝ)).congr_of_eventuallyEq ?_
    filter_upwards [eventually_gt_nhds hgt] with x hx
    exact if_neg (not_le.mpr hx)

variable {G : Geom} {σ : Op → Op} {V : String → String → Pot} {rmax hartree : ℝ}

open Classical in
theorem repStep_term {i j : ℕ} {e e' : ℝ} {im : Op × ℕ} (h : repStep G V rmax i j e im = .ok e') :
    e' = e + if i = j then (if i = j ∧ im.2 = 0 then 0 else
        1 / 2 * cutPot G V rmax i j (norm3 (G.rij im.1 i j)))
      else cutPot G V rmax i j (norm3 (G.rij im.1 i j)) := by
  unfold repStep at h
  unfold cutPot
  by_cases h1 : i = j ∧ im.2 = 0
  · rw [if_pos h1] at h
    cases h
    simp [h1.1, h1.2]
  rw [if_neg h1] at h
  simp only at h
  by_cases h2 : norm3 (G.rij im.1 i j) > rmax
  · rw [if_pos h2] at h
    cases h
    rw [if_neg (not_le.mpr h2)]
    simp
  rw [if_neg h2] at h
  rw [if_pos (not_lt.mp h2)]
  by_cases h3 : ¬ norm3 (G.rij im.1 i j) > 1e-10
  · rw [if_pos h3] at h; cases h
  rw [if_neg h3] at h
  by_cases h4 : i = j
  · rw [if_pos h4] at h
    cases h
    rw [if_pos h4, if_neg h1]
    norm_num
  · rw [if_neg h4] at h
    cases h
    rw [if_neg h4]

open Classical in
theorem pair_zipIdx (h0 : ∃ rest, G.ntuples = 0 :: rest ∧ (0 : Op) ∉ rest) (W : ℕ → ℕ → ℝ → ℝ) (i j : ℕ) :
    (G.ntuples.zipIdx.map fun im => if i = j then (if i = j ∧ im.2 = 0 then 0 else
        1 / 2 * W i j (norm3 (G.rij im.1 i j))) else W i j (norm3 (G.rij im.1 i j))).sum
      = if i = j then 1 / 2 * (G.ntuples.map fun n =>
            if i = j ∧ n = 0 then 0 else W i j (norm3 (G.rij n i j))).sum
        else (G.ntuples.map fun n => if i = j ∧ n = 0 then 0 else W i j (norm3 (G.rij n i j))).sum := by
  obtain ⟨rest, hr, hz⟩ := h0
  by_cases hij : i = j
  · simp only [hij, if_true, true_and]
    rw [← list_sum_mul, hr]
    refine zipIdx_sum 0 rest hz _ _ (by simp) fun n m hn hm => ?_
    simp [hn, hm]
  · simp only [hij, if_false, false_and]
    rw [hr]
    exact zipIdx_sum 0 rest hz _ _ rfl fun n m hn hm => rfl

open Classical in
/-- The triangular loops add up to the cell energy. -/
theorem triangle_cell (h : G.Inverse σ) {W : ℕ → ℕ → ℝ → ℝ} (hW : ∀ i < G.N, ∀ j < G.N, W i j = W j i) :
    ((List.range G.N).map fun i => ((List.range' i (G.N - i)).map fun j =>
      (G.ntuples.zipIdx.map fun im => if i = j then (if i = j ∧ im.2 = 0 then 0 else
        1 / 2 * W i j (norm3 (G.rij im.1 i j))) else W i j (norm3 (G.rij im.1 i j))).sum).sum).sum
      = cellEnergy G W := by
  simp only [pair_zipIdx h.idFirst, range'_sum]
  rw [list_range_sum, cellEnergy, triangle_sum]
  intro i hi j hj hij
  exact image_sum_swap h hi hj fun d => by rw [hW i hi j hj]

/-- **C31 (each pair once).** When it succeeds, the repulsive energy is the energy per cell in which
every interaction of an atom with an image of an atom counts one half for each partner. -/
theorem c31_energy (h : G.Inverse σ) (hV : SymmetricPot G V) {E : ℝ}
    (hE : repEnergy G V rmax hartree = .ok E) : E = cellEnergy G (cutPot G V rmax) * hartree := by
  classical
  unfold repEnergy at hE
  cases hf : (List.range G.N).foldlM (fun e i => (List.range' i (G.N - i)).foldlM
      (fun e j => G.ntuples.zipIdx.foldlM (repStep G V rmax i j) e) e) 0 with
  | error x => rw [hf] at hE; simp [bind, Except.bind] at hE
  | ok e =>
    rw [hf] at hE
    simp only [bind, Except.bind, pure, Except.pure, Except.ok.injEq] at hE
    rw [← hE]
    congr 1
    have h1 := foldlM_add_of_ok (List.range G.N)
      (fun i => ((List.range' i (G.N - i)).map fun j =>
        (G.ntuples.zipIdx.map fun im => if i = j then (if i = j ∧ im.2 = 0 then 0 else
          1 / 2 * cutPot G V rmax i j (norm3 (G.rij im.1 i j)))
          else cutPot G V rmax i j (norm3 (G.rij im.1 i j))).sum).sum) _ ?_ _ _ hf
    · rw [h1, zero_add]
      refine triangle_cell h fun i hi j hj => ?_
      funext d
      unfold cutPot
      rw [hV i hi j hj]
    · intro e i e' he
      refine foldlM_add_of_ok _ _ _ ?_ _ _ he
      intro e j e' he
      exact foldlM_add_of_ok _ _ _ (fun e im e' hs => repStep_term hs) _ _ he

/-- The distances that make the loop raise. -/
def Coincident (G : Geom) (rmax : ℝ) (i j : ℕ) (n : Op) : Prop :=
  ¬ (i = j ∧ n = 0) ∧ norm3 (G.rij n i j) ≤ rmax ∧ norm3 (G.rij n i j) ≤ 1e-10

open Classical in
/-- **C31 (no coincident atoms).** The energy is computed whenever no atom coincides with another atom
or image. -/
theorem c31_succeeds (h0 : ∃ rest, G.ntuples = 0 :: rest ∧ (0 : Op) ∉ rest)
    (hc : ∀ i j, i ≤ j → j < G.N → ∀ n ∈ G.ntuples, ¬ Coincident G rmax i j n) :
    ∃ E, repEnergy G V rmax hartree = .ok E := by
  obtain ⟨rest, hr, hz⟩ := h0
  have hstep : ∀ i j, i ≤ j → j < G.N → ∀ e, ∀ im ∈ G.ntuples.zipIdx, repStep G V rmax i j e im
      = .ok (e + if i = j then (if i = j ∧ im.2 = 0 then 0 else
        1 / 2 * cutPot G V rmax i j (norm3 (G.rij im.1 i j)))
      else cutPot G V rmax i j (norm3 (G.rij im.1 i j))) := by
    intro i j hij hj e im him
    cases hs : repStep G V rmax i j e im with
    | ok e' => rw [repStep_term hs]
    | error x =>
      exfalso
      unfold repStep at hs
      by_cases h1 : i = j ∧ im.2 = 0
      · rw [if_pos h1] at hs; cases hs
      rw [if_neg h1] at hs
      simp only at hs
      by_cases h2 : norm3 (G.rij im.1 i j) > rmax
      · rw [if_pos h2] at hs; cases hs
      rw [if_neg h2] at hs
      by_cases h3 : ¬ norm3 (G.rij im.1 i j) > 1e-10
      · obtain ⟨n, m⟩ := im
        have hmem := List.mem_zipIdx him
        have hn : n ∈ G.ntuples := by rw [hmem.2.2]; exact List.getElem_mem _
        refine hc i j hij hj n hn ⟨fun hcn => h1 ⟨hcn.1, ?_⟩, not_lt.mp h2, not_lt.mp h3⟩
        by_contra hm
        have hm' : m ≠ 0 := hm
        have h4 := List.mem_zipIdx_iff_getElem?.mp him
        dsimp only at h4
        rw [hr] at h4
        obtain ⟨k, rfl⟩ := Nat.exists_eq_succ_of_ne_zero hm'
        rw [Nat.succ_eq_add_one, List.getElem?_cons_succ] at h4
        apply hz
        rw [← hcn.2]
        exact List.mem_of_getElem? h4
      · rw [if_neg h3] at hs
        split at hs <;> cases hs
  unfold repEnergy
  have h1 := foldlM_add (List.range G.N) (fun i => ((List.range' i (G.N - i)).map fun j =>
      (G.ntuples.zipIdx.map fun im => if i = j then (if i = j ∧ im.2 = 0 then 0 else
        1 / 2 * cutPot G V rmax i j (norm3 (G.rij im.1 i j)))
        else cutPot G V rmax i j (norm3 (G.rij im.1 i j))).sum).sum)
    (fun e i => (List.range' i (G.N - i)).foldlM
      (fun e j => G.ntuples.zipIdx.foldlM (repStep G V rmax i j) e) e) ?_ 0
  · rw [h1]
    exact ⟨_, rfl⟩
  · intro e i hi
    refine foldlM_add _ _ _ ?_ _
    intro e j hj
    have hj' := List.mem_range'_1.mp hj
    exact foldlM_add _ _ _ (hstep i j hj'.1 (by have := List.mem_range.mp hi; omega)) _

/-- **C31 (coincident atoms).** If two different atoms, or an atom and an image, coincide within the
range, the energy is refused. -/
theorem c31_coincident (h0 : ∃ rest, G.ntuples = 0 :: rest ∧ (0 : Op) ∉ rest) {i j : ℕ} (hij : i ≤ j)
    (hj : j < G.N) {n : Op} (hn : n ∈ G.ntuples) (hc : Coincident G rmax i j n) :
    ∀ E, repEnergy G V rmax hartree ≠ .ok E := by
  classical
  intro E hE
  obtain ⟨rest, hr, hz⟩ := h0
  have hmem : ∀ {α : Type} (l : List α) (step : ℝ → α → Except Exn ℝ) (e e' : ℝ) (x : α), x ∈ l →
      l.foldlM step e = .ok e' → ∃ e1 e2, step e1 x = .ok e2 := by
    intro α l step
    induction l with
    | nil => intro _ _ _ hx; simp at hx
    | cons y l ih =>
      intro e e' x hx hok
      rw [List.foldlM_cons] at hok
      cases hs : step e y with
      | error z => rw [hs] at hok; simp [bind, Except.bind] at hok
      | ok e1 =>
        rw [hs] at hok
        rcases List.mem_cons.mp hx with rfl | hx
        · exact ⟨_, _, hs⟩
        · exact ih _ _ _ hx hok
  unfold repEnergy at hE
  cases hf : (List.range G.N).foldlM (fun e i => (List.range' i (G.N - i)).foldlM
      (fun e j => G.ntuples.zipIdx.foldlM (repStep G V rmax i j) e) e) 0 with
  | error x => rw [hf] at hE; simp [bind, Except.bind] at hE
  | ok e =>
    obtain ⟨e1, e2, h1⟩ := hmem _ _ _ _ i (List.mem_range.mpr (by omega)) hf
    obtain ⟨e3, e4, h2⟩ := hmem _ _ _ _ j (List.mem_range'_1.mpr ⟨hij, by omega⟩) h1
    obtain ⟨k, hk, hk'⟩ := List.getElem_of_mem hn
    have him : (n, k) ∈ G.ntuples.zipIdx := by
      rw [List.mem_zipIdx_iff_getElem?]
      dsimp only
      rw [List.getElem?_eq_getElem hk, hk']
    obtain ⟨e5, e6, h3⟩ := hmem _ _ _ _ _ him h2
    unfold repStep at h3
    rw [if_neg, if_neg (not_lt.mpr hc.2.1), if_pos (not_lt.mpr hc.2.2)] at h3
    · cases h3
    · rintro ⟨h4, h5⟩
      apply hc.1
      refine ⟨h4, ?_⟩
      dsimp only at h5
      subst h5
      rw [← hk']
      simp [hr]

theorem repRmax_ge (present : List String) (vrep : String → String → RepPot) {a b : String}
    (ha : a ∈ present) (hb : b ∈ present) : (vrep a b).rcut ≤ repRmax present vrep := by
  unfold repRmax
  have hm : (a, b) ∈ repRmax.allPairsOf present :=
    List.mem_flatMap.mpr ⟨a, ha, List.mem_map.mpr ⟨b, hb, rfl⟩⟩
  generalize repRmax.allPairsOf present = l at hm
  have hmono : ∀ (l : List (String × String)) (m : ℝ),
      m ≤ l.foldl (fun m q => max m (vrep q.1 q.2).rcut) m := by
    intro l
    induction l with
    | nil => intro m; exact le_refl _
    | cons q l ih => intro m; exact le_trans (le_max_left _ _) (ih _)
  have : ∀ (l : List (String × String)) (m : ℝ), (a, b) ∈ l →
      (vrep a b).rcut ≤ l.foldl (fun m q => max m (vrep q.1 q.2).rcut) m := by
    intro l
    induction l with
    | nil => intro m h; simp at h
    | cons q l ih =>
      intro m h
      rcases List.mem_cons.mp h with rfl | h
      · exact le_trans (le_max_right _ _) (hmono l _)
      · exact ih _ h
  exact this l 0 hm

open Classical in
/-- **C31 (the cutoff drops nothing).** The common cutoff `rmax` is at least the range of every
potential, each of which vanishes beyond its range: the energy is that of the uncut potentials. -/
theorem c31_cutoff (present : List String) (vrep : String → String → RepPot)
    (hp : ∀ i < G.N, G.sym i ∈ present) :
    cellEnergy G (cutPot G (fun a b => (vrep a b).call) (repRmax present vrep))
      = cellEnergy G fun i j d => (vrep (G.sym i) (G.sym j)).call 0 d := by
  unfold cellEnergy
  congr 1
  refine Finset.sum_congr rfl fun i hi => Finset.sum_congr rfl fun j hj => ?_
  congr 1
  refine List.map_congr_left fun n _ => ?_
  split
  · rfl
  unfold cutPot
  split
  · rfl
  · rename_i h
    have := repRmax_ge present vrep (hp i (Finset.mem_range.mp hi)) (hp j (Finset.mem_range.mp hj))
    show (0 : ℝ) = (vrep (G.sym i) (G.sym j)).call 0 (norm3 (G.rij n i j))
    unfold RepPot.call splineOrZero
    rw [if_pos (Or.inr (lt_of_le_of_lt this (not_le.mp h)))]

theorem relabel_inverse (h : G.Inverse σ) {π : ℕ → ℕ} (hπ : ∀ i < G.N, π i < G.N) :
    (G.relabel π).Inverse σ where
  idFirst := h.idFirst
  nodup := h.nodup
  mem := h.mem
  invol := h.invol
  zero := h.zero
  orth := h.orth
  rot := h.rot
  rot_zero := h.rot_zero
  pos := fun n hn i hi j hj => h.pos n hn (π i) (hπ i hi) (π j) (hπ j hj)

open Classical in
/-- **C31 (relabelling).** Numbering the atoms differently does not change the energy. -/
theorem c31_relabel (h : G.Inverse σ) (hV : SymmetricPot G V) {π : ℕ → ℕ}
    (hπ : Set.BijOn π (Set.Iio G.N) (Set.Iio G.N)) {E E' : ℝ}
    (hE : repEnergy G V rmax hartree = .ok E)
    (hE' : repEnergy (G.relabel π) V rmax hartree = .ok E') : E' = E := by
  have hm : ∀ i < G.N, π i < G.N := fun i hi => hπ.mapsTo hi
  have hV' : SymmetricPot (G.relabel π) V := fun i hi j hj => hV _ (hm i hi) _ (hm j hj)
  rw [c31_energy h hV hE, c31_energy (relabel_inverse h hm) hV' hE']
  congr 1
  unfold cellEnergy
  congr 1
  have hsum : ∀ F : ℕ → ℝ, ∑ i ∈ Finset.range G.N, F (π i) = ∑ i ∈ Finset.range G.N, F i := by
    intro F
    refine Finset.sum_bij (fun i _ => π i) (fun i hi => Finset.mem_range.mpr (hm i (Finset.mem_range.mp hi)))
      (fun i hi j hj hij => hπ.injOn (Finset.mem_range.mp hi) (Finset.mem_range.mp hj) hij)
      (fun b hb => ?_) (fun _ _ => rfl)
    obtain ⟨a, ha, hab⟩ := hπ.surjOn (Finset.mem_range.mp hb : b ∈ Set.Iio G.N)
    exact ⟨a, Finset.mem_range.mpr ha, hab⟩
  rw [← hsum]
  show ∑ i ∈ Finset.range G.N, _ = _
  refine Finset.sum_congr rfl fun i hi => ?_
  rw [← hsum]
  refine Finset.sum_congr rfl fun j hj => ?_
  congr 1
  refine List.map_congr_left fun n _ => ?_
  have hiff : i = j ↔ π i = π j :=
    ⟨fun h => h ▸ rfl, fun h => hπ.injOn (Finset.mem_range.mp hi) (Finset.mem_range.mp hj) h⟩
  simp only [hiff]
  rfl

theorem repPairEnergy_eq (i j : ℕ) : open Classical in repPairEnergy G V rmax i j
    = (G.ntuples.zipIdx.map fun im => if i = j then (if i = j ∧ im.2 = 0 then 0 else
        1 / 2 * cutPot G V rmax i j (norm3 (G.rij im.1 i j)))
      else cutPot G V rmax i j (norm3 (G.rij im.1 i j))).sum := by
  classical
  unfold repPairEnergy
  rw [foldl_add _ (fun im => if i = j then (if i = j ∧ im.2 = 0 then 0 else
        1 / 2 * cutPot G V rmax i j (norm3 (G.rij im.1 i j)))
      else cutPot G V rmax i j (norm3 (G.rij im.1 i j))), zero_add]
  intro e im _
  unfold cutPot
  by_cases h1 : i = j ∧ im.2 = 0
  · simp [h1.1, h1.2]
  rw [if_neg h1]
  dsimp only
  by_cases h2 : norm3 (G.rij im.1 i j) > rmax
  · rw [if_pos h2, if_neg (not_le.mpr h2)]
    simp
  · rw [if_neg h2, if_pos (not_lt.mp h2)]
    by_cases h4 : i = j
    · rw [if_pos h4, if_pos h4, if_neg h1]; norm_num
    · rw [if_neg h4, if_neg h4]

/-- **C31 (pair energies).** The pair energies are symmetric and add up, over pairs `i ≤ j`, to the
total energy. -/
theorem c31_pair_energies (h : G.Inverse σ) (hV : SymmetricPot G V) :
    (∀ i < G.N, ∀ j < G.N, repPairEnergy G V rmax i j = repPairEnergy G V rmax j i) ∧
    ∀ E, repEnergy G V rmax hartree = .ok E →
      E = (∑ i ∈ Finset.range G.N, ∑ j ∈ Finset.Ico i G.N, repPairEnergy G V rmax i j) * hartree := by
  classical
  have hW : ∀ i < G.N, ∀ j < G.N, cutPot G V rmax i j = cutPot G V rmax j i := by
    intro i hi j hj
    funext d
    unfold cutPot
    rw [hV i hi j hj]
  constructor
  · intro i hi j hj
    rw [repPairEnergy_eq, repPairEnergy_eq, pair_zipIdx h.idFirst, pair_zipIdx h.idFirst,
      image_sum_swap h hi hj fun d => by rw [hW i hi j hj]]
    simp only [eq_comm (a := j) (b := i)]
  · intro E hE
    rw [c31_energy h hV hE, ← triangle_cell h hW, list_range_sum]
    simp only [range'_sum, repPairEnergy_eq]

open Classical in
theorem forces_eq (h0 : ∃ rest, G.ntuples = 0 :: rest ∧ (0 : Op) ∉ rest) (W : ℕ → ℕ → Pot) (i : ℕ) :
    (List.range G.N).foldl (fun f j => G.ntuples.zipIdx.foldl (forceStep G (W i j) rmax i j) f) 0
      = centralForce G (fun i j d => if d < rmax then W i j 1 d else 0) i := by
  obtain ⟨rest, hr, hz⟩ := h0
  rw [foldl_add _ fun j => (G.ntuples.zipIdx.map fun im => if i = j ∧ im.2 = 0 then 0 else
      ((if norm3 (G.rij im.1 i j) < rmax then W i j 1 (norm3 (G.rij im.1 i j)) else 0)
        / norm3 (G.rij im.1 i j)) • G.rij im.1 i j).sum]
  · rw [zero_add, list_range_sum]
    unfold centralForce
    refine Finset.sum_congr rfl fun j _ => ?_
    rw [hr]
    refine zipIdx_sum 0 rest hz _ _ (by simp) fun n m hn hm => ?_
    simp [hn, hm]
  · intro e j _
    refine foldl_add _ _ _ (fun e im _ => ?_) _
    unfold forceStep
    by_cases h1 : i = j ∧ im.2 = 0
    · rw [if_pos h1, if_pos h1, add_zero]
    · rw [if_neg h1, if_neg h1]
      dsimp only
      split
      · rfl
      · simp

/-- **C31 (forces).** The force on an atom is the sum of the central forces of all partners. -/
theorem c31_forces (h0 : ∃ rest, G.ntuples = 0 :: rest ∧ (0 : Op) ∉ rest) (i : ℕ) :
    repForces G V rmax i = centralForce G (cutDer G V rmax) i :=
  forces_eq h0 (fun i j => V (G.sym i) (G.sym j)) i

/-- The energy, zero if it is refused. -/
noncomputable def repEnergyOf (G : Geom) (V : String → String → Pot) (rmax hartree : ℝ) : ℝ :=
  match repEnergy G V rmax hartree with
  | .ok E => E
  | .error _ => 0

/-- No distance equals the cutoff, none is tiny, and at those below the cutoff `V(·,der=1)` is the
derivative of `V(·,der=0)`. -/
def SmoothRep (G : Geom) (V : String → String → Pot) (rmax : ℝ) : Prop :=
  ∀ i < G.N, ∀ j < G.N, ∀ n ∈ G.ntuples, ¬ (i = j ∧ n = 0) →
    let d := norm3 (G.rij n i j)
    1e-10 < d ∧ d ≠ rmax ∧
      (d < rmax → HasDerivAt (V (G.sym i) (G.sym j) 0) (V (G.sym i) (G.sym j) 1 d) d)

theorem SmoothRep.smoothAt (h : SmoothRep G V rmax) : SmoothAt G (cutPot G V rmax) (cutDer G V rmax) := by
  intro i hi j hj n hn hc
  obtain ⟨h1, h2, h3⟩ := h i hi j hj n hn hc
  refine ⟨?_, cut_hasDerivAt h2 h3⟩
  intro h0
  rw [h0, norm3_eq_zero.mpr rfl] at h1
  norm_num at h1

/-- **C31 (gradient).** When atom `a` moves along `v`, together with its images, the repulsive energy
changes at the rate minus force times velocity. -/
theorem c31_gradient (h : G.Inverse σ) (hV : SymmetricPot G V) (hs : SmoothRep G V rmax) {a : ℕ}
    (ha : a < G.N) (v : Vec) :
    HasDerivAt (fun t : ℝ => repEnergyOf (G.displace a (t • v)) V rmax hartree)
      (-(repForces G V rmax a ⬝ᵥ v) * hartree) 0 := by
  have hW : ∀ i < G.N, ∀ j < G.N, cutPot G V rmax i j = cutPot G V rmax j i := by
    intro i hi j hj
    funext d
    unfold cutPot
    rw [hV i hi j hj]
  rw [c31_forces h.idFirst]
  have hg := (cellEnergy_gradient h hW hs.smoothAt ha v).mul_const hartree
  refine hg.congr_of_eventuallyEq ?_
  have hall : ∀ᶠ t : ℝ in nhds 0, ∀ i ∈ Finset.range G.N, ∀ j ∈ Finset.range G.N, ∀ n ∈ G.ntuples.toFinset,
      ¬ (i = j ∧ n = 0) → 1e-10 < norm3 ((G.displace a (t • v)).rij n i j) := by
    rw [Filter.eventually_all_finset]
    intro i hi
    rw [Filter.eventually_all_finset]
    intro j hj
    rw [Filter.eventually_all_finset]
    intro n hn
    by_cases hc : i = j ∧ n = 0
    · exact Filter.Eventually.of_forall fun t h => absurd hc h
    · obtain ⟨h1, -, -⟩ := hs i (Finset.mem_range.mp hi) j (Finset.mem_range.mp hj) n
        (List.mem_toFinset.mp hn) hc
      have hne : G.rij n i j ≠ 0 := by
        intro h0
        rw [h0, norm3_eq_zero.mpr rfl] at h1
        norm_num at h1
      have hcont : ContinuousAt (fun t : ℝ => norm3 ((G.displace a (t • v)).rij n i j)) 0 := by
        have := (norm3_hasDerivAt (G.rij n i j) ((if j = a then (G.rot n).mulVec v else 0)
          - (if i = a then (G.rot 0).mulVec v else 0)) hne).continuousAt
        refine this.congr (Filter.Eventually.of_forall fun t => ?_)
        dsimp only
        rw [displace_rij, smul_sub]
        congr 3 <;> split <;> simp [Matrix.mulVec_smul]
      have h2 : (1e-10 : ℝ) < norm3 ((G.displace a ((0 : ℝ) • v)).rij n i j) := by
        rw [displace_rij]; simpa using h1
      filter_upwards [hcont.eventually (eventually_gt_nhds h2)] with t ht _
      exact ht
  filter_upwards [hall] with t ht
  have hinv := displace_inverse h a (t • v)
  obtain ⟨E, hE⟩ := c31_succeeds (V := V) (rmax := rmax) (hartree := hartree) hinv.idFirst (by
    intro i j hij hj n hn hc
    have := ht i (Finset.mem_range.mpr (lt_of_le_of_lt hij hj)) j (Finset.mem_range.mpr hj) n
      (List.mem_toFinset.mpr hn) hc.1
    exact absurd hc.2.2 (not_le.mpr this))
  unfold repEnergyOf
  rw [hE]
  exact c31_energy hinv hV hE

/-- **C31 (total force).** Without images, or with translated images only, the forces sum to zero. -/
theorem c31_sum_zero (h : G.Inverse σ) (hV : SymmetricPot G V) (hs : SmoothRep G V rmax)
    (hr : ∀ n ∈ G.ntuples, G.rot n = 1) : ∑ i ∈ Finset.range G.N, repForces G V rmax i = 0 := by
  simp only [c31_forces h.idFirst]
  refine centralForce_sum h (V := cutPot G V rmax) ?_ hs.smoothAt hr
  intro i hi j hj
  funext d
  unfold cutPot
  rw [hV i hi j hj]

/-- **C31 (systems of atoms).** The geometry built by the program for a container with commuting
operations has its images in inverse pairs (`e` is the operation that acts as the identity, zero if
there is none, see C29). -/
theorem c31_containers (A : Atoms) (hA : Commuting A.ctype) (bohr : ℝ) (e : Op) (cut : ℕ → ℕ → ℝ)
    (scan : List Op) (hcut : ∀ i j, cut i j = cut j i) (hnd : scan.Nodup)
    (hscan : ∀ n ∈ scan, undoOp e n ∈ scan) (he0 : (∀ n ∈ scan, 2 * n 0 ≠ - e 0) ∨ e 0 = 0)
    (he : TrivialOp A 0 e) (hinv0 : undoOp e 0 = 0) :
    (Geom.ofAtoms A bohr cut scan).Inverse (undoOp e) := by
  have e1 : (Geom.ofAtoms A bohr cut scan).ntuples
      = selectImages A.atoms.length (imagePos A bohr) cut scan := rfl
  refine
    { idFirst := by rw [e1]; exact selectImages_idFirst _ _ _ _
      nodup := by rw [e1]; exact selectImages_nodup _ _ _ _ hnd
      mem := fun n hn => by
        rw [e1] at hn ⊢
        exact c29_images_closed A hA bohr 0 e cut scan hcut hscan he0 he hinv0 n hn
      invol := fun n hn => by
        rw [e1] at hn
        unfold selectImages at hn
        rcases List.mem_cons.mp hn with rfl | hn
        · rw [hinv0, hinv0]
        · rw [List.mem_filter] at hn
          exact undoOp_invol e n (he0.imp (fun h => h n hn.1) id)
      zero := hinv0
      orth := fun n _ => rawRotation_orth A hA n
      rot := fun n _ => (undoOp_transform A hA 0 e n (fun _ => he)).2.2.1
      rot_zero := rawRotation_zero A hA
      pos := fun n _ i _ j _ => imagePos_inverse A hA bohr 0 e n (fun _ => he) i j }

/-- **C31 (order of elements, violated).** If the files of the pairs `AB` and `BA` differ, which
`Interactions` allows, the repulsive energy depends on the numbering of the atoms. -/
theorem c31_relabel_fails : ∃ (G : Geom) (V : String → String → Pot) (π : ℕ → ℕ) (E E' : ℝ),
    G.Inverse id ∧ Set.BijOn π (Set.Iio G.N) (Set.Iio G.N) ∧
    repEnergy G V 3 1 = .ok E ∧ repEnergy (G.relabel π) V 3 1 = .ok E' ∧ E' ≠ E := by
  let G : Geom := { N := 2, sym := fun i => if i = 0 then "A" else "B", ntuples := [0],
                    rot := fun _ => 1, pos := fun _ j => ![(j : ℝ), 0, 0] }
  let V : String → String → Pot := fun a _ _ _ => if a = "A" then 1 else 2
  refine ⟨G, V, fun i => 1 - i, 1, 2, ?_, ?_, ?_, ?_, by norm_num⟩
  · have h0 : ∀ n ∈ G.ntuples, n = 0 := fun n hn => by simpa [G] using hn
    exact { idFirst := ⟨[], rfl, by simp⟩, nodup := by simp [G], mem := fun n h => h,
            invol := fun _ _ => rfl, zero := rfl, orth := fun _ _ => by simp [G],
            rot := fun _ _ => by simp [G], rot_zero := rfl,
            pos := fun n hn i _ j _ => by simp [G, Geom.rij] }
  · refine ⟨fun i hi => ?_, fun i hi j hj h => ?_, fun i hi => ⟨1 - i, ?_, ?_⟩⟩ <;>
      simp only [Set.mem_Iio, G] at * <;> omega
  · have hr : G.rij 0 0 1 = ![1, 0, 0] := by
      ext c; fin_cases c <;> simp [Geom.rij, G]
    have h1 : repStep G V 3 0 1 0 (0, 0) = .ok 1 := by
      unfold repStep
      rw [if_neg (by simp)]
      simp only [hr, norm3_x]
      norm_num
      simp [V, G]
    have h2 : ∀ e, repStep G V 3 0 0 e (0, 0) = .ok e ∧ repStep G V 3 1 1 e (0, 0) = .ok e := by
      intro e
      simp [repStep]
    unfold repEnergy
    simp only [show G.N = 2 from rfl, show G.ntuples = [0] from rfl]
    simp [List.range_succ, List.range', bind, Except.bind, pure, Except.pure, h1, h2]
  · have hr : (G.relabel fun i => 1 - i).rij 0 0 1 = ![-1, 0, 0] := by
      ext c; fin_cases c <;> simp [Geom.rij, G, Geom.relabel]
    have h1 : repStep (G.relabel fun i => 1 - i) V 3 0 1 0 (0, 0) = .ok 2 := by
      unfold repStep
      rw [if_neg (by simp)]
      simp only [hr, norm3_x]
      norm_num
      simp [V, G, Geom.relabel]
    have h2 : ∀ e, repStep (G.relabel fun i => 1 - i) V 3 0 0 e (0, 0) = .ok e ∧
        repStep (G.relabel fun i => 1 - i) V 3 1 1 e (0, 0) = .ok e := by
      intro e
      simp [repStep]
    unfold repEnergy
    simp only [show (G.relabel fun i => 1 - i).N = 2 from rfl,
      show (G.relabel fun i => 1 - i).ntuples = [0] from rfl]
    simp [List.range_succ, List.range', bind, Except.bind, pure, Except.pure, h1, h2]

/-- **C31 (images beyond the matrix cutoff, violated).** The images are chosen by the cutoff of the
Slater-Koster tables. A repulsion of longer range misses images: here two images at distance `2`,
within the range `3` of the potential, contribute nothing because the image list was made with cutoff
`1`. -/
theorem c31_image_range_fails : ∃ (A : Atoms) (scan : List Op) (V : String → String → Pot) (n : Op),
    Commuting A.ctype ∧ n ∈ scan ∧ n ≠ 0 ∧
    norm3 ((Geom.ofAtoms A 1 (fun _ _ => 1) scan).rij n 0 0) = 2 ∧
    repEnergy (Geom.ofAtoms A 1 (fun _ _ => 1) scan) V 3 1 = .ok 0 ∧
    ∃ E, repEnergy (Geom.ofAtoms A 1 (fun _ _ => 3) scan) V 3 1 = .ok E ∧ E ≠ 0 := by
  classical
  let A : Atoms := { ctype := .bravais, atoms := [("H", 0)], pbc := ![true, false, false],
                     cell := fun i j => if i = j then 2 else 0 }
  let p : Op := ![1, 0, 0]
  let m : Op := ![-1, 0, 0]
  have hp0 : p ≠ 0 := fun h => by simpa [p] using congrFun h 0
  have hm0 : m ≠ 0 := fun h => by simpa [m] using congrFun h 0
  have hpos : ∀ n : Op, imagePos A 1 n 0 = ![2 * (n 0 : ℝ), 2 * (n 1 : ℝ), 2 * (n 2 : ℝ)] := by
    intro n
    ext c
    fin_cases c <;> simp [imagePos, A, Atoms.rawTransform, Atoms.positions, mul_comm]
  have hij : ∀ c, ∀ n, (Geom.ofAtoms A 1 c [p, m]).rij n 0 0
      = ![2 * (n 0 : ℝ), 2 * (n 1 : ℝ), 2 * (n 2 : ℝ)] := by
    intro c n
    show imagePos A 1 n 0 - imagePos A 1 0 0 = _
    rw [hpos, hpos]
    ext c
    fin_cases c <;> simp
  have hdp : ∀ c, norm3 ((Geom.ofAtoms A 1 c [p, m]).rij p 0 0) = 2 := by
    intro c
    rw [hij]
    have : (![2 * ((p 0 : ℤ) : ℝ), 2 * ((p 1 : ℤ) : ℝ), 2 * ((p 2 : ℤ) : ℝ)] : Vec) = ![2, 0, 0] := by
      ext c; fin_cases c <;> simp [p]
    rw [this, norm3_x]; norm_num
  have hdm : ∀ c, norm3 ((Geom.ofAtoms A 1 c [p, m]).rij m 0 0) = 2 := by
    intro c
    rw [hij]
    have : (![2 * ((m 0 : ℤ) : ℝ), 2 * ((m 1 : ℤ) : ℝ), 2 * ((m 2 : ℤ) : ℝ)] : Vec) = ![-2, 0, 0] := by
      ext c; fin_cases c <;> simp [m]
    rw [this, norm3_x]; norm_num
  have hsel : ∀ c : ℝ, ∀ n : Op, (∃ i < 1, ∃ j < 1, ∑ k, (imagePos A 1 0 j k - imagePos A 1 n i k) ^ 2
      ≤ c ^ 2) ↔ 4 * ((n 0 : ℝ) ^ 2 + (n 1 : ℝ) ^ 2 + (n 2 : ℝ) ^ 2) ≤ c ^ 2 := by
    intro c n
    have : ∑ k, (imagePos A 1 0 0 k - imagePos A 1 n 0 k) ^ 2
        = 4 * ((n 0 : ℝ) ^ 2 + (n 1 : ℝ) ^ 2 + (n 2 : ℝ) ^ 2) := by
      rw [hpos, hpos]
      simp [Fin.sum_univ_three]
      ring
    constructor
    · rintro ⟨i, hi, j, hj, h⟩
      obtain rfl : i = 0 := by omega
      obtain rfl : j = 0 := by omega
      rwa [this] at h
    · intro h
      exact ⟨0, by omega, 0, by omega, by rwa [this]⟩
  have hn1 : (Geom.ofAtoms A 1 (fun _ _ => 1) [p, m]).ntuples = [0] := by
    show selectImages 1 (imagePos A 1) (fun _ _ => 1) [p, m] = _
    unfold selectImages
    simp only [hsel]
    have hp2 : p 2 = 0 := rfl
    have hm2 : m 2 = 0 := rfl
    simp only [List.filter_cons, List.filter_nil, hp2, hm2]
    norm_num [p, m]
  have hn3 : (Geom.ofAtoms A 1 (fun _ _ => 3) [p, m]).ntuples = [0, p, m] := by
    show selectImages 1 (imagePos A 1) (fun _ _ => 3) [p, m] = _
    unfold selectImages
    simp only [hsel]
    rw [List.filter_eq_self.mpr]
    intro n hn
    rcases List.mem_cons.mp hn with rfl | hn
    · refine decide_eq_true ⟨hp0, ?_⟩
      rw [show p 2 = 0 from rfl]
      norm_num [p]
    · rw [List.mem_singleton.mp hn]
      refine decide_eq_true ⟨hm0, ?_⟩
      rw [show m 2 = 0 from rfl]
      norm_num [m]
  have hz : ∀ c e, repStep (Geom.ofAtoms A 1 c [p, m]) (fun _ _ _ _ => 1) 3 0 0 e (0, 0) = .ok e := by
    intro c e
    simp [repStep]
  refine ⟨A, [p, m], fun _ _ _ _ => 1, p, trivial, by simp, hp0, hdp _, ?_, 1, ?_, one_ne_zero⟩
  · unfold repEnergy
    simp only [hn1, show (Geom.ofAtoms A 1 (fun _ _ => 1) [p, m]).N = 1 from rfl]
    simp [List.range_succ, List.range', bind, Except.bind, pure, Except.pure, hz]
  · have h1 : ∀ e, repStep (Geom.ofAtoms A 1 (fun _ _ => 3) [p, m]) (fun _ _ _ _ => 1) 3 0 0 e (p, 1)
        = .ok (e + 0.5) := by
      intro e
      unfold repStep
      rw [if_neg (by simp)]
      simp only [hdp]
      norm_num
    have h2 : ∀ e, repStep (Geom.ofAtoms A 1 (fun _ _ => 3) [p, m]) (fun _ _ _ _ => 1) 3 0 0 e (m, 2)
        = .ok (e + 0.5) := by
      intro e
      unfold repStep
      rw [if_neg (by simp)]
      simp only [hdm]
      norm_num
    unfold repEnergy
    simp only [hn3, show (Geom.ofAtoms A 1 (fun _ _ => 3) [p, m]).N = 1 from rfl]
    simp [List.range_succ, List.range', bind, Except.bind, pure, Except.pure, hz, h1, h2]
    norm_num

open Classical in
/-- **C31 (complete images).** If the matrix cutoff is at least the repulsive range, no scanned image
within the range is missed. -/
theorem c31_images_complete (A : Atoms) (bohr : ℝ) (cut : ℕ → ℕ → ℝ) (scan : List Op)
    (hcut : ∀ i j, rmax ≤ cut i j) {n : Op} (hn : n ∈ scan) {i j : ℕ}
    (hi : i < A.atoms.length) (hj : j < A.atoms.length)
    (hd : norm3 ((Geom.ofAtoms A bohr cut scan).rij n i j) ≤ rmax) :
    n ∈ (Geom.ofAtoms A bohr cut scan).ntuples := by
  show n ∈ selectImages A.atoms.length (imagePos A bohr) cut scan
  unfold selectImages
  by_cases h0 : n = 0
  · exact h0 ▸ List.mem_cons_self
  refine List.mem_cons_of_mem _ (List.mem_filter.mpr ⟨hn, decide_eq_true ⟨h0, j, hj, i, hi, ?_⟩⟩)
  have hd' : norm3 (imagePos A bohr n j - imagePos A bohr 0 i) ≤ rmax := hd
  have h1 : ∑ c, (imagePos A bohr 0 i c - imagePos A bohr n j c) ^ 2
      = norm3 (imagePos A bohr n j - imagePos A bohr 0 i) ^ 2 := by
    rw [norm3_sq]
    simp only [dotProduct, Fin.sum_univ_three, Pi.sub_apply]
    ring
  rw [h1]
  exact pow_le_pow_left₀ (norm3_nonneg _) (hd'.trans (hcut j i)) 2

/-- **C31 (list of distances).** The reported distances are exactly those of the pairs of the two
elements within the range. -/
theorem c31_distances (h0 : ∃ rest, G.ntuples = 0 :: rest ∧ (0 : Op) ∉ rest) {bohr : ℝ} (ela elb : String)
    (rcut x : ℝ) :
    x ∈ repDistances G bohr ela elb rcut ↔ ∃ i j, i ≤ j ∧ j < G.N ∧
      ((G.sym i = ela ∧ G.sym j = elb) ∨ (G.sym j = ela ∧ G.sym i = elb)) ∧
      ∃ n ∈ G.ntuples, ¬ (i = j ∧ n = 0) ∧ norm3 (G.rij n i j) ≤ rcut / bohr ∧
        x = norm3 (G.rij n i j) * bohr := by
  classical
  obtain ⟨rest, hr, hz⟩ := h0
  have hidx : ∀ n m, (n, m) ∈ G.ntuples.zipIdx → (m = 0 ↔ n = 0) := by
    intro n m h
    have h4 := List.mem_zipIdx_iff_getElem?.mp h
    dsimp only at h4
    rw [hr] at h4
    cases m with
    | zero => simp at h4; simp [h4]
    | succ k =>
      rw [List.getElem?_cons_succ] at h4
      have := List.mem_of_getElem? h4
      constructor
      · intro h; omega
      · rintro rfl; exact absurd this hz
  unfold repDistances
  simp only [List.mem_flatMap, List.mem_range, List.mem_range'_1]
  constructor
  · rintro ⟨i, hi, j, hj, hx⟩
    by_cases hs : (G.sym i = ela ∧ G.sym j = elb) ∨ (G.sym j = ela ∧ G.sym i = elb)
    · rw [if_neg (not_not.mpr hs)] at hx
      obtain ⟨⟨n, m⟩, hm, hx⟩ := List.mem_filterMap.mp hx
      dsimp only at hx
      by_cases h1 : i = j ∧ m = 0
      · rw [if_pos h1] at hx; cases hx
      rw [if_neg h1] at hx
      by_cases h2 : norm3 (G.rij n i j) ≤ rcut / bohr
      · rw [if_pos h2] at hx
        refine ⟨i, j, hj.1, by omega, hs, n, ?_, ?_, h2, (Option.some.inj hx).symm⟩
        · exact List.mem_of_getElem? (List.mem_zipIdx_iff_getElem?.mp hm)
        · rintro ⟨a, b⟩
          exact h1 ⟨a, (hidx n m hm).mpr b⟩
      · rw [if_neg h2] at hx; cases hx
    · rw [if_pos hs] at hx; simp at hx
  · rintro ⟨i, j, hij, hj, hs, n, hn, h1, h2, hx⟩
    refine ⟨i, by omega, j, ⟨hij, by omega⟩, ?_⟩
    rw [if_neg (not_not.mpr hs)]
    obtain ⟨k, hk, hk'⟩ := List.getElem_of_mem hn
    have him : (n, k) ∈ G.ntuples.zipIdx := by
      rw [List.mem_zipIdx_iff_getElem?]
      dsimp only
      rw [List.getElem?_eq_getElem hk, hk']
    refine List.mem_filterMap.mpr ⟨(n, k), him, ?_⟩
    dsimp only
    rw [if_neg fun h => h1 ⟨h.1, (hidx n k him).mp h.2⟩, if_pos h2, hx]

/-- Two atoms one Bohr apart with the potential `(2-r)²` up to `2`, which the theorems above cover: the
energy is the potential at the distance and the force is not zero. -/
example : ∃ (G : Geom) (V : String → String → Pot), G.Inverse id ∧ SymmetricPot G V ∧ SmoothRep G V 2 ∧
    (∀ n ∈ G.ntuples, G.rot n = 1) ∧ repEnergy G V 2 27 = .ok 27 ∧ repForces G V 2 0 = ![-2, 0, 0] := by
  let G : Geom := { N := 2, sym := fun i => if i = 0 then "C" else "H", ntuples := [0],
                    rot := fun _ => 1, pos := fun _ j => ![(j : ℝ), 0, 0] }
  let V : String → String → Pot := fun _ _ der r => if der = 0 then (2 - r) ^ 2 else -2 * (2 - r)
  have hij : ∀ i j, G.rij 0 i j = ![(j : ℝ) - i, 0, 0] := by
    intro i j
    ext c; fin_cases c <;> simp [Geom.rij, G]
  have h2 : ∀ e, repStep G V 2 0 0 e (0, 0) = .ok e ∧ repStep G V 2 1 1 e (0, 0) = .ok e := by
    intro e
    simp [repStep]
  refine ⟨G, V, ?_, fun i _ j _ => rfl, ?_, fun _ _ => rfl, ?_, ?_⟩
  · exact { idFirst := ⟨[], rfl, by simp⟩, nodup := by simp [G], mem := fun n h => h,
            invol := fun _ _ => rfl, zero := rfl, orth := fun _ _ => by simp [G],
            rot := fun _ _ => by simp [G], rot_zero := rfl,
            pos := fun n hn i _ j _ => by simp [G, Geom.rij] }
  · intro i hi j hj n hn hne
    have hn0 : n = 0 := by simpa [G] using hn
    subst hn0
    have hd : norm3 (G.rij 0 i j) = 1 := by
      rw [hij, norm3_x]
      have hi' : i < 2 := hi
      have hj' : j < 2 := hj
      interval_cases i <;> interval_cases j <;> simp at hne ⊢
    intro d
    have hd1 : d = 1 := hd
    rw [hd1]
    refine ⟨by norm_num, by norm_num, fun _ => ?_⟩
    have h := ((hasDerivAt_id (1 : ℝ)).const_sub 2).fun_pow 2
    refine h.congr_deriv ?_
    norm_num [V]
  · have h1 : repStep G V 2 0 1 0 (0, 0) = .ok 1 := by
      unfold repStep
      rw [if_neg (by simp)]
      simp only [hij, norm3_x]
      norm_num [V]
    unfold repEnergy
    simp only [show G.N = 2 from rfl, show G.ntuples = [0] from rfl]
    simp [List.range_succ, List.range', bind, Except.bind, pure, Except.pure, h1, h2]
  · have h1 : forceStep G (V (G.sym 0) (G.sym 1)) 2 0 1 0 (0, 0) = ![-2, 0, 0] := by
      unfold forceStep
      rw [if_neg (by simp)]
      simp only [hij, norm3_x]
      ext c; fin_cases c <;> norm_num [V]
    have h3 : ∀ f, forceStep G (V (G.sym 0) (G.sym 0)) 2 0 0 f (0, 0) = f := by
      intro f; simp [forceStep]
    unfold repForces
    simp only [show G.N = 2 from rfl, show G.ntuples = [0] from rfl]
    simp only [List.range_succ, List.range_zero, List.nil_append, List.cons_append, List.foldl_cons,
      List.foldl_nil, List.zipIdx_cons, List.zipIdx_nil, h3, h1]

end Hotbit
