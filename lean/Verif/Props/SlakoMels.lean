import Mathlib.Tactic
import Verif.Props.SlakoGrid

/-!
# The integrals and the table (C99)
-/

namespace Hotbit

open Real

/-! ### Choice of integrals -/

/-- The last orbital of the list with the letter. -/
theorem pick_spec (letter : Char) (val : List (List Char)) :
    pickOrbital letter val = (val.filter fun nl => decide (orbLetter nl = letter)).getLast? := by
  unfold pickOrbital
  suffices h : ∀ (acc : Option (List Char)), val.foldl (fun acc nl => if orbLetter nl = letter then some nl else acc) acc =
      ((val.filter fun nl => decide (orbLetter nl = letter)).getLast?).or acc by
    rw [h none]
    simp
  induction val with
  | nil => intro acc; simp
  | cons x xs ih =>
    intro acc
    rw [List.foldl_cons, ih, List.filter_cons]
    by_cases h : orbLetter x = letter
    · rw [if_pos h, if_pos (by simpa using h), List.getLast?_cons]
      cases (List.filter (fun nl => decide (orbLetter nl = letter)) xs).getLast? <;> simp
    · rw [if_neg h, if_neg (by simpa using h)]

theorem select_eq (val1 val2 : List (List Char)) : selectIntegrals val1 val2 = skIntegralNames.filterMap fun name =>
    ((val1.filter fun nl => decide (orbLetter nl = name.getD 0 ' ')).getLast?).bind fun nl1 =>
      ((val2.filter fun nl => decide (orbLetter nl = name.getD 1 ' ')).getLast?).map fun nl2 => (name, nl1, nl2) := by
  unfold selectIntegrals
  congr 1
  funext name
  unfold selectOrbitals
  rw [pick_spec, pick_spec]
  cases (val1.filter fun nl => decide (orbLetter nl = name.getD 0 ' ')).getLast? <;>
    cases (val2.filter fun nl => decide (orbLetter nl = name.getD 1 ' ')).getLast? <;> rfl

/-- **C99.** The integrals calculated for two elements are exactly those of the ten kinds for which the first element
has a valence orbital of the first angular momentum and the second one of the second, with the last such orbital of
each, in the order of the table and each once. -/
theorem c99_select (val1 val2 : List (List Char)) :
    (∀ name nl1 nl2, (name, nl1, nl2) ∈ selectIntegrals val1 val2 ↔ name ∈ skIntegralNames ∧
      (val1.filter fun nl => decide (orbLetter nl = name.getD 0 ' ')).getLast? = some nl1 ∧
      (val2.filter fun nl => decide (orbLetter nl = name.getD 1 ' ')).getLast? = some nl2) ∧
    ((selectIntegrals val1 val2).map Prod.fst).Nodup := by
  constructor
  · intro name nl1 nl2
    rw [select_eq, List.mem_filterMap]
    constructor
    · rintro ⟨n, hn, h⟩
      simp only [Option.bind_eq_some_iff, Option.map_eq_some_iff, Prod.mk.injEq] at h
      obtain ⟨a, ha, b, hb, rfl, rfl, rfl⟩ := h
      exact ⟨hn, ha, hb⟩
    · rintro ⟨hn, ha, hb⟩
      refine ⟨name, hn, ?_⟩
      rw [ha, hb]
      rfl
  · rw [select_eq, List.map_filterMap]
    refine List.Nodup.filterMap ?_ (by decide)
    intro a a' b hb hb'
    simp only [Option.mem_def, Option.map_eq_some_iff] at hb hb'
    obtain ⟨x, hx, rfl⟩ := hb
    obtain ⟨y, hy, hxy⟩ := hb'
    simp only [Option.bind_eq_some_iff, Option.map_eq_some_iff] at hx hy
    obtain ⟨_, _, _, _, rfl⟩ := hx
    obtain ⟨_, _, _, _, rfl⟩ := hy
    exact hxy.symm

/-- Carbon and titanium: `ssσ`, `spσ`, `ppσ`... but no `d` on carbon as first element. -/
example : (selectIntegrals [['2','s'], ['2','p']] [['3','d'], ['4','s'], ['4','p']]).map Prod.fst =
    [['p','d','s'], ['p','d','p'], ['p','p','s'], ['p','p','p'], ['s','d','s'], ['s','p','s'], ['s','s','s']] ∧
  (selectIntegrals [['3','d'], ['4','s'], ['4','p']] [['2','s'], ['2','p']]).map Prod.fst =
    [['p','p','s'], ['p','p','p'], ['s','p','s'], ['s','s','s']] := by decide

/-- **C99.** The arrays hold the integral of each selected kind at its place, and zeros elsewhere. -/
theorem c99_mels (val1 val2 : List (List Char)) (e1 e2 : SKAtom) (R : ℝ) (grid : List ((ℝ × ℝ) × ℝ)) (k : Fin 10) :
    (∀ name nl1 nl2, (name, nl1, nl2) ∈ selectIntegrals val1 val2 → skIntegralNames[(k : ℕ)]? = some name →
      (calcMels (selectIntegrals val1 val2) e1 e2 R grid).1 k = melS e1 e2 R k nl1 nl2 grid ∧
      (calcMels (selectIntegrals val1 val2) e1 e2 R grid).2.1 k = melH e1 e2 R k nl1 nl2 grid ∧
      (calcMels (selectIntegrals val1 val2) e1 e2 R grid).2.2 k = melH2 e1 e2 R k nl1 nl2 grid) ∧
    ((∀ name nl1 nl2, (name, nl1, nl2) ∈ selectIntegrals val1 val2 → skIntegralNames[(k : ℕ)]? ≠ some name) →
      (calcMels (selectIntegrals val1 val2) e1 e2 R grid).1 k = 0 ∧
      (calcMels (selectIntegrals val1 val2) e1 e2 R grid).2.1 k = 0 ∧
      (calcMels (selectIntegrals val1 val2) e1 e2 R grid).2.2 k = 0) := by
  have hidx : ∀ name ∈ skIntegralNames, ∀ k : Fin 10, skIntegralNames[(k : ℕ)]? = some name ↔
      Fin.ofNat 10 (skIntegralNames.idxOf name) = k := by decide
  obtain ⟨hmem, hnd⟩ := c99_select val1 val2
  have hname : ∀ s ∈ selectIntegrals val1 val2, s.1 ∈ skIntegralNames := fun s hs => ((hmem s.1 s.2.1 s.2.2).1 hs).1
  generalize selectIntegrals val1 val2 = sel at *
  unfold calcMels
  have hgen : ∀ (sel : List (List Char × List Char × List Char)) (acc : (Fin 10 → ℝ) × (Fin 10 → ℝ) × (Fin 10 → ℝ)),
      (sel.map Prod.fst).Nodup → (∀ s ∈ sel, s.1 ∈ skIntegralNames) →
      let m := sel.foldl (fun acc s =>
        let k : Fin 10 := Fin.ofNat 10 (skIntegralNames.idxOf s.1)
        (Function.update acc.1 k (melS e1 e2 R k s.2.1 s.2.2 grid),
         Function.update acc.2.1 k (melH e1 e2 R k s.2.1 s.2.2 grid),
         Function.update acc.2.2 k (melH2 e1 e2 R k s.2.1 s.2.2 grid))) acc
      (∀ name nl1 nl2, (name, nl1, nl2) ∈ sel → skIntegralNames[(k : ℕ)]? = some name →
        m.1 k = melS e1 e2 R k nl1 nl2 grid ∧ m.2.1 k = melH e1 e2 R k nl1 nl2 grid ∧
        m.2.2 k = melH2 e1 e2 R k nl1 nl2 grid) ∧
      ((∀ name nl1 nl2, (name, nl1, nl2) ∈ sel → skIntegralNames[(k : ℕ)]? ≠ some name) →
        m.1 k = acc.1 k ∧ m.2.1 k = acc.2.1 k ∧ m.2.2 k = acc.2.2 k) := by
    intro sel
    induction sel with
    | nil => intro acc _ _; simp
    | cons s ss ih =>
      intro acc hnd hn
      rw [List.map_cons, List.nodup_cons] at hnd
      have hih := ih (Function.update acc.1 (Fin.ofNat 10 (skIntegralNames.idxOf s.1))
          (melS e1 e2 R (Fin.ofNat 10 (skIntegralNames.idxOf s.1)) s.2.1 s.2.2 grid),
         Function.update acc.2.1 (Fin.ofNat 10 (skIntegralNames.idxOf s.1))
          (melH e1 e2 R (Fin.ofNat 10 (skIntegralNames.idxOf s.1)) s.2.1 s.2.2 grid),
         Function.update acc.2.2 (Fin.ofNat 10 (skIntegralNames.idxOf s.1))
          (melH2 e1 e2 R (Fin.ofNat 10 (skIntegralNames.idxOf s.1)) s.2.1 s.2.2 grid)) hnd.2
         (fun x hx => hn x (List.mem_cons_of_mem _ hx))
      intro m
      obtain ⟨ih1, ih2⟩ := hih
      constructor
      · intro name nl1 nl2 hin hk
        rcases List.mem_cons.1 hin with h | h
        · obtain ⟨rfl⟩ := h
          have hk' := (hidx name (hn (name, nl1, nl2) List.mem_cons_self) k).1 hk
          have hno : ∀ name' a b, (name', a, b) ∈ ss → skIntegralNames[(k : ℕ)]? ≠ some name' := by
            intro name' a b hss hk2
            rw [hk] at hk2
            obtain ⟨rfl⟩ := hk2
            exact hnd.1 (List.mem_map.2 ⟨_, hss, rfl⟩)
          obtain ⟨a, b, c⟩ := ih2 hno
          refine ⟨a.trans ?_, b.trans ?_, c.trans ?_⟩ <;> simp only [hk', Function.update_self]
        · exact ih1 name nl1 nl2 h hk
      · intro hno
        obtain ⟨a, b, c⟩ := ih2 (fun n x y h => hno n x y (List.mem_cons_of_mem _ h))
        have hk' : k ≠ Fin.ofNat 10 (skIntegralNames.idxOf s.1) := by
          intro h
          exact hno s.1 s.2.1 s.2.2 List.mem_cons_self ((hidx s.1 (hn s List.mem_cons_self) k).2 h.symm)
        refine ⟨a.trans ?_, b.trans ?_, c.trans ?_⟩ <;> exact Function.update_of_ne hk' _ _
  exact hgen sel _ hnd hname

/-! ### Symmetry -/

/-- Kinds with equal angular momenta: `dd`, `pp` and `ss`. -/
def sameL : Fin 10 → Bool
  | 0 | 1 | 2 | 5 | 6 | 9 => true
  | _ => false

theorem g_mirror {k : Fin 10} (hk : sameL k = true) (t1 t2 : ℝ) : gAngular (π - t2) (π - t1) k = gAngular t1 t2 k := by
  unfold gAngular
  fin_cases k <;> simp [sameL] at hk <;> simp [cos_pi_sub, sin_pi_sub] <;> ring

theorem point_mirror (R d z : ℝ) : pointR1 d (R - z) = pointR2 R d z ∧ pointR2 R d (R - z) = pointR1 d z ∧
    pointT1 d (R - z) = π - pointT2 R d z ∧ pointT2 R d (R - z) = π - pointT1 d z := by
  have h1 : pointR1 d (R - z) = pointR2 R d z := rfl
  have h2 : pointR2 R d (R - z) = pointR1 d z := by
    unfold pointR2 pointR1
    rw [sub_sub_cancel]
  refine ⟨h1, h2, ?_, ?_⟩
  · unfold pointT1 pointT2
    rw [h1, ← arccos_neg, ← neg_div, neg_sub]
  · unfold pointT1 pointT2
    rw [h2, ← arccos_neg, ← neg_div, show R - z - R = -z by ring]

theorem perm_sum {α : Type} {l l' : List α} (h : l.Perm l') (f : α → ℝ) : (l.map f).sum = (l'.map f).sum :=
  (h.map f).sum_eq

/-- **C99.** Integrals between orbitals of the same angular momentum do not depend on the order of the atoms: on a grid
which is its own mirror image, as the grids of C98 are, the overlap is exactly symmetric. -/
theorem c99_overlap_symmetric (e1 e2 : SKAtom) (R : ℝ) {k : Fin 10} (hk : sameL k = true) (nl1 nl2 : List Char)
    {grid : List ((ℝ × ℝ) × ℝ)} (hsym : (grid.map fun x => ((x.1.1, R - x.1.2), x.2)).Perm grid) :
    melS e1 e2 R k nl1 nl2 grid = melS e2 e1 R k nl2 nl1 grid := by
  unfold melS
  rw [← perm_sum hsym, List.map_map]
  congr 1
  apply List.map_congr_left
  intro x _
  obtain ⟨h1, h2, h3, h4⟩ := point_mirror R x.1.1 x.1.2
  simp only [Function.comp, h1, h2, h3, h4]
  rw [g_mirror hk]
  ring

/-- The second orbital solves the radial equation of its own, confined, atom at all grid points. -/
def RadialAt (e : SKAtom) (nl : List Char) (r : ℝ) : Prop :=
  -0.5 * e.ddu nl r / r + (e.veff r + letterL (orbLetter nl) * (letterL (orbLetter nl) + 1) / (2 * r ^ 2)) * e.R nl r =
    e.eps nl * e.R nl r

/-- **C99.** The Hamiltonian integral, done with the second derivative of the second orbital, equals, when this
orbital is an eigenfunction of its atom, the eigenvalue times the overlap plus the integral of the potential of the
other atom, without the confinements; i.e. it is the second way of calculating, with the atoms exchanged. -/
theorem c99_hamiltonian (e1 e2 : SKAtom) (R : ℝ) {k : Fin 10} (nl1 nl2 : List Char) {grid : List ((ℝ × ℝ) × ℝ)}
    (heq : ∀ x ∈ grid, RadialAt e2 nl2 (pointR2 R x.1.1 x.1.2)) :
    (melH e1 e2 R k nl1 nl2 grid = e2.eps nl2 * melS e1 e2 R k nl1 nl2 grid +
      (grid.map fun x => e1.R nl1 (pointR1 x.1.1 x.1.2) * e2.R nl2 (pointR2 R x.1.1 x.1.2) *
        (e1.veff (pointR1 x.1.1 x.1.2) - e1.conf (pointR1 x.1.1 x.1.2) - e2.conf (pointR2 R x.1.1 x.1.2)) *
        (gAngular (pointT1 x.1.1 x.1.2) (pointT2 R x.1.1 x.1.2) k * x.2 * x.1.1)).sum) ∧
    (sameL k = true → (grid.map fun x => ((x.1.1, R - x.1.2), x.2)).Perm grid →
      melH e1 e2 R k nl1 nl2 grid = melH2 e2 e1 R k nl2 nl1 grid) := by
  have h1 : melH e1 e2 R k nl1 nl2 grid = e2.eps nl2 * melS e1 e2 R k nl1 nl2 grid +
      (grid.map fun x => e1.R nl1 (pointR1 x.1.1 x.1.2) * e2.R nl2 (pointR2 R x.1.1 x.1.2) *
        (e1.veff (pointR1 x.1.1 x.1.2) - e1.conf (pointR1 x.1.1 x.1.2) - e2.conf (pointR2 R x.1.1 x.1.2)) *
        (gAngular (pointT1 x.1.1 x.1.2) (pointT2 R x.1.1 x.1.2) k * x.2 * x.1.1)).sum := by
    unfold melH melS
    rw [← List.sum_map_mul_left, ← List.sum_map_add]
    congr 1
    apply List.map_congr_left
    intro x hx
    have := heq x hx
    unfold RadialAt at this
    simp only [potV]
    linear_combination e1.R nl1 (pointR1 x.1.1 x.1.2) *
      (gAngular (pointT1 x.1.1 x.1.2) (pointT2 R x.1.1 x.1.2) k * x.2 * x.1.1) * this
  refine ⟨h1, fun hk hsym => ?_⟩
  rw [h1, c99_overlap_symmetric e1 e2 R hk nl1 nl2 hsym, add_comm]
  unfold melH2
  congr 1
  rw [← perm_sum hsym, List.map_map]
  congr 1
  apply List.map_congr_left
  intro x _
  obtain ⟨h1, h2, h3, h4⟩ := point_mirror R x.1.1 x.1.2
  simp only [Function.comp, h1, h2, h3, h4, potV]
  rw [g_mirror hk]
  ring

/-- Hydrogen-like: `u = 0` at all points, or `u = r` with zero potential. -/
example : RadialAt ⟨fun _ _ => 1, fun _ _ => 0, fun _ => -3, fun _ => 0, fun _ => -3⟩ ['2', 's'] 5 := by
  unfold RadialAt
  simp [letterL, orbLetter]

/-! ### The table -/

theorem linspace_mono {a b : ℝ} (hab : a ≤ b) {N i j : ℕ} (hij : i ≤ j) (hj : j < N) :
    (linspace a b N).getD i 0 ≤ (linspace a b N).getD j 0 := by
  rcases Nat.lt_or_ge N 2 with h | h
  · rw [show i = j by omega]
  · rw [linspace_getD (by omega) (by omega), linspace_getD (by omega) hj]
    unfold repGrid
    have hij' : (i : ℝ) ≤ j := by exact_mod_cast hij
    have h1N : (2 : ℝ) ≤ N := by exact_mod_cast h
    have : (i : ℝ) * ((b - a) / (N - 1)) ≤ j * ((b - a) / (N - 1)) :=
      mul_le_mul_of_nonneg_right hij' (div_nonneg (by linarith) (by linarith))
    linarith

theorem linspace_first {a b : ℝ} {N : ℕ} (hN : 0 < N) : (linspace a b N).getD 0 0 = a := by
  unfold linspace
  obtain ⟨n, rfl⟩ := Nat.exists_eq_succ_of_ne_zero hN.ne'
  simp [List.range_succ_eq_map]

theorem getD_get {l : List ℝ} {i : ℕ} (h : i < l.length) : l.getD i 0 = l[i] := by
  simp [h]

/-- The entries of a pair of elements at one distance: Hamiltonian and overlap. -/
noncomputable def pairRow (pr : (SKAtom × List (List Char)) × (SKAtom × List (List Char))) (R : ℝ)
    (grid : List ((ℝ × ℝ) × ℝ)) : (Fin 10 → ℝ) × (Fin 10 → ℝ) :=
  ((calcMels (selectIntegrals pr.1.2 pr.2.2) pr.1.1 pr.2.1 R grid).2.1,
    (calcMels (selectIntegrals pr.1.2 pr.2.2) pr.1.1 pr.2.1 R grid).1)

theorem skRows_ok {pairs : List ((SKAtom × List (List Char)) × (SKAtom × List (List Char)))} {wf : ℝ} {nt nr : ℕ}
    {Rs : List ℝ} {rows : List (List ((Fin 10 → ℝ) × (Fin 10 → ℝ)))} (h : skRows pairs wf nt nr Rs = .ok rows) :
    rows.length = Rs.length ∧ ∀ i, ∀ hi : i < Rs.length, ∀ hi' : i < rows.length,
      ((∀ j, ∀ hj : j < Rs.length, j ≤ i → Rs[j] ≤ 2 * wf) →
        ∃ grid, makePolarGrid wf Rs[i] nt nr 2 2 = .ok grid ∧ rows[i] = pairs.map fun pr => pairRow pr Rs[i] grid) ∧
      ((∃ j, ∃ _ : j < Rs.length, j ≤ i ∧ 2 * wf < Rs[j]) → rows[i] = pairs.map fun _ => (fun _ => 0, fun _ => 0)) := by
  induction Rs generalizing rows with
  | nil =>
    obtain rfl : rows = [] := by
      rw [skRows] at h
      exact (Except.ok.inj h).symm
    exact ⟨rfl, fun i hi => by simp at hi⟩
  | cons R Rs ih =>
    rw [skRows] at h
    by_cases hR : R > 2 * wf
    · rw [if_pos hR] at h
      obtain rfl := (Except.ok.inj h).symm
      refine ⟨by simp, fun i hi hi' => ⟨fun hall => ?_, fun _ => ?_⟩⟩
      · have := hall 0 (by simp) (by omega)
        simp at this
        linarith
      · rw [List.getElem_map]
    · rw [if_neg hR] at h
      cases hg : makePolarGrid wf R nt nr 2 2 with
      | error e => rw [hg] at h; simp [bind, Except.bind] at h
      | ok grid =>
        rw [hg] at h
        cases hr : skRows pairs wf nt nr Rs with
        | error e => rw [hr] at h; simp [bind, Except.bind] at h
        | ok rest =>
          rw [hr] at h
          simp only [bind, Except.bind, pure, Except.pure, Except.ok.injEq] at h
          subst h
          obtain ⟨l, hrow⟩ := ih hr
          refine ⟨by simp [l], fun i hi hi' => ?_⟩
          cases i with
          | zero =>
            refine ⟨fun _ => ⟨grid, hg, rfl⟩, fun ⟨j, hj, h0, h1⟩ => ?_⟩
            obtain rfl : j = 0 := by omega
            simp at h1
            exact absurd h1 hR
          | succ i =>
            obtain ⟨a, b⟩ := hrow i (by simpa using hi) (by simpa using hi')
            refine ⟨fun hall => ?_, fun ⟨j, hj, h0, h1⟩ => ?_⟩
            · simpa using a (fun j hj hji => by
                have := hall (j + 1) (by simpa using hj) (by omega)
                rwa [List.getElem_cons_succ] at this)
            · cases j with
              | zero => simp at h1; exact absurd h1 hR
              | succ j => simpa using b ⟨j, by simpa using hj, by omega, by simpa using h1⟩

/-- **C99.** A finished table: one row per distance, up to twice the range the integrals of each pair on the grid of this
distance, beyond zeros; the first distance is at least 0.001 Bohr and the range at most 20 Bohr. -/
theorem c99_table {pairs : List ((SKAtom × List (List Char)) × (SKAtom × List (List Char)))} {els : List (List ℝ)}
    {R1 R2 : ℝ} {N nt nr : ℕ} {Rs : List ℝ} {rows : List (List ((Fin 10 → ℝ) × (Fin 10 → ℝ)))} (h12 : R1 ≤ R2)
    (h : skRun pairs els R1 R2 N nt nr = .ok (Rs, rows)) :
    1 / 10 ^ 3 ≤ R1 ∧ Rs = linspace R1 R2 N ∧ 0 < N ∧ ∃ wf ≤ 20, skRange els = .ok wf ∧ R1 ≤ 2 * wf ∧ rows.length = Rs.length ∧
      ∀ i, ∀ hi : i < Rs.length, ∀ hi' : i < rows.length,
        (Rs[i] ≤ 2 * wf → ∃ grid, makePolarGrid wf Rs[i] nt nr 2 2 = .ok grid ∧
          rows[i] = pairs.map fun pr => pairRow pr Rs[i] grid) ∧
        (2 * wf < Rs[i] → rows[i] = pairs.map fun _ => (fun _ => 0, fun _ => 0)) := by
  unfold skRun at h
  by_cases hR : R1 < 1 / 10 ^ 3
  · rw [if_pos hR] at h
    simp [bind, Except.bind, throw, throwThe, MonadExceptOf.throw] at h
  rw [if_neg hR] at h
  cases hw : skRange els with
  | error e => rw [hw] at h; simp [bind, Except.bind, pure, Except.pure] at h
  | ok wf =>
    rw [hw] at h
    cases hr : skRows pairs wf nt nr (linspace R1 R2 N) with
    | error e => simp [bind, Except.bind, pure, Except.pure, hr] at h
    | ok rows' =>
      simp only [bind, Except.bind, pure, Except.pure, hr] at h
      have hwf : wf ≤ 20 := by
        unfold skRange at hw
        simp only [bind, Except.bind] at hw
        split at hw
        · cases hw
        · split_ifs at hw with h20
          obtain rfl := Except.ok.inj hw
          exact not_lt.1 h20
      have hmono := fun i j hij hj => linspace_mono h12 (N := N) (i := i) (j := j) hij hj
      have hlen : (linspace R1 R2 N).length = N := by simp [linspace]
      cases hl : linspace R1 R2 N with
      | nil => rw [hl] at h; simp [throw, throwThe, MonadExceptOf.throw] at h
      | cons R Rs' =>
        rw [hl] at h
        simp only at h
        split_ifs at h with hbig
        simp only [Except.ok.injEq, Prod.mk.injEq] at h
        obtain ⟨rfl, rfl⟩ := h
        have hN : 0 < N := by
          rw [← hlen, hl]; simp
        have hRR : R = R1 := by
          have := linspace_first (a := R1) (b := R2) hN
          rw [hl] at this
          simpa using this
        obtain ⟨l, hrow⟩ := skRows_ok hr
        refine ⟨not_lt.1 hR, rfl, hN, wf, hwf, rfl, by rw [← hRR]; exact not_lt.1 hbig, by rw [l, hl], fun i hi hi' => ?_⟩
        obtain ⟨a, b⟩ := hrow i (by rw [hl]; exact hi) hi'
        simp only [hl] at a b
        refine ⟨fun hle => a fun j hj hji => ?_, fun hlt => b ⟨i, hi, le_rfl, hlt⟩⟩
        have hiN : i < N := by rw [← hlen, hl]; exact hi
        have := hmono j i hji hiN
        rw [hl, getD_get hj, getD_get hi] at this
        exact this.trans hle

/-- **C99.** When the table is refused: a first distance below 0.001 Bohr or a range above 20 Bohr, an
`AssertionError`. -/
theorem c99_refused (pairs : List ((SKAtom × List (List Char)) × (SKAtom × List (List Char)))) (els : List (List ℝ))
    (R1 R2 : ℝ) (N nt nr : ℕ) (h : R1 < 1 / 10 ^ 3 ∨ skRange els = .error .assertionError) :
    skRun pairs els R1 R2 N nt nr = .error .assertionError := by
  unfold skRun
  by_cases hR : R1 < 1 / 10 ^ 3
  · rw [if_pos hR]; rfl
  · rw [if_neg hR, (h.resolve_left hR)]; rfl

theorem foldl_max (l : List ℝ) (a : ℝ) : l.foldl max a ∈ a :: l ∧ ∀ x ∈ a :: l, x ≤ l.foldl max a := by
  induction l generalizing a with
  | nil => simp
  | cons b l ih =>
    obtain ⟨h1, h2⟩ := ih (max a b)
    rw [List.foldl_cons]
    refine ⟨?_, fun x hx => ?_⟩
    · rcases List.mem_cons.1 h1 with h | h
      · rw [h]
        rcases max_choice a b with h' | h' <;> rw [h'] <;> simp
      · simp [h]
    · have hab := h2 (max a b) List.mem_cons_self
      rcases List.mem_cons.1 hx with rfl | hx
      · exact (le_max_left _ _).trans hab
      · rcases List.mem_cons.1 hx with rfl | hx
        · exact (le_max_right _ _).trans hab
        · exact h2 x (List.mem_cons_of_mem _ hx)

/-- **C99.** The range is the largest of the ranges of all valence orbitals of all elements; more than 20 Bohr is an
error. -/
theorem c99_range {els : List (List ℝ)} (hne : els ≠ []) (hpos : ∀ rs ∈ els, rs ≠ [] ∧ ∀ r ∈ rs, 0 < r) :
    ∃ wf, (∃ rs ∈ els, wf ∈ rs) ∧ (∀ rs ∈ els, ∀ r ∈ rs, r ≤ wf) ∧
      skRange els = if wf ≤ 20 then .ok wf else .error .assertionError := by
  have hgen : ∀ (els : List (List ℝ)) (w : ℝ), (∀ rs ∈ els, rs ≠ [] ∧ ∀ r ∈ rs, 0 < r) →
      ∃ wf, (wf = w ∨ ∃ rs ∈ els, wf ∈ rs) ∧ w ≤ wf ∧ (∀ rs ∈ els, ∀ r ∈ rs, r ≤ wf) ∧
        els.foldlM rangeStep w = .ok wf := by
    intro els
    induction els with
    | nil => intro w _; exact ⟨w, Or.inl rfl, le_rfl, by simp, rfl⟩
    | cons rs els ih =>
      intro w hp
      obtain ⟨hr, -⟩ := hp rs List.mem_cons_self
      cases rs with
      | nil => exact absurd rfl hr
      | cons r rs =>
        obtain ⟨f1, f2⟩ := foldl_max rs r
        obtain ⟨wf, h1, h2, h3, h4⟩ := ih (max (rs.foldl max r) w) (fun x hx => hp x (List.mem_cons_of_mem _ hx))
        refine ⟨wf, ?_, (le_max_right _ _).trans h2, ?_, ?_⟩
        · rcases h1 with h | ⟨x, hx, hw⟩
          · rcases max_choice (rs.foldl max r) w with h' | h'
            · exact Or.inr ⟨_, List.mem_cons_self, by rw [h, h']; exact f1⟩
            · exact Or.inl (by rw [h, h'])
          · exact Or.inr ⟨x, List.mem_cons_of_mem _ hx, hw⟩
        · intro x hx y hy
          rcases List.mem_cons.1 hx with rfl | hx
          · exact (f2 y hy).trans ((le_max_left _ _).trans h2)
          · exact h3 x hx y hy
        · rw [List.foldlM_cons]
          exact h4
  obtain ⟨wf, h1, h2, h3, h4⟩ := hgen els 0 hpos
  refine ⟨wf, ?_, h3, ?_⟩
  · rcases h1 with h | h
    · cases els with
      | nil => exact absurd rfl hne
      | cons rs els =>
        obtain ⟨a, b⟩ := hpos rs List.mem_cons_self
        cases rs with
        | nil => exact absurd rfl a
        | cons r rs =>
          have := h3 _ List.mem_cons_self r List.mem_cons_self
          have := b r List.mem_cons_self
          linarith
    · exact h
  · unfold skRange
    simp only [h4, bind, Except.bind]
    by_cases h20 : wf ≤ 20
    · rw [if_pos h20, if_neg (not_lt.2 h20)]; rfl
    · rw [if_neg h20, if_pos (not_le.1 h20)]; rfl

/-- **C99.** The range of an orbital: the last radius at which the orbital is larger than the given fraction of its
maximum. -/
theorem c99_wf_range {pts : List (ℝ × ℝ)} {limit r : ℝ} (h : wfRange pts limit = some r) :
    ∃ i, ∃ hi : i < pts.length, pts[i].1 = r ∧ ∃ m, (m = 0 ∨ ∃ x ∈ pts, |x.2| = m) ∧ (∀ x ∈ pts, |x.2| ≤ m) ∧
      limit * m < |pts[i].2| ∧ ∀ j, ∀ hj : j < pts.length, i < j → |pts[j].2| ≤ limit * m := by
  unfold wfRange at h
  simp only [Option.map_eq_some_iff] at h
  obtain ⟨x, hx, rfl⟩ := h
  obtain ⟨f1, f2⟩ := foldl_max (pts.map fun x => |x.2|) 0
  rw [List.find?_eq_some_iff_getElem] at hx
  obtain ⟨h1, i, hi, rfl, hall⟩ := hx
  simp only [List.length_reverse] at hi
  have hget : ∀ j, ∀ hj : j < pts.length, pts[j] = pts.reverse[pts.length - 1 - j]'(by simp; omega) := by
    intro j hj
    rw [List.getElem_reverse]
    congr 1
    omega
  refine ⟨pts.length - 1 - i, by omega, by rw [List.getElem_reverse], _, ?_, fun x hx => f2 _ (List.mem_cons_of_mem _ (List.mem_map.2 ⟨x, hx, rfl⟩)), ?_, ?_⟩
  · rcases List.mem_cons.1 f1 with h | h
    · exact Or.inl h
    · obtain ⟨y, hy, h⟩ := List.mem_map.1 h
      exact Or.inr ⟨y, hy, h⟩
  · rw [List.getElem_reverse] at h1
    simpa using h1
  · intro j hj hij
    have := hall (pts.length - 1 - j) (by omega)
    rw [← hget j hj] at this
    simpa using this

example : wfRange [(1, 2), (2, -4), (3, 1), (4, 0.1)] 0.1 = some 3 := by
  unfold wfRange
  have : ((([(1, 2), (2, -4), (3, 1), (4, 0.1)] : List (ℝ × ℝ)).map fun x => |x.2|).foldl max 0) = 4 := by
    simp only [List.map_cons, List.map_nil, List.foldl_cons, List.foldl_nil]
    norm_num
  simp only [this]
  norm_num [List.find?]

/-- **C99.** Making a table which includes a distance just below twice the range fails: `IndexError` (C98). -/
theorem c99_range_end_fails {pairs : List ((SKAtom × List (List Char)) × (SKAtom × List (List Char)))}
    {els : List (List ℝ)} {R1 R2 wf : ℝ} {N nt nr i : ℕ} (h1 : 1 / 10 ^ 3 ≤ R1) (h12 : R1 ≤ R2) (hw : skRange els = .ok wf)
    (hwf : 1 / 10 ^ 7 < wf) (hnt : 2 ≤ nt) (hnr : 2 ≤ nr) (hi : i < N)
    (hlow : wf + (polarR wf nr 2 (nr - 2) + wf) / 2 ≤ (linspace R1 R2 N).getD i 0)
    (hhigh : (linspace R1 R2 N).getD i 0 ≤ 2 * wf) :
    skRun pairs els R1 R2 N nt nr = .error .indexError := by
  have hlen : (linspace R1 R2 N).length = N := by simp [linspace]
  have hmono := fun i j hij hj => linspace_mono h12 (N := N) (i := i) (j := j) hij hj
  have h0 : (linspace R1 R2 N).getD 0 0 = R1 := linspace_first (by omega)
  have hrows : ∀ (Rs : List ℝ), (∀ R ∈ Rs, 1 / 10 ^ 3 ≤ R) → ∀ i, i < Rs.length → (∀ j ≤ i, Rs.getD j 0 ≤ 2 * wf) →
      wf + (polarR wf nr 2 (nr - 2) + wf) / 2 ≤ Rs.getD i 0 → skRows pairs wf nt nr Rs = .error .indexError := by
    intro Rs
    induction Rs with
    | nil => intro _ i hi; simp at hi
    | cons R Rs ih =>
      intro hge i hi hle hlow
      have hR : ¬ R > 2 * wf := not_lt.2 (by simpa using hle 0 (by omega))
      rw [skRows, if_neg hR]
      cases i with
      | zero =>
        rw [c98_empty_fails hwf (hge R List.mem_cons_self) hnt hnr (by norm_num) (by norm_num) (by simpa using hlow)]
        rfl
      | succ i =>
        rcases c98_grid hwf (hge R List.mem_cons_self) hnt hnr (p := 2) (q := 2) (by norm_num) (by norm_num) with h | ⟨g, h, -⟩
        · rw [h]; rfl
        · rw [h, ih (fun x hx => hge x (List.mem_cons_of_mem _ hx)) i (by simpa using hi)
            (fun j hj => by simpa using hle (j + 1) (by omega)) (by simpa using hlow)]
          rfl
  have hR : ¬ R1 < 1 / 10 ^ 3 := not_lt.2 h1
  unfold skRun
  rw [if_neg hR, hw]
  simp only [bind, Except.bind, pure, Except.pure]
  rw [hrows _ ?_ i (by rw [hlen]; exact hi) (fun j hj => (hmono j i hj hi).trans hhigh) hlow]
  intro R hR
  obtain ⟨j, hj, rfl⟩ := List.getElem_of_mem hR
  have := hmono 0 j (by omega) (by rw [← hlen]; exact hj)
  rw [h0, getD_get hj] at this
  exact h1.trans this

/-- Two elements with ranges 6 and 8 Bohr, a table from 1 to 16 Bohr with 16 points: the last distance is twice the
range. -/
example : skRange [[5, 6], [8]] = .ok 8 ∧ (linspace 1 16 16).getD 15 0 = 2 * 8 ∧
    (8 : ℝ) + (polarR 8 50 2 (50 - 2) + 8) / 2 ≤ 2 * 8 := by
  refine ⟨?_, ?_, ?_⟩
  · unfold skRange
    norm_num [rangeStep, List.foldlM, bind, Except.bind, pure, Except.pure]
  · rw [linspace_getD (by norm_num) (by norm_num)]
    norm_num [repGrid]
  · unfold polarR
    rw [unit_getD (by norm_num) (by norm_num)]
    norm_num

/-- **C99.** With timing switched on, the same table object can be run only once: the timer of the ranges is never
stopped, and starting it again raises an `AssertionError`, whatever the clock shows. -/
theorem c99_timing_fails (t0 a b c a' b' c' : ℝ) :
    (∃ T, runTimer (skRunTimer a b c) (TNode.root "SlaterKosterTable" t0) = .ok T) ∧
    runTimer (skRunTimer a b c ++ skRunTimer a' b' c') (TNode.root "SlaterKosterTable" t0) = .error .assertionError := by
  constructor
  · exact ⟨_, rfl⟩
  · rfl

end Hotbit
