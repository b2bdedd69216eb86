import Verif.Lemmas.Elements
import Mathlib.Algebra.BigOperators.Fin
import Mathlib.Tactic.IntervalCases
import Mathlib.Algebra.Order.BigOperators.Group.List
import Mathlib.Tactic.Linarith

/-!
# C23, C24: orbital bookkeeping and free-atom populations
-/

namespace Hotbit

/-! ## C23 -/

/-- C23: the blocks are consecutive and cover `0..norb-1`: there is one block per atom, the first
starts at zero, every other one where the previous one ends, and the last one ends at `norb`. -/
theorem c23_blocks (elements : String → Option ElementData) (symbols : List String)
    (t : OrbTables) (h : orbInit elements symbols = .ok t) :
    t.blocks.length = symbols.length ∧
    (∀ a o n, t.blocks[a]? = some (o, n) → a = 0 → o = 0) ∧
    (∀ a o n o' n', t.blocks[a]? = some (o, n) → t.blocks[a + 1]? = some (o', n') → o' = o + n) ∧
    (∀ o n, t.blocks.getLast? = some (o, n) → t.norb = o + n) ∧
    t.orb.length = t.norb := by
  obtain ⟨atoms, inv, -, hf⟩ := orbInit_inv _ _ _ h
  have hlen := hf.length_eq
  have hnl : t.nrOrbitals.length = atoms.length := by rw [inv.nr, List.length_map, inv.len]
  have hb : ∀ a o n, t.blocks[a]? = some (o, n) →
      t.firstOrbitals[a]? = some o ∧ t.nrOrbitals[a]? = some n ∧ o = blockStart t.nrOrbitals a := by
    intro a o n hab
    unfold OrbTables.blocks at hab
    rw [List.getElem?_zip_eq_some] at hab
    refine ⟨hab.1, hab.2, ?_⟩
    have hlt := (List.getElem?_eq_some_iff.1 hab.1).1
    have := inv.first a (by rw [← inv.flen]; exact hlt)
    rw [hab.1] at this
    simpa using this
  have hbl : t.blocks.length = symbols.length := by
    simp [OrbTables.blocks, inv.flen, hnl, hlen]
  refine ⟨hbl, ?_, ?_, ?_, ?_⟩
  · intro a o n hab ha
    subst ha
    simpa [blockStart] using (hb _ _ _ hab).2.2
  · intro a o n o' n' h1 h2
    obtain ⟨-, b1, c1⟩ := hb _ _ _ h1
    obtain ⟨-, -, c2⟩ := hb _ _ _ h2
    rw [c1, c2, blockStart_succ _ _ _ b1]
  · intro o n h1
    rw [List.getLast?_eq_getElem?] at h1
    obtain ⟨-, b1, c1⟩ := hb _ _ _ h1
    have hlt := (List.getElem?_eq_some_iff.1 b1).1
    rw [inv.norb, c1, ← blockStart_succ _ _ _ b1]
    unfold blockStart
    rw [List.take_of_length_le]
    omega
  · rw [inv.norb, inv.nr, inv.orb, List.length_flatten]

/-- C23: every orbital index belongs to exactly one block; `orbitals(i,atom=True)` names the atom of
that block, and the record of orbital `i` carries that atom, its symbol, the index `i`, and its
position inside the block. Indices from `norb` on raise `IndexError`. -/
theorem c23_orbital (elements : String → Option ElementData) (symbols : List String)
    (t : OrbTables) (h : orbInit elements symbols = .ok t) (i : ℕ) :
    (i < t.norb → ∃ a o n, t.blocks[a]? = some (o, n) ∧ o ≤ i ∧ i < o + n ∧
      (∀ b o' n', t.blocks[b]? = some (o', n') → o' ≤ i → i < o' + n' → b = a) ∧
      t.atomOf i = .ok a ∧
      ∃ r, t.basis i = .ok r ∧ r.atom = a ∧ symbols[a]? = some r.symbol ∧ r.index = i ∧
        r.atomindex = i - o ∧ angmomOf r.orbital = .ok r.angmom) ∧
    (t.norb ≤ i → t.atomOf i = .error .indexError ∧ t.basis i = .error .indexError) := by
  obtain ⟨atoms, inv, -, hf⟩ := orbInit_inv _ _ _ h
  have hnl : t.nrOrbitals.length = atoms.length := by rw [inv.nr, List.length_map, inv.len]
  have horb : t.orb.length = t.norb := by rw [inv.norb, inv.nr, inv.orb, List.length_flatten]
  constructor
  · intro hi
    rw [inv.norb] at hi
    obtain ⟨a, n, h1, h2, h3⟩ := block_exists _ _ hi
    have halt : a < atoms.length := by
      have := (List.getElem?_eq_some_iff.1 h1).1; omega
    obtain ⟨l, hl⟩ : ∃ l, t.atomorb[a]? = some l :=
      ⟨_, List.getElem?_eq_getElem (by rw [inv.len]; exact halt)⟩
    have hn : l.length = n := by
      rw [inv.nr, List.getElem?_map, hl] at h1
      simpa using h1
    obtain ⟨s, el, hs, -, hrec⟩ := inv.recs a l hl
    set o := blockStart t.nrOrbitals a with ho
    have hj : i - o < l.length := by omega
    have hget : t.orb[i]? = some l[i - o] := by
      have := flatten_block t.atomorb a (i - o) l hl hj
      rw [← inv.nr, ← inv.orb, ← ho, Nat.add_sub_cancel' h2] at this
      rw [this, List.getElem?_eq_getElem hj]
    obtain ⟨r1, r2, r3, r4, r5, -⟩ := hrec (i - o) l[i - o] (List.getElem?_eq_getElem hj)
    have hsym : symbols[a]? = some s := by
      have hlt : a < symbols.length := by rw [hf.length_eq]; exact halt
      have := (List.forall₂_iff_get.1 hf).2 a hlt halt
      rw [List.getElem?_eq_getElem hlt]
      have he : atoms[a] = (s, el) := by
        rw [List.getElem?_eq_getElem halt] at hs; simpa using hs
      simp only [List.get_eq_getElem, he] at this
      rw [this.1]
    refine ⟨a, o, n, ?_, h2, h3, ?_, ?_, ?_⟩
    · unfold OrbTables.blocks
      rw [List.getElem?_zip_eq_some]
      exact ⟨inv.first a halt, h1⟩
    · intro b o' n' hb hb1 hb2
      unfold OrbTables.blocks at hb
      rw [List.getElem?_zip_eq_some] at hb
      have hblt := (List.getElem?_eq_some_iff.1 hb.2).1
      have := inv.first b (by omega)
      rw [hb.1] at this
      simp only [Option.some.injEq] at this
      subst this
      exact block_unique _ _ _ _ _ _ hb.2 h1 hb1 hb2 h2 h3
    · unfold OrbTables.atomOf
      rw [inv.atoms, List.getElem?_map, hget]
      simp [r1]
    · refine ⟨l[i - o], ?_, r1, ?_, by rw [r3]; omega, r4, r5⟩
      · unfold OrbTables.basis; rw [hget]
      · rw [r2]; exact hsym
  · intro hi
    have h1 : t.orb[i]? = none := List.getElem?_eq_none (by omega)
    constructor
    · unfold OrbTables.atomOf
      rw [inv.atoms, List.getElem?_map, h1]; rfl
    · unfold OrbTables.basis; rw [h1]

/-- C23: `orbitals(a,indices=True)` and `orbitals(a,number=True)` describe exactly block `a`. -/
theorem c23_indices (elements : String → Option ElementData) (symbols : List String)
    (t : OrbTables) (h : orbInit elements symbols = .ok t) (a o n : ℕ)
    (hab : t.blocks[a]? = some (o, n)) :
    t.indicesOf a = .ok (List.range' o n) ∧ t.numberOf a = .ok n := by
  obtain ⟨atoms, inv, -, hf⟩ := orbInit_inv _ _ _ h
  have hnl : t.nrOrbitals.length = atoms.length := by rw [inv.nr, List.length_map, inv.len]
  unfold OrbTables.blocks at hab
  rw [List.getElem?_zip_eq_some] at hab
  have halt := (List.getElem?_eq_some_iff.1 hab.2).1
  have := inv.first a (by omega)
  rw [hab.1] at this
  simp only [Option.some.injEq] at this
  obtain ⟨l, hl⟩ : ∃ l, t.atomorb[a]? = some l :=
    ⟨_, List.getElem?_eq_getElem (by rw [inv.len]; omega)⟩
  have hn : l.length = n := by
    have h1 := hab.2
    rw [inv.nr, List.getElem?_map, hl] at h1
    simpa using h1
  obtain ⟨s, el, hs, -, hrec⟩ := inv.recs a l hl
  constructor
  · unfold OrbTables.indicesOf
    rw [List.getElem?_map, hl]
    simp only [Option.map_some, Except.ok.injEq]
    apply List.ext_getElem
    · simp [hn]
    · intro j h1 h2
      simp only [List.getElem_map, List.getElem_range', one_mul]
      rw [this]
      exact (hrec j _ (List.getElem?_eq_getElem (by simpa using h1))).2.2.1
  · unfold OrbTables.numberOf; rw [hab.2]

/-- Water with its usual basis. -/
def exElements : String → Option ElementData
  | "H" => some ⟨["s"], [-0.238], 1, 1, -0.238⟩
  | "O" => some ⟨["s", "px", "py", "pz"], [-0.879, -0.332, -0.332, -0.332], 6, 2, -3.09⟩
  | _ => none

example : ∃ t, orbInit exElements ["H", "O", "H"] = .ok t ∧ t.blocks = [(0, 1), (1, 4), (5, 1)] ∧
    t.orbitalAtoms = [0, 1, 1, 1, 1, 2] :=
  ⟨_, rfl, rfl, rfl⟩

/-! ## C24 -/

theorem clamp_sum (N : ℝ) : ∀ K : ℕ, 0 ≤ N →
    ∑ k ∈ Finset.range K, max 0 (min 2 (N - 2 * (k : ℝ))) = min N (2 * K) := by
  intro K h0
  induction K with
  | zero => simp [h0]
  | succ K ih =>
    rw [Finset.sum_range_succ, ih]
    push_cast
    rcases le_total N (2 * K) with h | h
    · have e1 : min N (2 * ((K : ℝ) + 1)) = N := min_eq_left (by linarith)
      have e2 : max 0 (min 2 (N - 2 * (K : ℝ))) = 0 :=
        max_eq_left ((min_le_right _ _).trans (by linarith))
      rw [min_eq_left h, e1, e2, add_zero]
    · have e2 : max 0 (min 2 (N - 2 * (K : ℝ))) = min 2 (N - 2 * (K : ℝ)) :=
        max_eq_right (le_min (by norm_num) (by linarith))
      rw [min_eq_right h, e2]
      rcases le_total N (2 * ((K : ℝ) + 1)) with h' | h'
      · have e3 : min 2 (N - 2 * (K : ℝ)) = N - 2 * K := min_eq_right (by linarith)
        rw [min_eq_left h', e3]; ring
      · have e3 : min 2 (N - 2 * (K : ℝ)) = 2 := min_eq_left (by linarith)
        rw [min_eq_right h', e3]; ring

/-- C24: every reported population is a number between zero and two. -/
theorem c24_range (t : OrbTables) (val socc : ℕ → ℝ) (hs : ∀ a, 0 ≤ socc a ∧ socc a ≤ 2) (m : ℕ)
    (p : ℝ) (h : freePopulation t val socc m = .ok p) : 0 ≤ p ∧ p ≤ 2 := by
  unfold freePopulation at h
  split at h
  · simp at h
  · split at h
    · simp only [Except.ok.injEq] at h; subst h; exact hs _
    · simp only [Except.ok.injEq] at h
      subst h
      exact ⟨le_max_left _ _, max_le (by norm_num) (min_le_left _ _)⟩

theorem freePopulation_eq (elements : String → Option ElementData) (symbols : List String)
    (t : OrbTables) (h : orbInit elements symbols = .ok t) (val socc : ℕ → ℝ) (a : ℕ) (s : String)
    (el : ElementData) (hs : symbols[a]? = some s) (hel : elements s = some el)
    (o n : ℕ) (hab : t.blocks[a]? = some (o, n)) :
    n = (el.orbitals.zip el.energies).length ∧ ∀ j < n, ∃ name e,
      (el.orbitals.zip el.energies)[j]? = some (name, e) ∧
      freePopulation t val socc (o + j) = .ok (if name = "s" then socc a else
        max 0 (min 2 (val a + (2 - socc a) - 2 * (((if (el.orbitals.zip el.energies).any
            fun q => decide (q.1.toList.head? = some 'd') then
              (if name.toList.head? = some 'p' then (j : ℤ) + 5 else (j : ℤ) - 3)
            else (j : ℤ)) : ℤ) : ℝ)))) := by
  obtain ⟨atoms, inv, -, hf⟩ := orbInit_inv _ _ _ h
  have hnl : t.nrOrbitals.length = atoms.length := by rw [inv.nr, List.length_map, inv.len]
  unfold OrbTables.blocks at hab
  rw [List.getElem?_zip_eq_some] at hab
  have halt := (List.getElem?_eq_some_iff.1 hab.2).1
  have ho := inv.first a (by omega)
  rw [hab.1] at ho
  simp only [Option.some.injEq] at ho
  obtain ⟨l, hl⟩ : ∃ l, t.atomorb[a]? = some l :=
    ⟨_, List.getElem?_eq_getElem (by rw [inv.len]; omega)⟩
  have hn : l.length = n := by
    have h1 := hab.2
    rw [inv.nr, List.getElem?_map, hl] at h1
    simpa using h1
  obtain ⟨s', el', hs', hlen, hrec⟩ := inv.recs a l hl
  have hel' : el' = el := by
    have hlt := (List.getElem?_eq_some_iff.1 hs).1
    have hlt' := (List.getElem?_eq_some_iff.1 hs').1
    have := (List.forall₂_iff_get.1 hf).2 a hlt hlt'
    have e1 : symbols[a] = s := (List.getElem?_eq_some_iff.1 hs).2
    have e2 : atoms[a] = (s', el') := (List.getElem?_eq_some_iff.1 hs').2
    simp only [List.get_eq_getElem, e1, e2, hel] at this
    exact (Option.some.inj this.2).symm
  subst hel'
  refine ⟨by omega, ?_⟩
  intro j hj
  have hj' : j < l.length := by omega
  have hget : t.orb[o + j]? = some l[j] := by
    have := flatten_block t.atomorb a j l hl hj'
    rw [← inv.nr, ← inv.orb, ← ho] at this
    rw [this, List.getElem?_eq_getElem hj']
  obtain ⟨r1, r2, r3, r4, r5, r6⟩ := hrec j l[j] (List.getElem?_eq_getElem hj')
  refine ⟨l[j].orbital, l[j].energy, r6, ?_⟩
  have hany : (t.orb.any fun o => decide (o.atom = l[j].atom) &&
        decide (o.orbital.toList.head? = some 'd'))
      = (el'.orbitals.zip el'.energies).any fun q => decide (q.1.toList.head? = some 'd') := by
    rw [Bool.eq_iff_iff, List.any_eq_true, List.any_eq_true]
    constructor
    · rintro ⟨r, hr, hd⟩
      simp only [Bool.and_eq_true, decide_eq_true_eq] at hd
      rw [inv.orb, List.mem_flatten] at hr
      obtain ⟨l2, hl2, hrl⟩ := hr
      obtain ⟨b, hb⟩ := List.getElem?_of_mem hl2
      obtain ⟨k, hk⟩ := List.getElem?_of_mem hrl
      obtain ⟨s2, el2, -, -, hrec2⟩ := inv.recs b l2 hb
      obtain ⟨q1, -, -, -, -, q6⟩ := hrec2 k r hk
      have hba : b = a := by rw [← q1, hd.1, r1]
      subst hba
      rw [hl] at hb
      simp only [Option.some.injEq] at hb
      subst hb
      obtain ⟨-, -, -, -, -, q6'⟩ := hrec k r hk
      exact ⟨_, List.mem_of_getElem? q6', by simpa using hd.2⟩
    · rintro ⟨q, hq, hd⟩
      obtain ⟨k, hk⟩ := List.getElem?_of_mem hq
      have hkl : k < l.length := by
        have := (List.getElem?_eq_some_iff.1 hk).1; omega
      obtain ⟨q1, -, -, -, -, q6⟩ := hrec k l[k] (List.getElem?_eq_getElem hkl)
      rw [hk] at q6
      simp only [Option.some.injEq] at q6
      refine ⟨l[k], ?_, ?_⟩
      · rw [inv.orb, List.mem_flatten]
        exact ⟨l, List.mem_of_getElem? hl, List.getElem_mem hkl⟩
      · rw [q1, r1, ← show q.1 = l[k].orbital by rw [q6]]
        simpa using hd
  unfold freePopulation
  rw [hget]
  simp only [hany]
  rw [r1, r4]
  split_ifs <;> rfl

/-- C24: for an atom with an s, sp or spd basis whose shells can hold its valence electrons, the
free populations of its orbitals add up to the number of its valence electrons. -/
theorem c24_sum (elements : String → Option ElementData) (symbols : List String)
    (t : OrbTables) (h : orbInit elements symbols = .ok t) (val socc : ℕ → ℝ) (a : ℕ) (s : String)
    (el : ElementData) (hs : symbols[a]? = some s) (hel : elements s = some el)
    (no : ℕ) (hno : no = 1 ∨ no = 4 ∨ no = 9) (horb : el.orbitals = orbitalList.take no)
    (hen : el.energies.length = no) (h0 : 0 ≤ val a - socc a)
    (h1 : val a - socc a ≤ 2 * ((no : ℝ) - 1)) (o n : ℕ) (hab : t.blocks[a]? = some (o, n)) :
    ∃ pops : List ℝ, (List.range' o n).mapM (freePopulation t val socc) = .ok pops ∧
      pops.sum = val a := by
  obtain ⟨hn, hp⟩ := freePopulation_eq elements symbols t h val socc a s el hs hel o n hab
  have hlen : (orbitalList.take no).length = no := by rcases hno with rfl | rfl | rfl <;> rfl
  have hn' : n = no := by rw [hn, horb, List.length_zip, hlen, hen, min_self]
  have hfst : (el.orbitals.zip el.energies).map Prod.fst = orbitalList.take no := by
    rw [horb, List.map_fst_zip]; rw [hlen, hen]
  have hname : ∀ (j : ℕ) (name : String) (e : ℝ), (el.orbitals.zip el.energies)[j]? = some (name, e) →
      (orbitalList.take no)[j]? = some name := by
    intro j name e hj
    rw [← hfst, List.getElem?_map, hj]; rfl
  have hd : ((el.orbitals.zip el.energies).any fun q => decide (q.1.toList.head? = some 'd'))
      = (orbitalList.take no).any fun q => decide (q.toList.head? = some 'd') := by
    rw [← hfst, List.any_map]; rfl
  have key : ∀ f : ℕ → ℝ, (∀ j < n, freePopulation t val socc (o + j) = .ok (f j)) →
      (List.range' o n).mapM (freePopulation t val socc)
        = .ok ((List.range n).map f) := by
    intro f hf
    have e : List.range' o n = (List.range n).map (o + ·) := List.range'_eq_map_range
    have : (List.range' o n).map (fun i => f (i - o)) = (List.range n).map f := by
      rw [e, List.map_map]; simp
    rw [← this]
    apply mapM_ok_of_forall
    intro i hi
    rw [List.mem_range'_1] at hi
    have := hf (i - o) (by omega)
    rwa [Nat.add_sub_cancel' hi.1] at this
  subst hn'
  set N := val a - socc a with hN
  have hNe : ∀ x : ℝ, val a + (2 - socc a) - 2 * (x + 1) = N - 2 * x := by
    intro x; rw [hN]; ring
  rcases hno with rfl | rfl | rfl
  · refine ⟨_, key (fun _ => socc a) ?_, ?_⟩
    · intro j hj
      obtain ⟨name, e, hq, hv⟩ := hp j hj
      have hnm := hname _ _ _ hq
      interval_cases j
      simp only [orbitalList, List.take_succ_cons, List.take_zero, List.getElem?_cons_zero,
        Option.some.injEq] at hnm
      subst hnm
      simpa using hv
    · simp only [List.range_succ, List.range_zero, List.nil_append, List.map_cons, List.map_nil,
        List.sum_cons, List.sum_nil]
      norm_num at h1
      linarith
  · have c := clamp_sum N 3 h0
    rw [min_eq_left (by norm_num at h1 ⊢; linarith)] at c
    refine ⟨_, key (fun j => if j = 0 then socc a else max 0 (min 2 (N - 2 * ((j : ℝ) - 1)))) ?_, ?_⟩
    · intro j hj
      obtain ⟨name, e, hq, hv⟩ := hp j hj
      have hnm := hname _ _ _ hq
      rw [hv, hd]
      have hd' : ((orbitalList.take 4).any fun q => decide (q.toList.head? = some 'd')) = false := by
        decide +kernel
      rw [hd']
      interval_cases j <;>
      · simp only [orbitalList, List.take_succ_cons, List.take_zero, List.getElem?_cons_zero,
          List.getElem?_cons_succ, Option.some.injEq] at hnm
        subst hnm
        simp
        try (congr 2; rw [hN]; ring)
    · simp only [List.range_succ, List.range_zero, List.nil_append, List.map_append, List.map_cons,
        List.map_nil, List.sum_append, List.sum_cons, List.sum_nil]
      simp only [Finset.sum_range_succ, Finset.sum_range_zero] at c
      norm_num at c ⊢
      linarith
  · have c := clamp_sum N 8 h0
    rw [min_eq_left (by norm_num at h1 ⊢; linarith)] at c
    refine ⟨_, key (fun j => if j = 0 then socc a else max 0 (min 2 (N - 2 *
      (if j < 4 then (j : ℝ) + 4 else (j : ℝ) - 4)))) ?_, ?_⟩
    · intro j hj
      obtain ⟨name, e, hq, hv⟩ := hp j hj
      have hnm := hname _ _ _ hq
      rw [hv, hd]
      have hd' : ((orbitalList.take 9).any fun q => decide (q.toList.head? = some 'd')) = true := by
        decide +kernel
      rw [hd']
      interval_cases j <;>
      · simp only [orbitalList, List.take_succ_cons, List.take_zero, List.getElem?_cons_zero,
          List.getElem?_cons_succ, Option.some.injEq] at hnm
        subst hnm
        simp
        try (congr 2; rw [hN]; ring)
    · simp only [List.range_succ, List.range_zero, List.nil_append, List.map_append, List.map_cons,
        List.map_nil, List.sum_append, List.sum_cons, List.sum_nil]
      simp only [Finset.sum_range_succ, Finset.sum_range_zero] at c
      norm_num at c ⊢
      linarith

/-- The populations of oxygen in water add up to six. -/
example : ∃ t pops, orbInit exElements ["H", "O", "H"] = .ok t ∧
    (List.range' 1 4).mapM (freePopulation t (fun a => if a = 1 then 6 else 1)
      (fun a => if a = 1 then 2 else 1)) = .ok pops ∧ pops.sum = 6 := by
  obtain ⟨t, ht, hb, -⟩ : ∃ t, orbInit exElements ["H", "O", "H"] = .ok t ∧
      t.blocks = [(0, 1), (1, 4), (5, 1)] ∧ True := ⟨_, rfl, rfl, trivial⟩
  obtain ⟨pops, h1, h2⟩ := c24_sum exElements ["H", "O", "H"] t ht
    (fun a => if a = 1 then 6 else 1) (fun a => if a = 1 then 2 else 1) 1 "O" _ rfl rfl 4
    (Or.inr (Or.inl rfl)) rfl rfl (by norm_num) (by norm_num) 1 4 (by rw [hb]; rfl)
  exact ⟨t, pops, ht, h1, by simpa using h2⟩

end Hotbit
