import Verif.Lemmas.Neighbors

/-!
# C34, C66: neighbour lists

`Scanned A x` (an accepted operation, at most five cells away along unlimited directions) and
`InversionClosed` are defined in `Lemmas/Neighbors.lean`.
-/

namespace Hotbit

open Real Matrix

set_option linter.unusedSimpArgs false
set_option linter.unnecessarySeqFocus false

/-- `(i, j, x)` is a pair that a neighbour search with the given cutoff must report: `y` is the image
of atom `j` under operation `x`, and it is closer to atom `i` than the cutoff. -/
def IsNeighbour (A : Atoms) (cutoff : Option ℝ) (i j : ℕ) (x : Op) (y : Vec) : Prop :=
  i < A.positions.length ∧ j < A.positions.length ∧ (x = 0 → i ≠ j) ∧
  A.transform (A.pos j) x = .ok y ∧ ∀ c, cutoff = some c → norm3 (A.pos i - y) < c

/-- C34: the list contains exactly the neighbours among the scanned images, each once, with the
right distance, and the unit vector from the image to the atom. -/
theorem c34_exact (A : Atoms) (hA : A.ctype ≠ .twistAndTurn) (cutoff : Option ℝ)
    (hc : cutoff.isSome ∨ A.isCluster = true) :
    ∃ res, getNeighbors A cutoff = .ok res ∧ (res.getD []).Nodup ∧
      ∀ e : Nb, e ∈ res.getD [] ↔
        Scanned A e.op ∧ ∃ y, IsNeighbour A cutoff e.i e.j e.op y ∧
          e.d = norm3 (A.pos e.i - y) ∧ e.n = (norm3 (A.pos e.i - y))⁻¹ • (A.pos e.i - y) := by
  refine ⟨_, getNeighbors_eq A cutoff hc, ?_⟩
  have hl : (if (nbList A cutoff).isEmpty then none else some (nbList A cutoff)).getD [] =
      nbList A cutoff := by
    split
    · rename_i h; simp_all
    · rfl
  rw [hl]
  refine ⟨nbList_nodup A cutoff, fun e => ?_⟩
  rw [mem_nbList A hA]
  constructor
  · rintro ⟨hi, hj, hs, hm, hd, hn⟩
    refine ⟨hs, _, ⟨hi, hj, fun h0 hij => hm.2 ⟨h0, hij⟩, (c05_transform_guard A _ _).1 hs.1, ?_⟩,
      hd, hn⟩
    rintro c rfl
    exact hm.1
  · rintro ⟨hs, y, ⟨hi, hj, h0, ht, hcut⟩, hd, hn⟩
    rw [(c05_transform_guard A _ _).1 hs.1] at ht
    simp only [Except.ok.injEq] at ht
    subst ht
    refine ⟨hi, hj, hs, ⟨?_, fun h => h0 h.1 h.2⟩, hd, hn⟩
    cases cutoff with
    | none => trivial
    | some c => exact hcut c rfl

/-- C34: asking for all neighbours of a periodic system is refused. -/
theorem c34_periodic_needs_cutoff (A : Atoms) (h : A.isCluster = false) :
    getNeighbors A none = .error .runtimeError := by
  simp [getNeighbors, h]

/-- C34: the unit vectors have length one whenever the distance is not zero, and
`distance * vector` leads from the image to the atom. -/
theorem c34_unit (A : Atoms) (hA : A.ctype ≠ .twistAndTurn) (cutoff : Option ℝ) (l : List Nb)
    (h : getNeighbors A cutoff = .ok (some l)) (e : Nb) (he : e ∈ l) (hd : e.d ≠ 0) :
    norm3 e.n = 1 ∧ ∃ y, A.transform (A.pos e.j) e.op = .ok y ∧ e.d • e.n = A.pos e.i - y := by
  have hc : cutoff.isSome ∨ A.isCluster = true := by
    by_contra hcon
    rw [not_or] at hcon
    have h1 : cutoff = none := by simpa using hcon.1
    rw [h1, c34_periodic_needs_cutoff A (by simpa using hcon.2)] at h
    simp at h
  obtain ⟨res, hr, -, hmem⟩ := c34_exact A hA cutoff hc
  rw [h] at hr
  simp only [Except.ok.injEq] at hr
  subst hr
  obtain ⟨-, y, ⟨-, -, -, ht, -⟩, h1, h2⟩ := (hmem e).1 (by simpa using he)
  have hne : norm3 (A.pos e.i - y) ≠ 0 := by rw [← h1]; exact hd
  refine ⟨?_, y, ht, ?_⟩
  · rw [h2]
    have : norm3 ((norm3 (A.pos e.i - y))⁻¹ • (A.pos e.i - y)) =
        (norm3 (A.pos e.i - y))⁻¹ * norm3 (A.pos e.i - y) := by
      have hp : 0 < norm3 (A.pos e.i - y) := lt_of_le_of_ne (norm3_nonneg _) (Ne.symm hne)
      generalize A.pos e.i - y = v at *
      rw [norm3]
      have : ((norm3 v)⁻¹ • v) 0 ^ 2 + ((norm3 v)⁻¹ • v) 1 ^ 2 + ((norm3 v)⁻¹ • v) 2 ^ 2 =
          ((norm3 v)⁻¹ * norm3 v) ^ 2 := by
        rw [mul_pow, norm3_sq]; simp [mul_pow]; ring
      rw [this, Real.sqrt_sq (by positivity)]
    rw [this, inv_mul_cancel₀ hne]
  · rw [h2, h1, smul_smul, mul_inv_cancel₀ hne, one_smul]

/-- C34: in containers whose scanned operations have scanned inverses, the list contains with every
entry `(i, j)` an entry `(j, i)` at the same distance whose vector, turned by the operation, is
the opposite one. -/
theorem c34_symmetric (A : Atoms) (h : InversionClosed A) (cutoff : Option ℝ) (l : List Nb)
    (hl : getNeighbors A cutoff = .ok (some l)) (e : Nb) (he : e ∈ l) :
    ∃ e' ∈ l, e'.i = e.j ∧ e'.j = e.i ∧ e'.d = e.d ∧
      ∃ R, A.rotation e.op = .ok R ∧ R.mulVec e'.n = -e.n := by
  have hc : cutoff.isSome ∨ A.isCluster = true := by
    by_contra hcon
    rw [not_or] at hcon
    have h1 : cutoff = none := by simpa using hcon.1
    rw [h1, c34_periodic_needs_cutoff A (by simpa using hcon.2)] at hl
    simp at hl
  rw [getNeighbors_eq A cutoff hc] at hl
  have hll : l = nbList A cutoff := by
    simp only [Except.ok.injEq] at hl
    split at hl <;> simp_all
  rw [hll] at he ⊢
  have hA := h.commuting.ne_tat
  obtain ⟨-, -, hs, -, hd, hn⟩ := (mem_nbList A hA cutoff e).1 he
  refine ⟨swapNb A e, swapNb_mem A h cutoff e he, rfl, rfl, rfl, _,
    (c05_rotation_guard A _).1 hs.1, ?_⟩
  show (A.rawRotation e.op).mulVec ((e.d)⁻¹ • _) = _
  rw [mulVec_smul, ← rawTransform_affine A hA _ hs.1, invOp_left A h _ hs, hn, hd, ← smul_neg]
  congr 1; abel

/-- C34: in a Bravais lattice the vector of the reversed entry is exactly the opposite. -/
theorem c34_symmetric_bravais (A : Atoms) (h : A.ctype = .bravais) (cutoff : Option ℝ)
    (l : List Nb) (hl : getNeighbors A cutoff = .ok (some l)) (e : Nb) (he : e ∈ l) :
    ∃ e' ∈ l, e'.i = e.j ∧ e'.j = e.i ∧ e'.d = e.d ∧ e'.n = -e.n := by
  obtain ⟨e', h1, h2, h3, h4, R, hR, hv⟩ := c34_symmetric A (Or.inl h) cutoff l hl e he
  refine ⟨e', h1, h2, h3, h4, ?_⟩
  have : R = 1 := by
    have hh : A.rotation e.op = .ok R := hR
    by_cases hlg : Legal A e.op
    · rw [(c05_rotation_guard A _).1 hlg] at hh
      simp only [Except.ok.injEq] at hh
      rw [← hh]; simp [Atoms.rawRotation, h]
    · rw [(c05_rotation_guard A _).2 hlg] at hh; simp at hh
  rw [this, one_mulVec] at hv
  exact hv

/-! ### Examples -/

/-- A chain of one atom with period `L` along x. -/
noncomputable def exChain (L : ℝ) : Atoms where
  ctype := .bravais
  atoms := [("C", ![0, 0, 0])]
  cell := ![![L, 0, 0], ![0, 1, 0], ![0, 0, 1]]
  pbc := ![true, false, false]

theorem exChain_legal (L : ℝ) (k : ℤ) : Legal (exChain L) ![k, 0, 0] := by
  rw [← legal_iff]
  simp [exChain, Atoms.ranges, rangeInf, rangeZero, Bound.leInt, Bound.geInt]

theorem exChain_image (L : ℝ) (r : Vec) (k : ℤ) :
    (exChain L).transform r ![k, 0, 0] = .ok (r + ![k * L, 0, 0]) := by
  rw [(c05_transform_guard _ _ _).1 (exChain_legal L k)]
  congr 1
  simp only [Atoms.rawTransform, exChain]
  ext i; fin_cases i <;> simp [Fin.sum_univ_three, Matrix.vecHead, Matrix.vecTail]

theorem exChain_ranges0 (L : ℝ) : (exChain L).ranges 0 = rangeInf := by
  simp [exChain, Atoms.ranges]

theorem norm3_x (a : ℝ) : norm3 ![a, 0, 0] = |a| := by
  simp [norm3, Real.sqrt_sq_eq_abs]

/-- The image `k` of the chain atom is a neighbour if `0 < |k L| < cutoff`. -/
theorem exChain_neighbour (L c : ℝ) (k : ℤ) (hk : k ≠ 0) (hc : |k * L| < c) :
    IsNeighbour (exChain L) (some c) 0 0 ![k, 0, 0] ![k * L, 0, 0] := by
  refine ⟨by simp [exChain, Atoms.positions], by simp [exChain, Atoms.positions], ?_, ?_, ?_⟩
  · intro h; exact absurd (by simpa using congrFun h 0) hk
  · rw [exChain_image]; congr 1
    ext i; fin_cases i <;> simp [Atoms.pos, exChain, Atoms.positions]
  · intro c' hc'
    have hcc : c = c' := by simpa using hc'
    subst hcc
    have : (exChain L).pos 0 - ![k * L, 0, 0] = ![-(k * L), 0, 0] := by
      ext i; fin_cases i <;> simp [Atoms.pos, exChain, Atoms.positions]
    rw [this, norm3_x, abs_neg]; exact hc

/-- Non-vacuity of C34: the chain with period 2 and cutoff 5 has the neighbour of image 2 at
distance 4. -/
example : ∃ l, getNeighbors (exChain 2) (some 5) = .ok (some l) ∧
    ∃ e ∈ l, e.d = 4 ∧ e.op = ![2, 0, 0] := by
  obtain ⟨res, hr, -, hmem⟩ := c34_exact (exChain 2) (by simp [exChain]) (some 5) (Or.inl rfl)
  have hn : norm3 ((exChain 2).pos 0 - ![((2 : ℤ) : ℝ) * 2, 0, 0]) = 4 := by
    have : (exChain 2).pos 0 - ![((2 : ℤ) : ℝ) * 2, 0, 0] = ![-4, 0, 0] := by
      ext i; fin_cases i <;> simp [Atoms.pos, exChain, Atoms.positions]
      norm_num
    rw [this, norm3_x]; norm_num
  have key := (hmem ⟨0, 0, 4, (4 : ℝ)⁻¹ • ((exChain 2).pos 0 - ![((2 : ℤ) : ℝ) * 2, 0, 0]),
      ![2, 0, 0]⟩).2 ⟨⟨exChain_legal 2 2, ?_⟩, _, exChain_neighbour 2 5 2 (by norm_num)
        (by norm_num), hn.symm, by rw [hn]⟩
  · cases res with
    | none => simp at key
    | some l => exact ⟨l, hr, _, key, rfl, rfl⟩
  · intro k _; fin_cases k <;> simp

/-- Non-vacuity of the symmetry statement: a five-fold wedge is in its scope. -/
example : InversionClosed exWedge5 :=
  Or.inr (Or.inr (Or.inr ⟨5, by norm_num, Or.inl ⟨Or.inl rfl, by
    simp [Atoms.wedgeAngle, exWedge5]⟩⟩))

/-! ## C66: what the documentation of `get_neighbors` promises -/

/-- C66: "return neighbors up to this cutoff" fails for short cells: the image seven cells away
is within the cutoff but not reported. -/
theorem c66_complete_fails :
    ∃ (A : Atoms) (c : ℝ) (x : Op) (y : Vec), IsNeighbour A (some c) 0 0 x y ∧
      ∀ l, getNeighbors A (some c) = .ok (some l) → ∀ e ∈ l, e.op ≠ x := by
  refine ⟨exChain 1, 10, ![7, 0, 0], _, exChain_neighbour 1 10 7 (by norm_num) (by norm_num), ?_⟩
  intro l hl e he hx
  obtain ⟨res, hr, -, hmem⟩ := c34_exact (exChain 1) (by simp [exChain]) (some 10) (Or.inl rfl)
  rw [hl] at hr
  simp only [Except.ok.injEq] at hr
  subst hr
  have hs := ((hmem e).1 (by simpa using he)).1.2 0 (exChain_ranges0 1)
  rw [hx] at hs
  norm_num at hs

/-- C66: in a Bravais crystal with an orthogonal cell, the atoms inside it and a cutoff of at
most five times the shortest period, every neighbour is reported. -/
theorem c66_complete_partial (A : Atoms) (hA : A.ctype = .bravais)
    (hcell : ∀ a b, a ≠ b → A.cell a b = 0)
    (hin : ∀ i < A.positions.length, ∀ k, 0 ≤ A.pos i k ∧ A.pos i k < A.cell k k)
    (c : ℝ) (hc : ∀ k, A.pbc k = true → c ≤ 5 * A.cell k k)
    (i j : ℕ) (x : Op) (y : Vec) (hn : IsNeighbour A (some c) i j x y) :
    ∃ l, getNeighbors A (some c) = .ok (some l) ∧
      ∃ e ∈ l, e.i = i ∧ e.j = j ∧ e.op = x ∧ e.d = norm3 (A.pos i - y) := by
  obtain ⟨res, hr, -, hmem⟩ := c34_exact A (by rw [hA]; decide) (some c) (Or.inl rfl)
  have hlegal : Legal A x := by
    by_contra hcon
    have := hn.2.2.2.1
    rw [(c05_transform_guard A _ _).2 hcon] at this
    simp at this
  have hy : y = A.rawTransform (A.pos j) x := by
    have := hn.2.2.2.1
    rw [(c05_transform_guard A _ _).1 hlegal] at this
    exact (Except.ok.inj this).symm
  have hcomp : ∀ k, y k = A.pos j k + x k * A.cell k k := by
    intro k
    rw [hy]
    simp only [Atoms.rawTransform, hA]
    fin_cases k <;>
      simp [Fin.sum_univ_three, hcell 0 1 (by decide), hcell 0 2 (by decide), hcell 1 0 (by decide),
        hcell 1 2 (by decide), hcell 2 0 (by decide), hcell 2 1 (by decide)]
  have hle : ∀ k, |A.pos i k - y k| ≤ norm3 (A.pos i - y) := by
    intro k
    rw [norm3]
    apply Real.abs_le_sqrt
    fin_cases k <;> simp <;> nlinarith [sq_nonneg (A.pos i 0 - y 0), sq_nonneg (A.pos i 1 - y 1),
      sq_nonneg (A.pos i 2 - y 2)]
  have hscan : Scanned A x := by
    refine ⟨hlegal, fun k hk => ?_⟩
    have hp : A.pbc k = true := by
      by_contra hcon
      simp [Atoms.ranges, hA, hcon, rangeInf, rangeZero] at hk
    by_contra hbig
    have h1 := hn.2.2.2.2 c rfl
    have h2 := hle k
    rw [hcomp k] at h2
    have hi := hin i hn.1 k
    have hj := hin j hn.2.1 k
    have h3 := hc k hp
    have hL : 0 < A.cell k k := lt_of_le_of_lt hi.1 hi.2
    rw [abs_le] at h2
    rw [abs_le, not_and_or] at hbig
    rcases hbig with hb | hb
    · have : (x k : ℝ) ≤ -6 := by exact_mod_cast (by omega : x k ≤ -6)
      nlinarith
    · have : (6 : ℝ) ≤ x k := by exact_mod_cast (by omega : 6 ≤ x k)
      nlinarith
  have key := (hmem ⟨i, j, norm3 (A.pos i - y), (norm3 (A.pos i - y))⁻¹ • (A.pos i - y), x⟩).2
    ⟨hscan, y, hn, rfl, rfl⟩
  cases res with
  | none => simp at key
  | some l => exact ⟨l, hr, _, key, rfl, rfl, rfl, rfl⟩

/-- Non-vacuity: the chain with period 2 and cutoff 9. -/
example : IsNeighbour (exChain 2) (some 9) 0 0 ![4, 0, 0] ![((4 : ℤ) : ℝ) * 2, 0, 0] ∧
    (∀ a b, a ≠ b → (exChain 2).cell a b = 0) ∧
    (∀ k, (exChain 2).pbc k = true → (9 : ℝ) ≤ 5 * (exChain 2).cell k k) := by
  refine ⟨exChain_neighbour 2 9 4 (by norm_num) (by norm_num), ?_, ?_⟩
  · intro a b; fin_cases a <;> fin_cases b <;> simp [exChain]
  · intro k; fin_cases k <;> simp [exChain]; norm_num

/-- C66: "the normal vector pointing to the neighbor" fails: every vector of the list points the
other way, from the neighbour to the atom. -/
theorem c66_direction_fails :
    ∃ (A : Atoms) (c : ℝ) (l : List Nb), getNeighbors A (some c) = .ok (some l) ∧
      ∃ e ∈ l, e.d ≠ 0 ∧ ∃ y, A.transform (A.pos e.j) e.op = .ok y ∧
        e.d • e.n = -(y - A.pos e.i) ∧ e.d • e.n ≠ y - A.pos e.i := by
  obtain ⟨res, hr, -, hmem⟩ := c34_exact (exChain 2) (by simp [exChain]) (some 3) (Or.inl rfl)
  have hpos : (exChain 2).pos 0 - ![((1 : ℤ) : ℝ) * 2, 0, 0] = ![-2, 0, 0] := by
    ext i; fin_cases i <;> simp [Atoms.pos, exChain, Atoms.positions]
  have hn : norm3 ((exChain 2).pos 0 - ![((1 : ℤ) : ℝ) * 2, 0, 0]) = 2 := by
    rw [hpos, norm3_x]; norm_num
  have hnb := exChain_neighbour 2 3 1 (by norm_num) (by norm_num)
  have key := (hmem ⟨0, 0, 2, (2 : ℝ)⁻¹ • ((exChain 2).pos 0 - ![((1 : ℤ) : ℝ) * 2, 0, 0]),
      ![1, 0, 0]⟩).2 ⟨⟨exChain_legal 2 1, ?_⟩, _, hnb, hn.symm, by rw [hn]⟩
  · cases res with
    | none => simp at key
    | some l =>
      refine ⟨exChain 2, 3, l, hr, _, key, by norm_num, _, hnb.2.2.2.1, ?_, ?_⟩
      · rw [smul_smul]; norm_num
      · rw [smul_smul, hpos]
        intro h
        have h1 : ((exChain 2).pos 0) 0 = 0 := by simp [Atoms.pos, exChain, Atoms.positions]
        have := congrFun h 0
        simp only [Pi.smul_apply, Pi.sub_apply, h1] at this
        norm_num at this
  · intro k _; fin_cases k <;> simp

/-- C66: an atom on the axis of a wedge is reported as its own neighbour at distance zero (the
code then divides by zero). -/
theorem c66_axis_fails :
    ∃ (A : Atoms) (c : ℝ) (l : List Nb), (∃ M, PhysicalWedge A M) ∧
      getNeighbors A (some c) = .ok (some l) ∧ ∃ e ∈ l, e.d = 0 := by
  let A : Atoms := { exWedge5 with atoms := [("C", ![0, 0, 1])] }
  have hleg : Legal A ![1, 0, 0] := by
    rw [← legal_iff]
    have : A.ranges = exWedge5.ranges := rfl
    rw [this, exWedge5_ranges]; decide
  have hph : PhysicalWedge A 5 := ⟨by norm_num, Or.inl ⟨Or.inl rfl, by
    simp [A, Atoms.wedgeAngle, exWedge5]⟩⟩
  obtain ⟨res, hr, -, hmem⟩ := c34_exact A (by simp [A, exWedge5]) (some 1) (Or.inl rfl)
  have hp : A.pos 0 = ![0, 0, 1] := by simp [A, Atoms.pos, Atoms.positions]
  have ht : A.transform (A.pos 0) ![1, 0, 0] = .ok ![0, 0, 1] := by
    rw [(c05_transform_guard A _ _).1 hleg, (rotation_turn A 5 hph 1).2, hp]
    congr 1
    have : turn A 1 = rotZ ((1 : ℤ) * A.wedgeAngle) := by
      unfold turn; rw [if_neg]; simp [A, exWedge5]
    rw [this, rotZ_mulVec_z]
  have hz : norm3 (A.pos 0 - ![0, 0, 1]) = 0 := by rw [hp, sub_self]; simp [norm3]
  have key := (hmem ⟨0, 0, 0, (0 : ℝ)⁻¹ • (A.pos 0 - ![0, 0, 1]), ![1, 0, 0]⟩).2
    ⟨⟨hleg, ?_⟩, ![0, 0, 1], ⟨by simp [A, Atoms.positions], by simp [A, Atoms.positions],
      fun h => absurd (congrFun h 0) (by simp), ht, ?_⟩, hz.symm, by rw [hz]⟩
  · cases res with
    | none => simp at key
    | some l => exact ⟨A, 1, l, ⟨5, hph⟩, hr, _, key, rfl⟩
  · intro k hk; fin_cases k <;> simp
  · intro c hc
    have : (1 : ℝ) = c := by simpa using hc
    rw [hz]; linarith

end Hotbit
