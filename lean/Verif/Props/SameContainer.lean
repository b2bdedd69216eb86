import Verif.Model.SameContainer
import Verif.Spec.SameContainer
import Verif.Props.Atoms

/-!
# C131: `same_container`
-/

namespace Hotbit

open Real

theorem aseEq_iff (A B : Atoms) : aseEq A B = true ↔ A.atoms = B.atoms ∧ A.cell = B.cell ∧ A.pbc = B.pbc := by
  simp [aseEq]

theorem sameContainer_other {A : Atoms} (h1 : A.ctype ≠ .bravais) (h2 : A.ctype ≠ .slab) (B : Atoms) :
    sameContainer A B = .ok (aseEq A B) := by
  unfold sameContainer
  split <;> simp_all

theorem labelled_ctype {A B : Atoms} (h1 : A.ctype ≠ .bravais) (h2 : A.ctype ≠ .slab) (hA : Labelled A)
    (hB : Labelled B) (hc : A.cell = B.cell) : A.ctype = B.ctype := by
  rcases hA with hA | hA
  · rcases hB with hB | hB
    · rw [hc, hB] at hA
      exact (Except.ok.inj hA).symm
    · rw [hc, hB.2] at hA
      exact absurd (Except.ok.inj hA).symm h1
  · exact absurd hA.1 h2

theorem ranges_congr {A B : Atoms} (ht : A.ctype = B.ctype) (hc : A.cell = B.cell) (hp : A.pbc = B.pbc) :
    A.ranges = B.ranges := by
  obtain ⟨t, a, c, p, x⟩ := A
  obtain ⟨t', a', c', p', x'⟩ := B
  simp only at ht hc hp
  subst ht hc hp
  rfl

theorem rawRotation_congr {A B : Atoms} (ht : A.ctype = B.ctype) (hc : A.cell = B.cell) :
    A.rawRotation = B.rawRotation := by
  obtain ⟨t, a, c, p, x⟩ := A
  obtain ⟨t', a', c', p', x'⟩ := B
  simp only at ht hc
  subst ht hc
  rfl

theorem checkOp_congr {A B : Atoms} (h : A.ranges = B.ranges) : A.checkOp = B.checkOp := by
  funext n
  unfold Atoms.checkOp
  rw [h]

/-- **C131.** If `same_container` says yes, the two structures have the same symmetry operations (for
slabs see `c131_slab`). -/
theorem c131_sound {A B : Atoms} (hs : A.ctype ≠ .slab) (hA : Labelled A) (hB : Labelled B)
    (h : sameContainer A B = .ok true) : SameSymmetry A B := by
  have hb : A.ctype ≠ .bravais := by
    intro hb
    unfold sameContainer at h
    rw [hb] at h
    simp only at h
    split_ifs at h
    cases h
  rw [sameContainer_other hb hs] at h
  obtain ⟨ha, hc, hp⟩ := (aseEq_iff A B).1 (Except.ok.inj h)
  have ht := labelled_ctype hb hs hA hB hc
  have hr := ranges_congr ht hc hp
  refine ⟨ht, fun r n => ?_, fun n => ?_⟩
  · unfold Atoms.transform
    rw [checkOp_congr hr]
    have : A.rawTransform r n = B.rawTransform r n := by
      clear h hA hB hr hb
      obtain ⟨t, a, c, p, x⟩ := A
      obtain ⟨t', a', c', p', x'⟩ := B
      simp only at ht hc hp ha hs
      subst ht hc hp ha
      cases t <;> first | rfl | exact absurd rfl hs
    rw [this]
  · unfold Atoms.rotation
    rw [checkOp_congr hr, rawRotation_congr ht hc]

/-- **C131, slabs.** If `same_container` says yes for a slab, the other one is a slab, too, with the
same operations, the same rotations and images that differ by no more than the stated tolerance allows. -/
theorem c131_slab {A B : Atoms} (hs : A.ctype = .slab) (h : sameContainer A B = .ok true) :
    B.ctype = .slab ∧ (∀ n, A.rotation n = B.rotation n) ∧ ∀ r n i,
      |A.rawTransform r n i - B.rawTransform r n i| ≤
        1e-12 * (|(n 0 : ℝ)| + |(n 1 : ℝ)| + |A.slabX 0| + |A.slabX 1| + |B.cell 0 i| + |B.cell 1 i|) := by
  unfold sameContainer at h
  rw [hs] at h
  simp only [Except.ok.injEq, decide_eq_true_eq] at h
  obtain ⟨hB, hp, hc, hx⟩ := h
  have hr : A.ranges = B.ranges := by unfold Atoms.ranges; rw [hs, hB]
  refine ⟨hB, fun n => ?_, fun r n i => ?_⟩
  · unfold Atoms.rotation
    rw [checkOp_congr hr]
    have : A.rawRotation n = B.rawRotation n := by unfold Atoms.rawRotation; rw [hs, hB]
    rw [this]
  · have key : ∀ (k x y a b : ℝ), |a - b| < 1e-12 → |x - y| < 1e-12 →
        |(k * a + x * a) - (k * b + y * b)| ≤ 1e-12 * (|k| + |x| + |b|) := by
      intro k x y a b h1 h2
      have e : (k * a + x * a) - (k * b + y * b) = k * (a - b) + x * (a - b) + (x - y) * b := by ring
      rw [e]
      calc _ ≤ |k * (a - b)| + |x * (a - b)| + |(x - y) * b| := abs_add_three _ _ _
        _ = |k| * |a - b| + |x| * |a - b| + |x - y| * |b| := by simp only [abs_mul]
        _ ≤ |k| * 1e-12 + |x| * 1e-12 + 1e-12 * |b| := by gcongr
        _ = _ := by ring
    have k0 := key (n 0) (A.slabX 0) (B.slabX 0) (A.cell 0 i) (B.cell 0 i) (hc 0 i) (hx 0)
    have k1 := key (n 1) (A.slabX 1) (B.slabX 1) (A.cell 1 i) (B.cell 1 i) (hc 1 i) (hx 1)
    have key2 : ∀ (k a b : ℝ), |a - b| < 1e-12 → |k * a - k * b| ≤ 1e-12 * |k| := by
      intro k a b h1
      rw [← mul_sub, abs_mul, mul_comm]
      gcongr
    have j0 := key2 (n 0) (A.cell 0 i) (B.cell 0 i) (hc 0 i)
    have j1 := key2 (n 1) (A.cell 1 i) (B.cell 1 i) (hc 1 i)
    have n0 := abs_nonneg (A.slabX 0)
    have n1 := abs_nonneg (A.slabX 1)
    have n2 := abs_nonneg (B.cell 0 i)
    have n3 := abs_nonneg (B.cell 1 i)
    unfold Atoms.rawTransform
    rw [hs, hB]
    simp only [slabTransform]
    split_ifs with h1
    · rw [abs_le] at k0 k1 ⊢
      fin_cases i <;> simp at k0 k1 n2 n3 ⊢ <;> constructor <;> linarith [k0.1, k0.2, k1.1, k1.2]
    · simp only [Pi.add_apply, Pi.smul_apply, smul_eq_mul]
      rw [abs_le] at j0 j1 ⊢
      constructor <;> nlinarith [j0.1, j0.2, j1.1, j1.2]

/-- **C131, symmetry.** Which of the two structures is asked does not matter. -/
theorem c131_symmetric {A B : Atoms} (hA : Labelled A) (hB : Labelled B) :
    sameContainer A B = sameContainer B A := by
  have ase : aseEq A B = aseEq B A := by
    rw [Bool.eq_iff_iff, aseEq_iff, aseEq_iff]
    constructor <;> rintro ⟨a, b, c⟩ <;> exact ⟨a.symm, b.symm, c.symm⟩
  have no : ∀ {A B : Atoms}, Labelled A → Labelled B → A.ctype ≠ B.ctype → A.ctype ≠ .bravais → A.ctype ≠ .slab →
      aseEq A B = false := by
    intro A B hA hB ht h1 h2
    rw [Bool.eq_false_iff]
    intro h
    exact ht (labelled_ctype h1 h2 hA hB ((aseEq_iff A B).1 h).2.1)
  by_cases ht : A.ctype = B.ctype
  · unfold sameContainer
    rw [← ht]
    split
    · have : (A.pbc = B.pbc) = (B.pbc = A.pbc) := propext eq_comm
      simp only [ht, this]
    · rename_i h
      simp only [ht ▸ h, h, true_and]
      congr 1
      rw [decide_eq_decide]
      simp only [abs_sub_comm, eq_comm]
    · rw [ase]
  · by_cases a1 : A.ctype = .bravais <;> by_cases b1 : B.ctype = .bravais
    · exact absurd (a1.trans b1.symm) ht
    · have : sameContainer A B = .ok false := by unfold sameContainer; rw [a1]; simp [b1]
      rw [this]
      by_cases b2 : B.ctype = .slab
      · unfold sameContainer; rw [b2]; simp [a1]
      · rw [sameContainer_other b1 b2, no hB hA (Ne.symm ht) b1 b2]
    · have : sameContainer B A = .ok false := by unfold sameContainer; rw [b1]; simp [a1]
      rw [this]
      by_cases a2 : A.ctype = .slab
      · unfold sameContainer; rw [a2]; simp [b1]
      · rw [sameContainer_other a1 a2, no hA hB ht a1 a2]
    · by_cases a2 : A.ctype = .slab <;> by_cases b2 : B.ctype = .slab
      · exact absurd (a2.trans b2.symm) ht
      · rw [sameContainer_other b1 b2, no hB hA (Ne.symm ht) b1 b2]
        unfold sameContainer; rw [a2]; simp [b2]
      · rw [sameContainer_other a1 a2, no hA hB ht a1 a2]
        unfold sameContainer; rw [b2]; simp [a2]
      · rw [sameContainer_other a1 a2, sameContainer_other b1 b2, ase]

/-- **C131.** A structure that is not a Bravais lattice has the same container as itself. -/
theorem c131_self {A : Atoms} (h : A.ctype ≠ .bravais) : sameContainer A A = .ok true := by
  by_cases hs : A.ctype = .slab
  · unfold sameContainer
    rw [hs]
    simp only [true_and, sub_self, abs_zero]
    congr 1
    rw [decide_eq_true_eq]
    exact ⟨fun _ _ => by norm_num, fun _ => by norm_num⟩
  · rw [sameContainer_other h hs, (aseEq_iff A A).2 ⟨rfl, rfl, rfl⟩]

/-- **C131 fails for ordinary lattices**: the comparison of a Bravais structure with itself, and with
any other of the same periodic directions, raises `AttributeError`. -/
theorem c131_bravais_fails {A B : Atoms} (hA : A.ctype = .bravais) (hB : B.ctype = .bravais) (hp : A.pbc = B.pbc) :
    sameContainer A B = .error .attributeError := by
  unfold sameContainer
  rw [hA]
  simp [hB, hp]

/-- **C131, ordinary lattices.** A Bravais structure is told apart from every structure of another container
and from every lattice with other periodic directions. -/
theorem c131_bravais {A B : Atoms} (hA : A.ctype = .bravais) (h : B.ctype ≠ .bravais ∨ A.pbc ≠ B.pbc) :
    sameContainer A B = .ok false := by
  unfold sameContainer
  rw [hA]
  simp only
  rw [if_neg]
  rintro ⟨h1, h2⟩
  rcases h with h | h
  · exact h h1
  · exact h h2

/-- Hypotheses of `c131_bravais`: a crystal and a wire with the same atom and cell. -/
example : sameContainer (construct .bravais [("C", 0)] 1 ![true, true, true])
    (construct .bravais [("C", 0)] 1 ![false, false, true]) = .ok false :=
  c131_bravais rfl (Or.inr fun h => by simpa [construct, ctorPbc] using congrFun h 0)

/-- A nanotube-like structure with one atom at `p`. -/
noncomputable def exOneChiral (p : Vec) : Atoms :=
  construct .chiral [("C", p)] !![0, 0, 0; 3, 0, 0; 1, 0, 0] ![false, false, true]

/-- **C131 fails in the other direction**: the same container with an atom in another place is
reported as a different container, although all symmetry operations agree. -/
theorem c131_moved_fails : SameSymmetry (exOneChiral ![1, 0, 0]) (exOneChiral ![2, 0, 0]) ∧
    sameContainer (exOneChiral ![1, 0, 0]) (exOneChiral ![2, 0, 0]) = .ok false := by
  have hp : ∀ p, (exOneChiral p).ctype = .chiral ∧ (exOneChiral p).cell = writeMagic !![0, 0, 0; 3, 0, 0; 1, 0, 0] .chiral :=
    fun p => ⟨rfl, rfl⟩
  refine ⟨⟨rfl, fun r n => rfl, fun n => rfl⟩, ?_⟩
  rw [sameContainer_other (by rw [(hp _).1]; decide) (by rw [(hp _).1]; decide)]
  congr 1
  rw [Bool.eq_false_iff]
  intro h
  have h := ((aseEq_iff _ _).1 h).1
  simp only [exOneChiral, construct, List.cons.injEq, Prod.mk.injEq, true_and, and_true] at h
  have := congrFun h 0
  norm_num at this

/-- **C131 fails without the label**: a Bravais lattice whose first cell entry happens to be the number
that marks `Chiral` has, for the chiral structure, the same container, while the lattice does not agree
and its operations are others. -/
theorem c131_label_fails :
    let A := exOneChiral ![1, 0, 0]
    let B : Atoms := { A with ctype := .bravais }
    sameContainer A B = .ok true ∧ sameContainer B A = .ok false ∧ ¬ SameSymmetry A B := by
  intro A B
  refine ⟨?_, ?_, fun h => ?_⟩
  · rw [sameContainer_other (A := A) (by decide) (by decide), (aseEq_iff A B).2 ⟨rfl, rfl, rfl⟩]
  · unfold sameContainer
    simp [B, A, exOneChiral, construct]
  · exact absurd h.1 (by decide)

/-- A slab with the third cell entry `z`. -/
noncomputable def exThinSlab (z : ℝ) : Atoms where
  ctype := .slab
  atoms := [("C", ![0, 0, 0])]
  cell := !![2, 0, 0; 0, 2, 0; 0, 0, z]
  pbc := ![true, true, true]

/-- **C131 fails as an equivalence for slabs**: because of the tolerance, the first and the second, and
the second and the third slab have the same container, but not the first and the third. -/
theorem c131_transitive_fails : sameContainer (exThinSlab 0) (exThinSlab 7e-13) = .ok true ∧
    sameContainer (exThinSlab 7e-13) (exThinSlab 14e-13) = .ok true ∧ sameContainer (exThinSlab 0) (exThinSlab 14e-13) = .ok false := by
  have key : ∀ y z : ℝ, sameContainer (exThinSlab y) (exThinSlab z) = .ok (decide (|y - z| < 1e-12)) := by
    intro y z
    unfold sameContainer
    simp only [exThinSlab]
    congr 1
    rw [decide_eq_decide]
    constructor
    · intro h
      exact h.2.2.1 2 2
    · intro h
      refine ⟨trivial, trivial, fun i j => ?_, fun i => by norm_num⟩
      fin_cases i <;> fin_cases j <;> first | exact h | (norm_num)
  simp only [key]
  refine ⟨?_, ?_, ?_⟩ <;> congr 1 <;> norm_num [abs_lt, abs_of_nonpos]

/-- The hypotheses hold for a chiral structure made by the constructor. -/
example : Labelled (exOneChiral ![1, 0, 0]) ∧ sameContainer (exOneChiral ![1, 0, 0]) (exOneChiral ![1, 0, 0]) = .ok true := by
  refine ⟨Or.inl ?_, c131_self (by decide)⟩
  exact c07_construct _ (by decide) _ _ _

end Hotbit
