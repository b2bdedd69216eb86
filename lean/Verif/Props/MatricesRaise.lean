import Verif.Props.MatricesContainers
import Verif.Props.Neighbors

/-!
# C29: when the construction succeeds
-/

set_option linter.unusedSimpArgs false

namespace Hotbit

open Matrix

theorem fastSlako_valid (J : SkJunk) {noi noj : ℕ} (hi : ValidNo noi) (hj : ValidNo noj) (r : Vec)
    (dist : ℝ) (h : Fin 14 → ℝ) (dh : Fin 14 → Fin 3 → ℝ) :
    ∃ o, fastSlako J noi noj r dist h dh = .ok o := by
  refine ⟨⟨skElem J noi noj r h, skDElem J noi noj r dist h dh⟩, ?_⟩
  unfold fastSlako
  rw [if_neg, if_neg]
  · rintro ⟨h1, h2, h3⟩; rcases hj with rfl | rfl | rfl <;> contradiction
  · rintro ⟨h1, h2, h3⟩; rcases hi with rfl | rfl | rfl <;> contradiction

theorem slakoPair_valid (I : MatIn) {i j : ℕ} (hi : ValidNo (I.no i)) (hj : ValidNo (I.no j))
    (r : Vec) (d : ℝ) (DT : Matrix (Fin 9) (Fin 9) ℝ) (h dh : Fin 14 → ℝ) :
    ∃ b, slakoPair I i j r d DT h dh = .ok b := by
  obtain ⟨o, ho⟩ := fastSlako_valid I.J hi hj (d⁻¹ • r) d h (fun k c => dh k * (d⁻¹ • r) c)
  unfold slakoPair
  rw [ho]
  exact ⟨_, rfl⟩

theorem imageStep_total (I : MatIn) (k : Vec) {i j : ℕ} (hi : ValidNo (I.no i))
    (hj : ValidNo (I.no j)) (st : MatSt × Bool) (im : Im) :
    ((Counts i j im → 0.1 < norm3 (I.rij im.1.1 i j)) → ∃ st', imageStep I k i j st im = .ok st') ∧
    (¬ (Counts i j im → 0.1 < norm3 (I.rij im.1.1 i j)) →
      imageStep I k i j st im = .error .assertionError) := by
  unfold imageStep Counts
  by_cases hc : i = j ∧ im.2 = 0
  · rw [if_pos hc]
    simp [hc]
  · rw [if_neg hc]
    simp only [hc, not_false_eq_true, forall_const]
    constructor
    · intro hd
      rw [if_neg (not_lt.mpr hd.le), if_neg (not_not.mpr hd)]
      by_cases h3 : (I.tab (I.sym i) (I.sym j)).r1 ≤ norm3 (I.rij im.1.1 i j) ∧
          norm3 (I.rij im.1.1 i j) ≤ (I.tab (I.sym i) (I.sym j)).r2
      · rw [if_neg (not_not.mpr h3)]
        obtain ⟨hb, h1⟩ := slakoPair_valid I hi hj (I.rij im.1.1 i j) (norm3 (I.rij im.1.1 i j)) im.1.2
          ((I.tab (I.sym i) (I.sym j)).h (norm3 (I.rij im.1.1 i j)))
          ((I.tab (I.sym i) (I.sym j)).dh (norm3 (I.rij im.1.1 i j)))
        obtain ⟨sb, h2⟩ := slakoPair_valid I hi hj (I.rij im.1.1 i j) (norm3 (I.rij im.1.1 i j)) im.1.2
          ((I.tab (I.sym i) (I.sym j)).s (norm3 (I.rij im.1.1 i j)))
          ((I.tab (I.sym i) (I.sym j)).ds (norm3 (I.rij im.1.1 i j)))
        rw [h1, h2]
        exact ⟨_, rfl⟩
      · rw [if_pos h3]
        exact ⟨_, rfl⟩
    · intro hd
      by_cases h1 : norm3 (I.rij im.1.1 i j) < 0.1
      · rw [if_pos h1]
      · rw [if_neg h1, if_pos hd]

/-- A fold of steps that fail exactly on bad items. -/
theorem foldlM_total {σ α : Type} {f : σ → α → Except Exn σ} {P : α → Prop} {e : Exn}
    : ∀ (l : List α), (∀ s, ∀ a ∈ l, (P a → ∃ s', f s a = .ok s') ∧ (¬ P a → f s a = .error e)) →
      ∀ s, ((∀ a ∈ l, P a) → ∃ s', l.foldlM f s = .ok s') ∧
        ((¬ ∀ a ∈ l, P a) → l.foldlM f s = .error e)
  | [], _, s => by simp [pure, Except.pure]
  | a :: l, hf, s => by
    have ih := foldlM_total l (fun s b hb => hf s b (List.mem_cons_of_mem _ hb))
    rw [List.foldlM_cons]
    by_cases ha : P a
    · obtain ⟨s1, h1⟩ := (hf s a List.mem_cons_self).1 ha
      rw [h1]
      have e1 : (∀ b ∈ a :: l, P b) ↔ ∀ b ∈ l, P b := by simp [ha]
      rw [e1]
      exact ih s1
    · rw [(hf s a List.mem_cons_self).2 ha]
      constructor
      · intro h; exact absurd (h a List.mem_cons_self) ha
      · intro _; rfl

/-- No two atoms `i ≤ j`, counting all images in the list but not an atom with itself, are closer
than or at 0.1 Bohr. -/
def NotTooClose (I : MatIn) : Prop :=
  ∀ i j, i ≤ j → j < I.N → ∀ n ∈ I.ntuples, ¬ (i = j ∧ n = 0) → 0.1 < norm3 (I.rij n i j)

theorem notTooClose_iff {I : MatIn} (hid : IdFirst I) {l : List (Op × Matrix (Fin 9) (Fin 9) ℝ)}
    (hl : I.transforms = .ok l) (i j : ℕ) :
    (∀ im ∈ l.zipIdx, Counts i j im → 0.1 < norm3 (I.rij im.1.1 i j)) ↔
      ∀ n ∈ I.ntuples, ¬ (i = j ∧ n = 0) → 0.1 < norm3 (I.rij n i j) := by
  obtain ⟨hlen, hget⟩ := transforms_get hl
  constructor
  · intro h n hn hne
    obtain ⟨m, hm, rfl⟩ := List.getElem_of_mem hn
    have h2 : m < l.length := by omega
    obtain ⟨g1, -⟩ := hget m hm h2
    have hmem : (l[m], m) ∈ l.zipIdx := by
      rw [List.mem_zipIdx_iff_getElem?]; simp [h2]
    have := h _ hmem (fun hc => hne ⟨hc.1, (idFirst_get hid m hm).mp hc.2⟩)
    dsimp only at this
    rwa [g1] at this
  · rintro h ⟨x, m⟩ him hc
    rw [List.mem_zipIdx_iff_getElem?] at him
    obtain ⟨h2, h3⟩ := List.getElem?_eq_some_iff.mp him
    have hm : m < I.ntuples.length := by omega
    obtain ⟨g1, -⟩ := hget m hm h2
    dsimp only at h3 ⊢
    rw [← h3, g1]
    exact h _ (List.getElem_mem hm) (fun hc' => hc ⟨hc'.1, (idFirst_get hid m hm).mpr hc'.2⟩)

/-- **C29 (too close).** With supported orbital counts and available orbital rotations, the
construction succeeds exactly when no two distinct atoms (images included) are at 0.1 Bohr or
closer; otherwise it raises `AssertionError`. -/
theorem c29_too_close {I : MatIn} (k : Vec) (hid : IdFirst I) (hno : ∀ i < I.N, ValidNo (I.no i))
    (hf : OrbitalsFollow I) :
    (NotTooClose I → ∃ st, getMatrices I k = .ok st) ∧
    (¬ NotTooClose I → getMatrices I k = .error .assertionError) := by
  classical
  have hT : ∃ l, I.transforms = .ok l := by
    unfold MatIn.transforms
    have : ∀ n ∈ I.ntuples, (do
        let D ← rotationTransformation (I.rot n) (I.angles n) (∃ i < I.N, 4 < I.no i)
        return (n, D)) = (Except.ok (n, (if h : n ∈ I.ntuples then (hf n h).choose else 0)) : Except Exn _) := by
      intro n hn
      have h1 := (hf n hn).choose_spec.1
      unfold HasD at h1
      rw [h1]
      simp only [hn, dif_pos]
      rfl
    exact ⟨_, mapM_ok_of_forall _ _ _ this⟩
  obtain ⟨l, hl⟩ := hT
  have hpair : ∀ i j, i < I.N → j < I.N → ∀ st,
      ((∀ im ∈ l.zipIdx, Counts i j im → 0.1 < norm3 (I.rij im.1.1 i j)) →
        ∃ st', pairStep I k l.zipIdx i st j = .ok st') ∧
      (¬ (∀ im ∈ l.zipIdx, Counts i j im → 0.1 < norm3 (I.rij im.1.1 i j)) →
        pairStep I k l.zipIdx i st j = .error .assertionError) := by
    intro i j hi hj st
    obtain ⟨h1, h2⟩ := foldlM_total (f := imageStep I k i j)
      (P := fun im => Counts i j im → 0.1 < norm3 (I.rij im.1.1 i j)) l.zipIdx
      (fun s im _ => imageStep_total I k (hno i hi) (hno j hj) s im) (st, false)
    unfold pairStep
    constructor
    · intro h
      obtain ⟨r, hr⟩ := h1 h
      rw [hr]
      simp only [bind, Except.bind, pure, Except.pure]
      split <;> exact ⟨_, rfl⟩
    · intro h
      rw [h2 h]
      rfl
  have hrow : ∀ st, ∀ i ∈ List.range I.N,
      ((∀ j ∈ List.range' i (I.N - i), ∀ im ∈ l.zipIdx, Counts i j im → 0.1 < norm3 (I.rij im.1.1 i j)) →
        ∃ st', rowStep I k l.zipIdx st i = .ok st') ∧
      (¬ (∀ j ∈ List.range' i (I.N - i), ∀ im ∈ l.zipIdx, Counts i j im → 0.1 < norm3 (I.rij im.1.1 i j)) →
        rowStep I k l.zipIdx st i = .error .assertionError) := by
    intro st i hi
    rw [List.mem_range] at hi
    exact foldlM_total (f := pairStep I k l.zipIdx i)
      (P := fun j => ∀ im ∈ l.zipIdx, Counts i j im → 0.1 < norm3 (I.rij im.1.1 i j)) _
      (fun s j hj => by
        rw [List.mem_range'_1] at hj
        exact hpair i j hi (by omega) s) _
  obtain ⟨h1, h2⟩ := foldlM_total (f := rowStep I k l.zipIdx)
    (P := fun i => ∀ j ∈ List.range' i (I.N - i), ∀ im ∈ l.zipIdx, Counts i j im →
      0.1 < norm3 (I.rij im.1.1 i j)) (List.range I.N) hrow MatSt.zero
  have hiff : (∀ i ∈ List.range I.N, ∀ j ∈ List.range' i (I.N - i), ∀ im ∈ l.zipIdx,
      Counts i j im → 0.1 < norm3 (I.rij im.1.1 i j)) ↔ NotTooClose I := by
    unfold NotTooClose
    constructor
    · intro h i j hij hj
      exact (notTooClose_iff hid hl i j).mp
        (h i (List.mem_range.mpr (by omega)) j (List.mem_range'_1.mpr ⟨hij, by omega⟩))
    · intro h i hi j hj
      rw [List.mem_range'_1] at hj
      exact (notTooClose_iff hid hl i j).mpr (h i j hj.1 (by omega))
  unfold getMatrices
  rw [hl]
  rw [hiff] at h1 h2
  exact ⟨h1, h2⟩


/-- Hypothesis on the orbital rotations of a system of atoms (property C71): no rotation other than
the identity is within 1e-12 of it, and no half turn about the y axis together with d orbitals. -/
def RotationsResolved (A : Atoms) (hasD : Prop) (scan : List Op) : Prop :=
  ∀ n ∈ 0 :: scan, ((∀ i, |A.rawRotation n i i - 1| ≤ 1e-12) → A.rawRotation n = 1) ∧
    (A.ctype = .wedgeYAxis → hasD → ¬ |A.rawRotation n 2 2 + 1| < 1e-12)

theorem orbitalsFollow_ofAtoms (A : Atoms) (hA : Commuting A.ctype) (bohr : ℝ)
    (no : ℕ → ℕ) (eps : ℕ → Fin 9 → ℝ) (seps : ℝ) (tab : String → String → SkTable) (J : SkJunk)
    (cut : ℕ → ℕ → ℝ) (scan : List Op)
    (hres : RotationsResolved A (HasD (MatIn.ofAtoms A bohr no eps seps tab J cut scan)) scan) :
    OrbitalsFollow (MatIn.ofAtoms A bohr no eps seps tab J cut scan) := by
  intro n hn
  have hn : n ∈ 0 :: scan := by
    have hn' : n ∈ selectImages A.atoms.length (imagePos A bohr) cut scan := hn
    unfold selectImages at hn'
    rcases List.mem_cons.mp hn' with rfl | h
    · exact List.mem_cons_self
    · exact List.mem_cons_of_mem _ (List.mem_of_mem_filter h)
  have hang : ∃ ang, A.rawAngles n = some ang := by
    unfold Atoms.rawAngles
    cases h : A.ctype <;> rw [h] at hA <;> simp only [Commuting] at hA <;> exact ⟨_, rfl⟩
  obtain ⟨ang, hang⟩ := hang
  have e2 : (MatIn.ofAtoms A bohr no eps seps tab J cut scan).angles n = ang := by
    show (A.rawAngles n).getD _ = ang
    rw [hang]; rfl
  have e3 : (MatIn.ofAtoms A bohr no eps seps tab J cut scan).rot n = A.rawRotation n := rfl
  rw [e2, e3]
  exact c71_orbitals_follow_partial A n _ ang hang (hres n hn).1 (hres n hn).2

/-- **C29 (systems of atoms).** For atoms in any container whose operations commute, any geometry,
and every k-point at which the operation `e` acting as the identity has phase one (for Bravais, Slab
and Chiral `e = 0`): either the construction raises `AssertionError` because two atoms are at 0.1
Bohr or closer, or it returns Hermitian `H0` and `S`. -/
theorem c29_container (A : Atoms) (hA : Commuting A.ctype) (bohr : ℝ) (k : Vec)
    (no : ℕ → ℕ) (eps : ℕ → Fin 9 → ℝ) (seps : ℝ) (tab : String → String → SkTable) (J : SkJunk)
    (e : Op) (cut : ℕ → ℕ → ℝ) (scan : List Op) (hcut : ∀ i j, cut i j = cut j i)
    (hnd : scan.Nodup)
    (hscan : ∀ n ∈ scan, undoOp e n ∈ scan) (he0 : (∀ n ∈ scan, 2 * n 0 ≠ - e 0) ∨ e 0 = 0)
    (he : TrivialOp A k e) (hinv0 : undoOp e 0 = 0)
    (hno : ∀ i < A.atoms.length, ValidNo (no i))
    (hres : RotationsResolved A (HasD (MatIn.ofAtoms A bohr no eps seps tab J cut scan)) scan)
    (hpar : ∀ s, ParityTable SkTable.h (tab s s) ∧ ParityTable SkTable.s (tab s s)) :
    (¬ NotTooClose (MatIn.ofAtoms A bohr no eps seps tab J cut scan) →
      getMatrices (MatIn.ofAtoms A bohr no eps seps tab J cut scan) k = .error .assertionError) ∧
    (NotTooClose (MatIn.ofAtoms A bohr no eps seps tab J cut scan) → ∃ st,
      getMatrices (MatIn.ofAtoms A bohr no eps seps tab J cut scan) k = .ok st ∧
      ∀ i < A.atoms.length, ∀ j < A.atoms.length, ∀ p q : Fin 9, p.val < no i → q.val < no j →
        st.H0 j i q p = starRingEnd ℂ (st.H0 i j p q) ∧
        st.S j i q p = starRingEnd ℂ (st.S i j p q)) := by
  obtain ⟨hid, hσ⟩ := c29_inverse_pairs A hA bohr k no eps seps tab J e cut scan hcut hnd hscan he0 he
    hinv0
  have hf := orbitalsFollow_ofAtoms A hA bohr no eps seps tab J cut scan hres
  obtain ⟨t1, t2⟩ := c29_too_close k hid hno hf
  refine ⟨t2, fun h => ?_⟩
  obtain ⟨st, hst⟩ := t1 h
  refine ⟨st, hst, fun i hi j hj p q hp hq => ?_⟩
  exact c29_hermitian hst hid hf hσ (fun i _ => hpar _) hi hj hp hq

/-- A symmetric box of translations. -/
def boxOps (m : Fin 3 → ℕ) : List Op :=
  (List.range (2 * m 0 + 1)).flatMap fun a : ℕ => (List.range (2 * m 1 + 1)).flatMap fun b : ℕ =>
    (List.range (2 * m 2 + 1)).map fun c : ℕ => ![(a : ℤ) - m 0, (b : ℤ) - m 1, (c : ℤ) - m 2]

theorem mem_boxOps (m : Fin 3 → ℕ) (n : Op) :
    n ∈ boxOps m ↔ ∀ c, -(m c : ℤ) ≤ n c ∧ n c ≤ m c := by
  unfold boxOps
  simp only [List.mem_flatMap, List.mem_range, List.mem_map]
  constructor
  · rintro ⟨a, ha, b, hb, c, hc, rfl⟩ d
    fin_cases d <;> simp <;> omega
  · intro h
    have h0 := h 0; have h1 := h 1; have h2 := h 2
    refine ⟨(n 0 + m 0).toNat, by omega, (n 1 + m 1).toNat, by omega, (n 2 + m 2).toNat, by omega, ?_⟩
    ext d
    fin_cases d <;> simp <;> omega

theorem nodup_boxOps (m : Fin 3 → ℕ) : (boxOps m).Nodup := by
  have hv : ∀ a b c a' b' c' : ℤ, (![a, b, c] : Op) = ![a', b', c'] → a = a' ∧ b = b' ∧ c = c' := by
    intro a b c a' b' c' h
    exact ⟨congrFun h 0, congrFun h 1, congrFun h 2⟩
  unfold boxOps
  rw [List.nodup_flatMap]
  refine ⟨fun a _ => ?_, ?_⟩
  · rw [List.nodup_flatMap]
    refine ⟨fun b _ => ?_, ?_⟩
    · refine List.Nodup.map (fun c c' h => ?_) List.nodup_range
      have := (hv _ _ _ _ _ _ h).2.2
      omega
    · refine List.Pairwise.imp (fun {b b'} hb => ?_) (List.nodup_range (n := 2 * m 1 + 1))
      intro x hx hx'
      simp only [List.mem_map] at hx hx'
      obtain ⟨c, -, rfl⟩ := hx
      obtain ⟨c', -, h⟩ := hx'
      have := (hv _ _ _ _ _ _ h).2.1
      exact hb (by omega)
  · refine List.Pairwise.imp (fun {b b'} hb => ?_) (List.nodup_range (n := 2 * m 0 + 1))
    intro x hx hx'
    simp only [List.mem_map, List.mem_flatMap] at hx hx'
    obtain ⟨y, -, c, -, rfl⟩ := hx
    obtain ⟨y', -, c', -, h⟩ := hx'
    have := (hv _ _ _ _ _ _ h).1
    exact hb (by omega)

/-- **C29 (crystals).** For a Bravais crystal with any cell, atoms, tables of the exchange parity,
symmetric cut-offs and translations scanned in a box, at *every* k-point the construction either
raises `AssertionError` because atoms are too close or returns Hermitian matrices. -/
theorem c29_bravais (A : Atoms) (hA : A.ctype = .bravais) (bohr : ℝ) (k : Vec)
    (no : ℕ → ℕ) (eps : ℕ → Fin 9 → ℝ) (seps : ℝ) (tab : String → String → SkTable) (J : SkJunk)
    (cut : ℕ → ℕ → ℝ) (m : Fin 3 → ℕ) (hcut : ∀ i j, cut i j = cut j i)
    (hno : ∀ i < A.atoms.length, ValidNo (no i))
    (hpar : ∀ s, ParityTable SkTable.h (tab s s) ∧ ParityTable SkTable.s (tab s s)) :
    let I := MatIn.ofAtoms A bohr no eps seps tab J cut (boxOps m)
    (¬ NotTooClose I → getMatrices I k = .error .assertionError) ∧
    (NotTooClose I → ∃ st, getMatrices I k = .ok st ∧
      ∀ i < A.atoms.length, ∀ j < A.atoms.length, ∀ p q : Fin 9, p.val < no i → q.val < no j →
        st.H0 j i q p = starRingEnd ℂ (st.H0 i j p q) ∧
        st.S j i q p = starRingEnd ℂ (st.S i j p q)) := by
  have hc : Commuting A.ctype := by rw [hA]; trivial
  have hr : ∀ n, A.rawRotation n = 1 := fun n => by simp only [Atoms.rawRotation, hA]
  have hu : ∀ n : Op, undoOp 0 n = -n := fun n => by unfold undoOp; split <;> simp
  refine c29_container A hc bohr k no eps seps tab J 0 cut (boxOps m) hcut (nodup_boxOps m) ?_
    (Or.inr rfl) ⟨rawTransform_zero A hc, hr 0, blochPhase_zero k⟩ (by rw [hu]; simp) hno ?_ hpar
  · intro n hn
    rw [hu, mem_boxOps]
    rw [mem_boxOps] at hn
    intro c
    have := hn c
    simp only [Pi.neg_apply]
    omega
  · intro n _
    exact ⟨fun _ => hr n, by rw [hA]; intro h; cases h⟩

/-- A chain with one s-orbital atom per cell of length 2: the hypotheses of `c29_bravais` and of its
second alternative hold, and the sum includes neighbours. -/
example (J : SkJunk) :
    let A : Atoms := { ctype := .bravais, atoms := [("H", 0)], pbc := ![true, false, false],
                       cell := fun i j => if i = j then 2 else 0 }
    let tab : String → String → SkTable := fun _ _ => ⟨0, 3, 0, 0, 0, 0⟩
    let I := MatIn.ofAtoms A 1 (fun _ => 1) 0 0 tab J (fun _ _ => 3) (boxOps ![1, 0, 0])
    A.ctype = .bravais ∧ (∀ i < A.atoms.length, ValidNo 1) ∧
      (∀ s, ParityTable SkTable.h (tab s s) ∧ ParityTable SkTable.s (tab s s)) ∧ NotTooClose I ∧
      ![1, 0, 0] ∈ I.ntuples := by
  intro A tab I
  have hn : ∀ n : Op, I.rij n 0 0 = ![2 * (n 0 : ℝ), 2 * (n 1 : ℝ), 2 * (n 2 : ℝ)] := by
    intro n
    show imagePos A 1 n 0 - imagePos A 1 0 0 = _
    ext c
    fin_cases c <;> simp [imagePos, A, Atoms.rawTransform, Atoms.positions, mul_comm]
  have hmem : ∀ n ∈ I.ntuples, n ∈ boxOps ![1, 0, 0] := by
    intro n hn
    have hn' : n ∈ selectImages A.atoms.length (imagePos A 1) (fun _ _ => 3) (boxOps ![1, 0, 0]) := hn
    unfold selectImages at hn'
    rcases List.mem_cons.mp hn' with rfl | h
    · rw [mem_boxOps]; intro c; fin_cases c <;> simp
    · exact List.mem_of_mem_filter h
  refine ⟨rfl, fun _ _ => Or.inl rfl, fun s => ?_, ?_, ?_⟩
  · constructor <;> intro d la _ lb _ m _ <;> simp [tab]
  · intro i j hij hj n hnn hne
    have hN : I.N = 1 := rfl
    have hj0 : j = 0 := by omega
    have hi0 : i = 0 := by omega
    subst hj0 hi0
    have hb := (mem_boxOps _ _).mp (hmem n hnn)
    have h1 := hb 1
    have h2 := hb 2
    simp at h1 h2
    have e1 : n 1 = 0 := by omega
    have e2 : n 2 = 0 := by omega
    have e0 : n 0 ≠ 0 := by
      intro e0
      apply hne
      refine ⟨rfl, ?_⟩
      ext c
      fin_cases c <;> simp [e0, e1, e2]
    rw [hn, e1, e2]
    simp only [Int.cast_zero, mul_zero]
    rw [norm3_x, abs_mul]
    have : (1 : ℝ) ≤ |(n 0 : ℝ)| := by exact_mod_cast Int.one_le_abs e0
    norm_num
    linarith
  · have : (![1, 0, 0] : Op) ∈ selectImages A.atoms.length (imagePos A 1) (fun _ _ => 3)
        (boxOps ![1, 0, 0]) := by
      unfold selectImages
      refine List.mem_cons.mpr (Or.inr ?_)
      rw [List.mem_filter, mem_boxOps, decide_eq_true_eq]
      refine ⟨fun c => by fin_cases c <;> simp, ?_, 0, by simp [A], 0, by simp [A], ?_⟩
      · intro h
        have := congrFun h 0
        simp at this
      · simp [imagePos, A, Atoms.rawTransform, Atoms.positions, Fin.sum_univ_three]
        norm_num
    exact this

/-- A quarter wedge, with the operations -1, 0, 1, 2 that the container lists and a k-point allowed by
the fourfold axis, meets the hypotheses of `c29_container` on the operations, with `e` the full turn;
the half turn is its own inverse. -/
example (hasD : Prop) :
    let A : Atoms := { ctype := .wedge, atoms := [("C", ![2, 0, 0])], pbc := ![true, false, false],
                       cell := fun i j => if i = 2 ∧ j = 0 then Real.pi / 2 else 1 }
    let scan : List Op := [![-1, 0, 0], 0, ![1, 0, 0], ![2, 0, 0]]
    let e : Op := ![4, 0, 0]
    let k : Vec := ![Real.pi / 2, 0, 0]
    Commuting A.ctype ∧ scan.Nodup ∧ (∀ n ∈ scan, undoOp e n ∈ scan) ∧
      (∀ n ∈ scan, 2 * n 0 ≠ - e 0) ∧ TrivialOp A k e ∧ undoOp e 0 = 0 ∧
      undoOp e ![2, 0, 0] = ![2, 0, 0] ∧ RotationsResolved A hasD scan := by
  intro A scan e k
  have hang : A.wedgeAngle = Real.pi / 2 := by simp [A, Atoms.wedgeAngle]
  have h4 : ((4 : ℤ) : ℝ) * (Real.pi / 2) = 2 * Real.pi := by push_cast; ring
  have hrot : A.rawRotation e = 1 := by
    show rotZ ((e 0 : ℝ) * A.wedgeAngle) = 1
    rw [hang]
    show rotZ (((4 : ℤ) : ℝ) * (Real.pi / 2)) = 1
    rw [h4]
    ext i j
    fin_cases i <;> fin_cases j <;> simp [rotZ]
  refine ⟨trivial, by decide, by decide, by decide, ⟨?_, hrot, ?_⟩, by decide, by decide, ?_⟩
  · intro r
    show (A.rawRotation e).mulVec r + _ = r
    rw [hrot]
    simp [e]
  · unfold blochPhase
    rw [Complex.exp_eq_one_iff]
    refine ⟨1, ?_⟩
    simp [e, k, Fin.sum_univ_three]
    ring
  · intro n hn
    refine ⟨fun h => ?_, by simp [A]⟩
    have h0 := h 0
    have hr : A.rawRotation n = rotZ ((n 0 : ℝ) * (Real.pi / 2)) := by
      rw [← hang]; rfl
    rw [hr] at h0 ⊢
    simp only [scan, List.mem_cons, List.not_mem_nil, or_false] at hn
    rcases hn with rfl | rfl | rfl | rfl | rfl
    · simp [rotZ_zero]
    · exfalso; simp [rotZ] at h0; norm_num at h0
    · simp [rotZ_zero]
    · exfalso; simp [rotZ] at h0; norm_num at h0
    · exfalso; simp [rotZ, mul_div_cancel₀] at h0; norm_num at h0

end Hotbit
