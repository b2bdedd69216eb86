import Verif.Lemmas.Matrices

/-!
# Closed form of the matrix construction, continued
-/

namespace Hotbit

open Matrix

/-- Hamiltonian or overlap. -/
inductive Comp | H | S

namespace Comp
def f : Comp → SkTable → ℝ → Fin 14 → ℝ | H => SkTable.h | S => SkTable.s
def df : Comp → SkTable → ℝ → Fin 14 → ℝ | H => SkTable.dh | S => SkTable.ds
def get : Comp → MatSt → BMat | H => MatSt.H0 | S => MatSt.S
def getD : Comp → MatSt → Fin 3 → BMat | H => MatSt.dH0 | S => MatSt.dS
noncomputable def diag (I : MatIn) : Comp → ℕ → Fin 9 → ℝ | H => I.eps | S => fun _ _ => 1 + I.seps
end Comp

open Classical in
/-- Sum over images of the contributions to a block. -/
noncomputable def blockSum (K : Comp) (I : MatIn) (k : Vec) (ims : List Im) (i j : ℕ) (p q : Fin 9) : ℂ :=
  (ims.map fun im => if Active I i j im then
    blochPhase k im.1.1 * ((skBlock I K.f K.df i j im).1 p q : ℂ) else 0).sum

open Classical in
/-- Sum over images of the derivative contributions. -/
noncomputable def dBlockSum (K : Comp) (I : MatIn) (k : Vec) (ims : List Im) (i j : ℕ) (c : Fin 3)
    (p q : Fin 9) : ℂ :=
  (ims.map fun im => if Active I i j im then
    blochPhase k im.1.1 * ((-(skBlock I K.f K.df i j im).2 c p q : ℝ) : ℂ) else 0).sum

open Classical in
/-- Sum over images of the derivative contributions with respect to the second atom. -/
noncomputable def dBlockSum2 (K : Comp) (I : MatIn) (k : Vec) (ims : List Im) (i j : ℕ) (c : Fin 3)
    (p q : Fin 9) : ℂ :=
  (ims.map fun im => if Active I i j im then
    blochPhase k im.1.1 * ((dotRot (skBlock I K.f K.df i j im).2 (I.rot im.1.1) c p q : ℝ) : ℂ)
    else 0).sum

theorem addBlock_addBlock (X : BMat) (I : MatIn) (i j : ℕ) (B C : Fin 9 → Fin 9 → ℂ) :
    (X.addBlock I i j B).addBlock I i j C = X.addBlock I i j fun p q => B p q + C p q := by
  funext a b p q
  unfold BMat.addBlock
  split_ifs <;> ring

theorem addBlock_zero (X : BMat) (I : MatIn) (i j : ℕ) : X.addBlock I i j (fun _ _ => 0) = X := by
  funext a b p q
  unfold BMat.addBlock
  split_ifs <;> ring

theorem addBlock_comm (X : BMat) (I : MatIn) (i j i' j' : ℕ) (B C : Fin 9 → Fin 9 → ℂ) :
    (X.addBlock I i j B).addBlock I i' j' C = (X.addBlock I i' j' C).addBlock I i j B := by
  funext a b p q
  unfold BMat.addBlock
  split_ifs <;> ring

theorem get_addImage (K : Comp) (I : MatIn) (k : Vec) (i j : ℕ) (n : Op)
    (b : Comp → (Fin 9 → Fin 9 → ℝ) × (Fin 3 → Fin 9 → Fin 9 → ℝ)) (st : MatSt) :
    K.get (addImage I k i j n (b .H) (b .S) st)
      = (K.get st).addBlock I i j fun p q => blochPhase k n * ((b K).1 p q : ℂ) := by
  unfold addImage
  dsimp only
  split <;> cases K <;> rfl

theorem getD_addImage (K : Comp) (I : MatIn) (k : Vec) (i j : ℕ) (n : Op)
    (b : Comp → (Fin 9 → Fin 9 → ℝ) × (Fin 3 → Fin 9 → Fin 9 → ℝ)) (st : MatSt) (c : Fin 3) :
    K.getD (addImage I k i j n (b .H) (b .S) st) c
      = (((K.getD st c).addBlock I i j fun p q => blochPhase k n * ((-(b K).2 c p q : ℝ) : ℂ)).addBlock
          I j i fun p q => if i = j then 0 else
            starRingEnd ℂ (blochPhase k n * ((dotRot (b K).2 (I.rot n) c q p : ℝ) : ℂ))) := by
  unfold addImage
  dsimp only
  by_cases h : i = j
  · simp only [h, ne_eq, not_true_eq_false, if_false, if_true]
    rw [addBlock_zero]
    cases K <;> rfl
  · simp only [h, ne_eq, not_false_eq_true, if_true, if_false]
    cases K <;> rfl

open Classical in
theorem get_imgFold (K : Comp) (I : MatIn) (k : Vec) (i j : ℕ) : ∀ (ims : List Im) (st : MatSt),
    K.get (ims.foldl (imgPure I k i j) st)
      = (K.get st).addBlock I i j (blockSum K I k ims i j)
  | [], st => by
    rw [List.foldl_nil]
    exact (addBlock_zero _ _ _ _).symm
  | im :: ims, st => by
    rw [List.foldl_cons, get_imgFold K I k i j ims]
    have : ∀ p q, blockSum K I k (im :: ims) i j p q
        = (if Active I i j im then
            blochPhase k im.1.1 * ((skBlock I K.f K.df i j im).1 p q : ℂ) else 0)
          + blockSum K I k ims i j p q := fun p q => by
      unfold blockSum; rw [List.map_cons, List.sum_cons]
    have e : blockSum K I k (im :: ims) i j = _ := funext fun p => funext fun q => this p q
    rw [e, ← addBlock_addBlock]
    congr 1
    unfold imgPure
    split
    · exact get_addImage K I k i j im.1.1 (fun K => skBlock I K.f K.df i j im) st
    · rw [addBlock_zero]

open Classical in
theorem getD_imgFold (K : Comp) (I : MatIn) (k : Vec) (i j : ℕ) (c : Fin 3) :
    ∀ (ims : List Im) (st : MatSt),
    K.getD (ims.foldl (imgPure I k i j) st) c
      = ((K.getD st c).addBlock I i j (dBlockSum K I k ims i j c)).addBlock I j i
          (fun p q => if i = j then 0 else starRingEnd ℂ (dBlockSum2 K I k ims i j c q p))
  | [], st => by
    rw [List.foldl_nil]
    have e1 : dBlockSum K I k [] i j c = fun _ _ => 0 := rfl
    have e2 : (fun p q => if i = j then 0 else starRingEnd ℂ (dBlockSum2 K I k [] i j c q p))
        = fun _ _ => 0 := by
      funext p q
      simp [dBlockSum2]
    rw [e1, e2, addBlock_zero, addBlock_zero]
  | im :: ims, st => by
    rw [List.foldl_cons, getD_imgFold K I k i j c ims]
    have e : dBlockSum K I k (im :: ims) i j c
        = fun p q => (if Active I i j im then
            blochPhase k im.1.1 * ((-(skBlock I K.f K.df i j im).2 c p q : ℝ) : ℂ) else 0)
          + dBlockSum K I k ims i j c p q := by
      funext p q
      unfold dBlockSum; rw [List.map_cons, List.sum_cons]
    have e2 : (fun p q => if i = j then 0 else starRingEnd ℂ (dBlockSum2 K I k (im :: ims) i j c q p))
        = fun p q => (if Active I i j im then if i = j then 0 else
            starRingEnd ℂ (blochPhase k im.1.1
              * ((dotRot (skBlock I K.f K.df i j im).2 (I.rot im.1.1) c q p : ℝ) : ℂ)) else 0)
          + (if i = j then 0 else starRingEnd ℂ (dBlockSum2 K I k ims i j c q p)) := by
      funext p q
      unfold dBlockSum2; rw [List.map_cons, List.sum_cons]
      split_ifs <;> simp
    rw [e, e2, ← addBlock_addBlock, ← addBlock_addBlock]
    have h0 : K.getD (imgPure I k i j st im) c
        = ((K.getD st c).addBlock I i j fun p q => if Active I i j im then
            blochPhase k im.1.1 * ((-(skBlock I K.f K.df i j im).2 c p q : ℝ) : ℂ) else 0).addBlock
          I j i fun p q => if Active I i j im then if i = j then 0 else
            starRingEnd ℂ (blochPhase k im.1.1
              * ((dotRot (skBlock I K.f K.df i j im).2 (I.rot im.1.1) c q p : ℝ) : ℂ)) else 0 := by
      unfold imgPure
      split
      · exact getD_addImage K I k i j im.1.1 (fun K => skBlock I K.f K.df i j im) st c
      · rw [addBlock_zero, addBlock_zero]
    rw [h0]
    congr 1
    exact addBlock_comm _ I j i i j _ _

open Classical in
/-- The final block `(i,j)`, `i ≤ j`. -/
noncomputable def upperBlock (K : Comp) (I : MatIn) (k : Vec) (ims : List Im) (i j : ℕ) (p q : Fin 9) : ℂ :=
  if p.val < I.no i ∧ q.val < I.no j then
    (if i = j ∧ p = q then ((K.diag I i p : ℝ) : ℂ) else 0) + blockSum K I k ims i j p q else 0

/-- The final matrix. -/
noncomputable def finalBlock (K : Comp) (I : MatIn) (k : Vec) (ims : List Im) (i j : ℕ) (p q : Fin 9) : ℂ :=
  if i ≤ j then upperBlock K I k ims i j p q else starRingEnd ℂ (upperBlock K I k ims j i q p)

open Classical in
/-- State of the matrix when rows `< i` and, in row `i`, columns `< j` are done. -/
def Inv (K : Comp) (I : MatIn) (k : Vec) (ims : List Im) (i j : ℕ) (X : BMat) : Prop :=
  ∀ a b p q, X a b p q =
    if max a b < I.N ∧ (min a b < i ∨ (min a b = i ∧ max a b < j)) then finalBlock K I k ims a b p q
    else if a = i ∧ b = i ∧ p = q ∧ p.val < I.no i ∧ i < I.N ∧ i ≤ j then ((K.diag I i p : ℝ) : ℂ)
    else 0

theorem blockSum_inactive {K : Comp} {I : MatIn} {k : Vec} {ims : List Im} {i j : ℕ}
    (h : ¬ ∃ im ∈ ims, Active I i j im) (p q : Fin 9) : blockSum K I k ims i j p q = 0 := by
  unfold blockSum
  apply List.sum_eq_zero
  intro x hx
  obtain ⟨im, him, rfl⟩ := List.mem_map.mp hx
  rw [if_neg fun ha => h ⟨im, him, ha⟩]

theorem get_pairPure (K : Comp) (I : MatIn) (k : Vec) (ims : List Im) (i j : ℕ) (st : MatSt)
    (a b : ℕ) (p q : Fin 9) :
    K.get (pairPure I k ims i st j) a b p q =
      open Classical in
      if a = j ∧ b = i ∧ i ≠ j ∧ ∃ im ∈ ims, Active I i j im then
        starRingEnd ℂ ((K.get st).addBlock I i j (blockSum K I k ims i j) i j q p)
      else (K.get st).addBlock I i j (blockSum K I k ims i j) a b p q := by
  unfold pairPure
  dsimp only
  by_cases hc : i ≠ j ∧ ∃ im ∈ ims, Active I i j im
  · rw [if_pos hc]
    have e : K.get { ims.foldl (imgPure I k i j) st with
        H0 := (ims.foldl (imgPure I k i j) st).H0.mirror i j
        S := (ims.foldl (imgPure I k i j) st).S.mirror i j }
        = (K.get (ims.foldl (imgPure I k i j) st)).mirror i j := by cases K <;> rfl
    rw [e, get_imgFold]
    unfold BMat.mirror
    by_cases h : a = j ∧ b = i
    · rw [if_pos h, if_pos ⟨h.1, h.2, hc⟩]
    · rw [if_neg h, if_neg fun h' => h ⟨h'.1, h'.2.1⟩]
  · rw [if_neg hc, get_imgFold, if_neg fun h' => hc h'.2.2]

theorem inv_pair {K : Comp} {I : MatIn} {k : Vec} {ims : List Im} {i j : ℕ} {st : MatSt}
    (hij : i ≤ j) (hj : j < I.N) (h : Inv K I k ims i j (K.get st)) :
    Inv K I k ims i (j + 1) (K.get (pairPure I k ims i st j)) := by
  intro a b p q
  rw [get_pairPure]
  have hX := h a b p q
  by_cases hab : a = i ∧ b = j
  · -- the block itself
    obtain ⟨rfl, rfl⟩ := hab
    rw [if_neg (by rintro ⟨h1, h2, h3, -⟩; exact h3 h2.symm)]
    rw [if_pos (by constructor <;> [skip; right] <;> (try constructor) <;> omega)]
    rw [if_neg (by omega)] at hX
    unfold finalBlock
    rw [if_pos hij]
    unfold upperBlock BMat.addBlock
    simp only [true_and]
    by_cases hr : p.val < I.no a ∧ q.val < I.no b
    · rw [if_pos hr, if_pos hr, hX]
      congr 1
      by_cases hd : a = b ∧ p = q
      · rw [if_pos hd, if_pos ⟨rfl, hd.1.symm, hd.2, hr.1, by omega, by omega⟩]
      · rw [if_neg hd, if_neg fun h' => hd ⟨h'.2.1.symm, h'.2.2.1⟩]
    · rw [if_neg hr, if_neg hr, hX, if_neg]
      rintro ⟨-, h1, h2, h3, -⟩
      subst h1 h2
      exact hr ⟨h3, h3⟩
  by_cases hba : a = j ∧ b = i
  · -- the mirrored block, `i ≠ j`
    obtain ⟨rfl, rfl⟩ := hba
    have hne : b ≠ a := fun e => hab ⟨e.symm, e⟩
    rw [if_pos (c := max a b < I.N ∧ (min a b < b ∨ min a b = b ∧ max a b < a + 1)) (by omega)]
    have hX2 := h b a q p
    rw [if_neg (by omega), if_neg (by omega)] at hX2
    rw [if_neg (by omega), if_neg (by omega)] at hX
    unfold finalBlock
    rw [if_neg (c := a ≤ b) (by omega)]
    unfold upperBlock BMat.addBlock
    rw [if_neg (c := b = a ∧ q = p) (fun e => hne e.1)]
    by_cases hact : ∃ im ∈ ims, Active I b a im
    · rw [if_pos ⟨rfl, rfl, hne, hact⟩]
      simp only [true_and]
      by_cases hr : q.val < I.no b ∧ p.val < I.no a
      · rw [if_pos hr, if_pos hr, hX2]
      · rw [if_neg hr, if_neg hr, hX2]
    · rw [if_neg fun h' => hact h'.2.2.2, if_neg fun h' => hab ⟨h'.1, h'.2.1⟩, hX,
        blockSum_inactive hact]
      simp
  · -- untouched blocks
    rw [if_neg fun h' => hba ⟨h'.1, h'.2.1⟩]
    unfold BMat.addBlock
    rw [if_neg fun h' => hab ⟨h'.1, h'.2.1⟩, hX]
    have e1 : (max a b < I.N ∧ (min a b < i ∨ min a b = i ∧ max a b < j + 1))
        ↔ (max a b < I.N ∧ (min a b < i ∨ min a b = i ∧ max a b < j)) := by omega
    have e2 : (a = i ∧ b = i ∧ p = q ∧ p.val < I.no i ∧ i < I.N ∧ i ≤ j + 1)
        ↔ (a = i ∧ b = i ∧ p = q ∧ p.val < I.no i ∧ i < I.N ∧ i ≤ j) := by
      constructor <;> rintro ⟨h1, h2, h3, h4, h5, h6⟩ <;> exact ⟨h1, h2, h3, h4, h5, by omega⟩
    simp only [e1, e2]

theorem inv_fold {K : Comp} {I : MatIn} {k : Vec} {ims : List Im} {i : ℕ} :
    ∀ (m j : ℕ) (st : MatSt), i ≤ j → j + m = I.N → Inv K I k ims i j (K.get st) →
      Inv K I k ims i I.N (K.get ((List.range' j m).foldl (pairPure I k ims i) st))
  | 0, j, st, _, hm, h => by
    have : j = I.N := by omega
    subst this
    simpa using h
  | m + 1, j, st, hij, hm, h => by
    rw [List.range'_succ, List.foldl_cons]
    exact inv_fold m (j + 1) _ (by omega) (by omega) (inv_pair hij (by omega) h)

theorem inv_onSite {K : Comp} {I : MatIn} {k : Vec} {ims : List Im} {i : ℕ} {st : MatSt}
    (hi : i < I.N)
    (h : ∀ a b p q, K.get st a b p q = if max a b < I.N ∧ min a b < i then finalBlock K I k ims a b p q else 0) :
    Inv K I k ims i i (K.get (onSite I i st)) := by
  intro a b p q
  have e : K.get (onSite I i st) a b p q
      = if a = i ∧ b = i ∧ p = q ∧ p.val < I.no i then ((K.diag I i p : ℝ) : ℂ) else K.get st a b p q := by
    cases K <;> rfl
  rw [e, h]
  by_cases hc : a = i ∧ b = i ∧ p = q ∧ p.val < I.no i
  · rw [if_pos hc, if_neg (by omega), if_pos ⟨hc.1, hc.2.1, hc.2.2.1, hc.2.2.2, hi, le_refl i⟩]
  · rw [if_neg hc]
    have e1 : (max a b < I.N ∧ (min a b < i ∨ min a b = i ∧ max a b < i))
        ↔ (max a b < I.N ∧ min a b < i) := by omega
    have e2 : ¬ (a = i ∧ b = i ∧ p = q ∧ p.val < I.no i ∧ i < I.N ∧ i ≤ i) :=
      fun h => hc ⟨h.1, h.2.1, h.2.2.1, h.2.2.2.1⟩
    simp only [e1]
    rw [if_neg e2]

theorem inv_rows {K : Comp} {I : MatIn} {k : Vec} {ims : List Im} :
    ∀ m, m ≤ I.N → ∀ a b p q,
      K.get ((List.range m).foldl (rowPure I k ims) MatSt.zero) a b p q =
        if max a b < I.N ∧ min a b < m then finalBlock K I k ims a b p q else 0
  | 0, _, a, b, p, q => by
    rw [if_neg (by omega)]
    cases K <;> rfl
  | m + 1, hm, a, b, p, q => by
    rw [List.range_succ, List.foldl_append, List.foldl_cons, List.foldl_nil]
    unfold rowPure
    have h0 := inv_onSite (K := K) (I := I) (k := k) (ims := ims) (i := m) (by omega)
      (inv_rows m (by omega))
    have h1 := inv_fold (I.N - m) m _ (le_refl m) (by omega) h0 a b p q
    unfold rowPure at h1
    rw [h1]
    by_cases hc : max a b < I.N ∧ min a b < m + 1
    · rw [if_pos hc, if_pos]
      omega
    · rw [if_neg hc, if_neg (by omega), if_neg]
      rintro ⟨rfl, rfl, -, -, h5, -⟩
      apply hc
      omega

/-- Closed form of the result. -/
theorem getMatrices_closed {I : MatIn} {k : Vec} {st : MatSt} {l : List (Op × Matrix (Fin 9) (Fin 9) ℝ)}
    (h : getMatrices I k = .ok st) (hl : I.transforms = .ok l) (K : Comp) {i j : ℕ} (hi : i < I.N)
    (hj : j < I.N) (p q : Fin 9) :
    K.get st i j p q = finalBlock K I k l.zipIdx i j p q := by
  obtain ⟨l', hl', rfl, -⟩ := getMatrices_ok h
  rw [hl] at hl'
  cases hl'
  rw [inv_rows I.N (le_refl _), if_pos (by omega)]

/-! ### The derivative arrays -/

/-- The final derivative block. -/
noncomputable def finalD (K : Comp) (I : MatIn) (k : Vec) (ims : List Im) (c : Fin 3) (i j : ℕ)
    (p q : Fin 9) : ℂ :=
  open Classical in
  if p.val < I.no i ∧ q.val < I.no j then
    if i ≤ j then dBlockSum K I k ims i j c p q
    else starRingEnd ℂ (dBlockSum2 K I k ims j i c q p)
  else 0

theorem getD_pairPure (K : Comp) (I : MatIn) (k : Vec) (ims : List Im) (i j : ℕ) (st : MatSt)
    (c : Fin 3) :
    K.getD (pairPure I k ims i st j) c =
      ((K.getD st c).addBlock I i j (dBlockSum K I k ims i j c)).addBlock I j i
          (fun p q => if i = j then 0 else starRingEnd ℂ (dBlockSum2 K I k ims i j c q p)) := by
  rw [← getD_imgFold]
  unfold pairPure
  dsimp only
  split <;> cases K <;> rfl

open Classical in
def InvD (K : Comp) (I : MatIn) (k : Vec) (ims : List Im) (c : Fin 3) (i j : ℕ) (X : BMat) : Prop :=
  ∀ a b p q, X a b p q =
    if max a b < I.N ∧ (min a b < i ∨ (min a b = i ∧ max a b < j)) then finalD K I k ims c a b p q
    else 0

theorem invD_pair {K : Comp} {I : MatIn} {k : Vec} {ims : List Im} {c : Fin 3} {i j : ℕ} {st : MatSt}
    (hij : i ≤ j) (hj : j < I.N) (h : InvD K I k ims c i j (K.getD st c)) :
    InvD K I k ims c i (j + 1) (K.getD (pairPure I k ims i st j) c) := by
  intro a b p q
  rw [getD_pairPure]
  have hX := h a b p q
  unfold BMat.addBlock
  by_cases hab : a = i ∧ b = j
  · obtain ⟨rfl, rfl⟩ := hab
    rw [if_pos (c := max a b < I.N ∧ (min a b < a ∨ min a b = a ∧ max a b < b + 1)) (by omega)]
    rw [if_neg (by omega)] at hX
    simp only [true_and, hX, zero_add]
    unfold finalD
    rw [if_pos hij]
    by_cases he : a = b
    · subst he
      simp
    · rw [if_neg (by omega)]
  by_cases hba : a = j ∧ b = i
  · obtain ⟨rfl, rfl⟩ := hba
    have hne : b ≠ a := fun e => hab ⟨e.symm, e⟩
    rw [if_pos (c := max a b < I.N ∧ (min a b < b ∨ min a b = b ∧ max a b < a + 1)) (by omega)]
    rw [if_neg (by omega)] at hX
    rw [if_neg (c := a = b ∧ b = a ∧ p.val < I.no b ∧ q.val < I.no a) (by omega)]
    simp only [true_and, hX, zero_add]
    unfold finalD
    rw [if_neg (c := a ≤ b) (by omega), if_neg hne]
  · rw [if_neg fun h' => hba ⟨h'.1, h'.2.1⟩, if_neg fun h' => hab ⟨h'.1, h'.2.1⟩, hX]
    have e1 : (max a b < I.N ∧ (min a b < i ∨ min a b = i ∧ max a b < j + 1))
        ↔ (max a b < I.N ∧ (min a b < i ∨ min a b = i ∧ max a b < j)) := by omega
    simp only [e1]

theorem invD_fold {K : Comp} {I : MatIn} {k : Vec} {ims : List Im} {c : Fin 3} {i : ℕ} :
    ∀ (m j : ℕ) (st : MatSt), i ≤ j → j + m = I.N → InvD K I k ims c i j (K.getD st c) →
      InvD K I k ims c i I.N (K.getD ((List.range' j m).foldl (pairPure I k ims i) st) c)
  | 0, j, st, _, hm, h => by
    have : j = I.N := by omega
    subst this
    simpa using h
  | m + 1, j, st, hij, hm, h => by
    rw [List.range'_succ, List.foldl_cons]
    exact invD_fold m (j + 1) _ (by omega) (by omega) (invD_pair hij (by omega) h)

theorem invD_rows {K : Comp} {I : MatIn} {k : Vec} {ims : List Im} {c : Fin 3} :
    ∀ m, m ≤ I.N → ∀ a b p q,
      K.getD ((List.range m).foldl (rowPure I k ims) MatSt.zero) c a b p q =
        if max a b < I.N ∧ min a b < m then finalD K I k ims c a b p q else 0
  | 0, _, a, b, p, q => by
    rw [if_neg (by omega)]
    cases K <;> rfl
  | m + 1, hm, a, b, p, q => by
    rw [List.range_succ, List.foldl_append, List.foldl_cons, List.foldl_nil]
    unfold rowPure
    have h0 : InvD K I k ims c m m (K.getD (onSite I m ((List.range m).foldl (rowPure I k ims) MatSt.zero)) c) := by
      intro a b p q
      have e : K.getD (onSite I m ((List.range m).foldl (rowPure I k ims) MatSt.zero)) c
          = K.getD ((List.range m).foldl (rowPure I k ims) MatSt.zero) c := by cases K <;> rfl
      rw [e, invD_rows m (by omega)]
      have e1 : (max a b < I.N ∧ (min a b < m ∨ min a b = m ∧ max a b < m))
        ↔ (max a b < I.N ∧ min a b < m) := by omega
      simp only [e1]
    have h1 := invD_fold (I.N - m) m _ (le_refl m) (by omega) h0 a b p q
    unfold rowPure at h1
    rw [h1]
    have e1 : (max a b < I.N ∧ (min a b < m ∨ min a b = m ∧ max a b < I.N))
        ↔ (max a b < I.N ∧ min a b < m + 1) := by omega
    simp only [e1]

/-- Closed form of the derivative arrays. -/
theorem getMatrices_closedD {I : MatIn} {k : Vec} {st : MatSt}
    {l : List (Op × Matrix (Fin 9) (Fin 9) ℝ)}
    (h : getMatrices I k = .ok st) (hl : I.transforms = .ok l) (K : Comp) {i j : ℕ} (hi : i < I.N)
    (hj : j < I.N) (c : Fin 3) (p q : Fin 9) :
    K.getD st c i j p q = finalD K I k l.zipIdx c i j p q := by
  obtain ⟨l', hl', rfl, -⟩ := getMatrices_ok h
  rw [hl] at hl'
  cases hl'
  rw [invD_rows I.N (le_refl _), if_pos (by omega)]

end Hotbit
