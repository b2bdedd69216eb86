import Verif.Model.Matrices
import Verif.Props.SlaterKoster
import Mathlib.Algebra.BigOperators.Group.List.Basic

/-!
# Closed form of the matrix construction
-/

namespace Hotbit

open Matrix

/-- An image with its orbital transformation and its position in the list. -/
abbrev Im := (Op × Matrix (Fin 9) (Fin 9) ℝ) × ℕ

/-- The image is not the atom itself. -/
def Counts (i j : ℕ) (im : Im) : Prop := ¬ (i = j ∧ im.2 = 0)

/-- The image lies in the range of the table. -/
def InRange (I : MatIn) (i j : ℕ) (im : Im) : Prop :=
  (I.tab (I.sym i) (I.sym j)).r1 ≤ norm3 (I.rij im.1.1 i j) ∧
    norm3 (I.rij im.1.1 i j) ≤ (I.tab (I.sym i) (I.sym j)).r2

/-- The image contributes. -/
def Active (I : MatIn) (i j : ℕ) (im : Im) : Prop := Counts i j im ∧ InRange I i j im

/-- Output of the C routine for one image, from the integrals selected by `f`. -/
noncomputable def skBlock (I : MatIn) (f df : SkTable → ℝ → Fin 14 → ℝ) (i j : ℕ) (im : Im) :
    (Fin 9 → Fin 9 → ℝ) × (Fin 3 → Fin 9 → Fin 9 → ℝ) :=
  let r := I.rij im.1.1 i j
  let d := norm3 r
  let t := I.tab (I.sym i) (I.sym j)
  (dotDT (I.no j) (skElem I.J (I.no i) (I.no j) (d⁻¹ • r) (f t d)) im.1.2,
   fun c => dotDT (I.no j) (fun p q => skDElem I.J (I.no i) (I.no j) (d⁻¹ • r) d (f t d)
      (fun k c => df t d k * (d⁻¹ • r) c) p q c) im.1.2)

theorem fastSlako_ok {J : SkJunk} {noi noj : ℕ} {r : Vec} {dist : ℝ} {h : Fin 14 → ℝ}
    {dh : Fin 14 → Fin 3 → ℝ} {o : SkOut} (ho : fastSlako J noi noj r dist h dh = .ok o) :
    ValidNo noi ∧ ValidNo noj ∧ o = ⟨skElem J noi noj r h, skDElem J noi noj r dist h dh⟩ := by
  unfold fastSlako at ho
  by_cases h1 : noi ≠ 1 ∧ noi ≠ 4 ∧ noi ≠ 9
  · rw [if_pos h1] at ho; cases ho
  · by_cases h2 : noj ≠ 1 ∧ noj ≠ 4 ∧ noj ≠ 9
    · rw [if_neg h1, if_pos h2] at ho; cases ho
    · rw [if_neg h1, if_neg h2] at ho
      refine ⟨?_, ?_, by cases ho; rfl⟩ <;> unfold ValidNo <;> tauto

theorem slakoPair_ok {I : MatIn} {i j : ℕ} {im : Im} {f df : SkTable → ℝ → Fin 14 → ℝ}
    {hb : (Fin 9 → Fin 9 → ℝ) × (Fin 3 → Fin 9 → Fin 9 → ℝ)}
    (h : slakoPair I i j (I.rij im.1.1 i j) (norm3 (I.rij im.1.1 i j)) im.1.2
      (f (I.tab (I.sym i) (I.sym j)) (norm3 (I.rij im.1.1 i j)))
      (df (I.tab (I.sym i) (I.sym j)) (norm3 (I.rij im.1.1 i j))) = .ok hb) :
    ValidNo (I.no i) ∧ ValidNo (I.no j) ∧ hb = skBlock I f df i j im := by
  unfold slakoPair at h
  cases ho : fastSlako I.J (I.no i) (I.no j) ((norm3 (I.rij im.1.1 i j))⁻¹ • I.rij im.1.1 i j)
      (norm3 (I.rij im.1.1 i j)) (f (I.tab (I.sym i) (I.sym j)) (norm3 (I.rij im.1.1 i j)))
      (fun k c => df (I.tab (I.sym i) (I.sym j)) (norm3 (I.rij im.1.1 i j)) k
        * ((norm3 (I.rij im.1.1 i j))⁻¹ • I.rij im.1.1 i j) c) with
  | error e => rw [ho] at h; cases h
  | ok o =>
    rw [ho] at h
    obtain ⟨h1, h2, rfl⟩ := fastSlako_ok ho
    refine ⟨h1, h2, ?_⟩
    cases h
    rfl

/-- Pure version of one image step. -/
noncomputable def imgPure (I : MatIn) (k : Vec) (i j : ℕ) (st : MatSt) (im : Im) : MatSt :=
  open Classical in
  if Active I i j im then addImage I k i j im.1.1
    (skBlock I SkTable.h SkTable.dh i j im) (skBlock I SkTable.s SkTable.ds i j im) st else st

theorem imageStep_ok {I : MatIn} {k : Vec} {i j : ℕ} {im : Im} {st st' : MatSt × Bool}
    (h : imageStep I k i j st im = .ok st') :
    st'.1 = imgPure I k i j st.1 im ∧ (st'.2 = true ↔ st.2 = true ∨ Active I i j im) ∧
      (Counts i j im → 0.1 < norm3 (I.rij im.1.1 i j)) ∧
      (Active I i j im → ValidNo (I.no i) ∧ ValidNo (I.no j)) := by
  unfold imageStep at h
  by_cases hc : i = j ∧ im.2 = 0
  · rw [if_pos hc] at h
    have ha : ¬ Active I i j im := fun ha => ha.1 hc
    have hcc : ¬ Counts i j im := fun ha => ha hc
    cases h
    unfold imgPure
    rw [if_neg ha]
    simp [ha, hcc]
  · rw [if_neg hc] at h
    dsimp only at h
    by_cases h1 : norm3 (I.rij im.1.1 i j) < 0.1
    · rw [if_pos h1] at h; cases h
    by_cases h2 : norm3 (I.rij im.1.1 i j) > 0.1
    swap
    · rw [if_neg h1, if_pos h2] at h; cases h
    rw [if_neg h1, if_neg (not_not.mpr h2)] at h
    by_cases h3 : (I.tab (I.sym i) (I.sym j)).r1 ≤ norm3 (I.rij im.1.1 i j) ∧
        norm3 (I.rij im.1.1 i j) ≤ (I.tab (I.sym i) (I.sym j)).r2
    swap
    · rw [if_pos h3] at h
      have ha : ¬ Active I i j im := fun ha => h3 ha.2
      cases h
      unfold imgPure
      rw [if_neg ha]
      simp only [ha, or_false, false_imp_iff, and_true, true_and]
      exact fun _ => h2
    rw [if_neg (not_not.mpr h3)] at h
    have ha : Active I i j im := ⟨hc, h3⟩
    simp only [bind, Except.bind, pure, Except.pure] at h
    cases hh : slakoPair I i j (I.rij im.1.1 i j) (norm3 (I.rij im.1.1 i j)) im.1.2
        ((I.tab (I.sym i) (I.sym j)).h (norm3 (I.rij im.1.1 i j)))
        ((I.tab (I.sym i) (I.sym j)).dh (norm3 (I.rij im.1.1 i j))) with
    | error e => rw [hh] at h; cases h
    | ok hb =>
    rw [hh] at h
    cases hs : slakoPair I i j (I.rij im.1.1 i j) (norm3 (I.rij im.1.1 i j)) im.1.2
        ((I.tab (I.sym i) (I.sym j)).s (norm3 (I.rij im.1.1 i j)))
        ((I.tab (I.sym i) (I.sym j)).ds (norm3 (I.rij im.1.1 i j))) with
    | error e => rw [hs] at h; cases h
    | ok sb =>
    rw [hs] at h
    obtain ⟨v1, v2, rfl⟩ := slakoPair_ok (f := SkTable.h) (df := SkTable.dh) hh
    obtain ⟨-, -, rfl⟩ := slakoPair_ok (f := SkTable.s) (df := SkTable.ds) hs
    cases h
    unfold imgPure
    rw [if_pos ha]
    simp only [ha, or_true, true_and, forall_const]
    exact ⟨fun _ => h2, v1, v2⟩

theorem imageFold_ok {I : MatIn} {k : Vec} {i j : ℕ} : ∀ (ims : List Im) {st st' : MatSt × Bool},
    ims.foldlM (imageStep I k i j) st = .ok st' →
    st'.1 = ims.foldl (imgPure I k i j) st.1 ∧
      (st'.2 = true ↔ st.2 = true ∨ ∃ im ∈ ims, Active I i j im) ∧
      (∀ im ∈ ims, Counts i j im → 0.1 < norm3 (I.rij im.1.1 i j)) ∧
      (∀ im ∈ ims, Active I i j im → ValidNo (I.no i) ∧ ValidNo (I.no j))
  | [], st, st', h => by
    simp only [List.foldlM_nil, pure, Except.pure] at h
    cases h
    simp
  | im :: ims, st, st', h => by
    rw [List.foldlM_cons] at h
    cases h1 : imageStep I k i j st im with
    | error e => rw [h1] at h; cases h
    | ok st1 =>
    rw [h1] at h
    obtain ⟨a1, a2, a3, a4⟩ := imageStep_ok h1
    obtain ⟨b1, b2, b3, b4⟩ := imageFold_ok ims h
    refine ⟨by rw [b1, a1, List.foldl_cons], ?_, ?_, ?_⟩
    · rw [b2, a2]; simp [or_assoc]
    · intro x hx
      rcases List.mem_cons.mp hx with rfl | hx
      · exact a3
      · exact b3 x hx
    · intro x hx
      rcases List.mem_cons.mp hx with rfl | hx
      · exact a4
      · exact b4 x hx

/-- Pure version of a pair step. -/
noncomputable def pairPure (I : MatIn) (k : Vec) (ims : List Im) (i : ℕ) (st : MatSt) (j : ℕ) : MatSt :=
  open Classical in
  let st1 := ims.foldl (imgPure I k i j) st
  if i ≠ j ∧ ∃ im ∈ ims, Active I i j im then
    { st1 with H0 := st1.H0.mirror i j, S := st1.S.mirror i j } else st1

/-- Conditions under which a pair is processed without an exception. -/
def PairOk (I : MatIn) (ims : List Im) (i j : ℕ) : Prop :=
  (∀ im ∈ ims, Counts i j im → 0.1 < norm3 (I.rij im.1.1 i j)) ∧
    (∀ im ∈ ims, Active I i j im → ValidNo (I.no i) ∧ ValidNo (I.no j))

theorem pairStep_ok {I : MatIn} {k : Vec} {ims : List Im} {i j : ℕ} {st st' : MatSt}
    (h : pairStep I k ims i st j = .ok st') :
    st' = pairPure I k ims i st j ∧ PairOk I ims i j := by
  unfold pairStep at h
  cases h1 : ims.foldlM (imageStep I k i j) (st, false) with
  | error e => rw [h1] at h; cases h
  | ok r =>
  rw [h1] at h
  simp only [bind, Except.bind, pure, Except.pure] at h
  obtain ⟨a1, a2, a3⟩ := imageFold_ok ims h1
  simp only [Bool.false_eq_true, false_or] at a2
  refine ⟨?_, a3⟩
  unfold pairPure
  dsimp only
  by_cases hc : i ≠ j ∧ r.2 = true
  · rw [if_pos hc] at h
    cases h
    rw [if_pos ⟨hc.1, a2.mp hc.2⟩, a1]
  · rw [if_neg hc] at h
    cases h
    rw [if_neg fun h' => hc ⟨h'.1, a2.mpr h'.2⟩, a1]

theorem foldlM_ok {σ α : Type} {f : σ → α → Except Exn σ} {g : σ → α → σ} {P : α → Prop}
    (hf : ∀ s a s', f s a = .ok s' → s' = g s a ∧ P a) :
    ∀ (l : List α) {s s' : σ}, l.foldlM f s = .ok s' → s' = l.foldl g s ∧ ∀ a ∈ l, P a
  | [], s, s', h => by
    simp only [List.foldlM_nil, pure, Except.pure] at h
    cases h; simp
  | a :: l, s, s', h => by
    rw [List.foldlM_cons] at h
    cases h1 : f s a with
    | error e => rw [h1] at h; cases h
    | ok s1 =>
    rw [h1] at h
    obtain ⟨e1, p1⟩ := hf _ _ _ h1
    obtain ⟨e2, p2⟩ := foldlM_ok hf l h
    refine ⟨by rw [e2, e1, List.foldl_cons], ?_⟩
    intro x hx
    rcases List.mem_cons.mp hx with rfl | hx
    · exact p1
    · exact p2 x hx

noncomputable def rowPure (I : MatIn) (k : Vec) (ims : List Im) (st : MatSt) (i : ℕ) : MatSt :=
  (List.range' i (I.N - i)).foldl (pairPure I k ims i) (onSite I i st)

theorem getMatrices_ok {I : MatIn} {k : Vec} {st : MatSt} (h : getMatrices I k = .ok st) :
    ∃ l, I.transforms = .ok l ∧
      st = (List.range I.N).foldl (rowPure I k l.zipIdx) MatSt.zero ∧
      ∀ i j, i ≤ j → j < I.N → PairOk I l.zipIdx i j := by
  unfold getMatrices at h
  cases ht : I.transforms with
  | error e => rw [ht] at h; cases h
  | ok l =>
  rw [ht] at h
  refine ⟨l, rfl, ?_⟩
  have key := foldlM_ok (f := rowStep I k l.zipIdx) (g := rowPure I k l.zipIdx)
    (P := fun i => ∀ j, i ≤ j → j < I.N → PairOk I l.zipIdx i j) ?_ (List.range I.N) h
  · refine ⟨key.1, fun i j hij hj => key.2 i (List.mem_range.mpr (by omega)) j hij hj⟩
  · intro s i s' hs
    have := foldlM_ok (f := pairStep I k l.zipIdx i) (g := pairPure I k l.zipIdx i)
      (P := fun j => PairOk I l.zipIdx i j) (fun _ _ _ h => pairStep_ok h) _ hs
    exact ⟨this.1, fun j hij hj => this.2 j (List.mem_range'_1.mpr ⟨hij, by omega⟩)⟩

end Hotbit
