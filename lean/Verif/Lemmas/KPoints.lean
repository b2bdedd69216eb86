import Verif.Spec.KPoints
import Verif.Lemmas.Atoms

set_option linter.unusedSimpArgs false

/-! Helper lemmas about the k-point mesh and the merging of inversion pairs. -/

namespace Hotbit

open Real

theorem mem_divisors (x d : ℤ) (hx : 0 < x) : d ∈ divisors x ↔ 0 < d ∧ d ∣ x := by
  simp only [divisors, List.mem_cons, List.mem_filter, List.mem_map, List.mem_range,
    decide_eq_true_eq]
  constructor
  · rintro (rfl | ⟨⟨j, hj, rfl⟩, h⟩)
    · exact ⟨hx, dvd_refl _⟩
    · exact ⟨by omega, Int.dvd_of_emod_eq_zero h⟩
  · rintro ⟨hd, hdx⟩
    by_cases h : d = x
    · exact Or.inl h
    · right
      have hle : d ≤ x / 2 := by
        obtain ⟨c, rfl⟩ := hdx
        have hc : 2 ≤ c := by
          have h0 : 0 < c := pos_of_mul_pos_right hx hd.le
          have h1 : c ≠ 1 := by rintro rfl; exact h (by ring)
          omega
        rw [Int.le_ediv_iff_mul_le (by norm_num)]
        nlinarith
      exact ⟨⟨(x / 2 - d).toNat, by omega, by omega⟩, Int.emod_eq_zero_of_dvd hdx⟩

theorem divisors_nodup (x : ℤ) (hx : 0 < x) : (divisors x).Nodup := by
  unfold divisors
  rw [List.nodup_cons]
  constructor
  · simp only [List.mem_filter, List.mem_map, List.mem_range]
    rintro ⟨⟨j, hj, he⟩, -⟩
    omega
  · apply List.Nodup.filter
    apply List.Nodup.map _ List.nodup_range
    intro a b h
    simpa using h

theorem linspace_length (a b : ℝ) (n : ℕ) : (linspace a b n).length = n := by simp [linspace]

theorem norm3_nonneg' (v : Vec) : 0 ≤ norm3 v := Real.sqrt_nonneg _

theorem abs_le_norm3 (v : Vec) (i : Fin 3) : |v i| ≤ norm3 v := by
  unfold norm3
  rw [← Real.sqrt_sq_eq_abs]
  apply Real.sqrt_le_sqrt
  fin_cases i <;> simp <;> nlinarith [sq_nonneg (v 0), sq_nonneg (v 1), sq_nonneg (v 2)]

/-- Components of two vectors that both nearly cancel `p` are close. -/
theorem close_of_cancel (q q' p : Vec) (t : ℝ) (h : norm3 (q + p) < t) (h' : norm3 (q' + p) < t)
    (i : Fin 3) : |q i - q' i| < 2 * t := by
  have h1 := (abs_le_norm3 (q + p) i).trans_lt h
  have h2 := (abs_le_norm3 (q' + p) i).trans_lt h'
  simp only [Pi.add_apply] at h1 h2
  rw [abs_lt] at h1 h2 ⊢
  constructor <;> linarith [h1.1, h1.2, h2.1, h2.2]

/-- Two points are at least `s` apart in some coordinate. -/
def FarApart (s : ℝ) (p q : Vec) : Prop := ∃ i, s ≤ |p i - q i|

theorem FarApart.symm {s : ℝ} {p q : Vec} (h : FarApart s p q) : FarApart s q p := by
  obtain ⟨i, hi⟩ := h
  exact ⟨i, by rwa [abs_sub_comm]⟩

theorem norm3_add_comm (a b : Vec) : norm3 (a + b) = norm3 (b + a) := by rw [add_comm]

/-- What is kept after processing the points `L`. -/
structure MergeInv (w : ℝ) (L : List Vec) (acc : List (Vec × ℝ)) : Prop where
  sub : (acc.map Prod.fst).Sublist L
  sum : (acc.map Prod.snd).sum = w * L.length
  size : ∀ q ∈ acc, q.2 = w * classSize L q.1
  cover : ∀ p ∈ L, p ∈ acc.map Prod.fst ∨ ∃ q ∈ acc, norm3 (q.1 + p) < 1e-10

theorem sum_map_add_if (w : ℝ) (P : Vec × ℝ → Prop) [DecidablePred P] (acc : List (Vec × ℝ)) :
    ((acc.map fun q => if P q then (q.1, q.2 + w) else q).map Prod.snd).sum
      = (acc.map Prod.snd).sum + w * acc.countP (fun q => decide (P q)) := by
  induction acc with
  | nil => simp
  | cons a acc ih =>
    simp only [List.map_cons, List.sum_cons, List.countP_cons]
    rw [ih]
    by_cases h : P a <;> simp [h] <;> ring

theorem map_fst_if (w : ℝ) (P : Vec × ℝ → Prop) [DecidablePred P] (acc : List (Vec × ℝ)) :
    (acc.map fun q => if P q then (q.1, q.2 + w) else q).map Prod.fst = acc.map Prod.fst := by
  rw [List.map_map]
  apply List.map_congr_left
  intro q _
  by_cases h : P q <;> simp [h]

theorem countP_eq_one_of {α : Type} (P : α → Bool) (l : List α) (x : α) (hx : x ∈ l) (hP : P x = true)
    (h : l.Pairwise fun a b => ¬ (P a = true ∧ P b = true)) : l.countP P = 1 := by
  induction l with
  | nil => simp at hx
  | cons a l ih =>
    rw [List.pairwise_cons] at h
    rw [List.countP_cons]
    rcases List.mem_cons.1 hx with rfl | hx
    · have : l.countP P = 0 := by
        rw [List.countP_eq_zero]; intro b hb hPb; exact h.1 b hb ⟨hP, hPb⟩
      simp [this, hP]
    · have hPa : P a ≠ true := fun hPa => h.1 x hx ⟨hPa, hP⟩
      simp [ih hx h.2, hPa]

theorem classSize_append (L : List Vec) (p k : Vec) :
    classSize (L ++ [p]) k = classSize L k + classSize [p] k := by
  simp [classSize, List.countP_append]

theorem mergePoint_inv (w : ℝ) (L : List Vec) (acc : List (Vec × ℝ)) (p : Vec)
    (hfar : (L ++ [p]).Pairwise (FarApart 2e-10)) (h : MergeInv w L acc) :
    MergeInv w (L ++ [p]) (mergePoint w acc p) := by
  classical
  have hL : L.Pairwise (FarApart 2e-10) := (List.pairwise_append.1 hfar).1
  have hLp : ∀ x ∈ L, FarApart 2e-10 x p := fun x hx =>
    (List.pairwise_append.1 hfar).2.2 x hx p (by simp)
  have hmemL : ∀ q ∈ acc, q.1 ∈ L := fun q hq => h.sub.subset (List.mem_map_of_mem hq)
  have hne : ∀ x ∈ L, x ≠ p := by
    intro x hx he
    obtain ⟨i, hi⟩ := hLp x hx
    rw [he] at hi; simp at hi; norm_num at hi
  have hacc : acc.Pairwise fun a b => ¬ (norm3 (a.1 + p) < 1e-10 ∧ norm3 (b.1 + p) < 1e-10) := by
    have h1 : (acc.map Prod.fst).Pairwise (FarApart 2e-10) := hL.sublist h.sub
    rw [List.pairwise_map] at h1
    refine h1.imp ?_
    rintro a b ⟨i, hi⟩ ⟨ha, hb⟩
    have := close_of_cancel a.1 b.1 p 1e-10 ha hb i
    norm_num at hi this
    linarith
  unfold mergePoint
  by_cases hany : acc.any (fun q => decide (norm3 (q.1 + p) < 1e-10)) = true
  · rw [if_pos hany]
    obtain ⟨q0, hq0, hq0'⟩ := List.any_eq_true.1 hany
    have hcount : acc.countP (fun q => decide (norm3 (q.1 + p) < 1e-10)) = 1 := by
      refine countP_eq_one_of _ acc q0 hq0 hq0' ?_
      refine hacc.imp ?_
      intro a b hab hh
      exact hab ⟨of_decide_eq_true hh.1, of_decide_eq_true hh.2⟩
    refine ⟨?_, ?_, ?_, ?_⟩
    · rw [map_fst_if]; exact h.sub.trans (List.sublist_append_left _ _)
    · rw [sum_map_add_if, hcount, h.sum]; simp; ring
    · intro q hq
      obtain ⟨a, ha, rfl⟩ := List.mem_map.1 hq
      have ha1 := hne a.1 (hmemL a ha)
      by_cases hc : norm3 (a.1 + p) < 1e-10
      · have : classSize [p] a.1 = 1 := by
          have hc' : norm3 (p + a.1) < 1e-10 := by rwa [norm3_add_comm]
          simp [classSize, List.countP_cons, hc']
        simp only [if_pos hc, classSize_append, this, h.size a ha]
        push_cast; ring
      · have : classSize [p] a.1 = 0 := by
          have hc' : ¬ norm3 (p + a.1) < 1e-10 := by rwa [norm3_add_comm]
          simp [classSize, List.countP_cons, Ne.symm ha1, -not_lt, hc']
        simp only [if_neg hc, classSize_append, this, h.size a ha]
        simp
    · intro x hx
      rw [map_fst_if]
      have lift : ∀ q ∈ acc, norm3 (q.1 + x) < 1e-10 → ∃ q' ∈ acc.map
          (fun q => if norm3 (q.1 + p) < 1e-10 then (q.1, q.2 + w) else q), norm3 (q'.1 + x) < 1e-10 := by
        intro q hq hc
        refine ⟨_, List.mem_map_of_mem hq, ?_⟩
        by_cases hp : norm3 (q.1 + p) < 1e-10
        · simp only [if_pos hp]; exact hc
        · simp only [if_neg hp]; exact hc
      rcases List.mem_append.1 hx with hx | hx
      · rcases h.cover x hx with hh | ⟨q, hq, hc⟩
        · exact Or.inl hh
        · exact Or.inr (lift q hq hc)
      · rw [List.mem_singleton] at hx; subst hx
        exact Or.inr (lift q0 hq0 (of_decide_eq_true hq0'))
  · rw [if_neg hany]
    have hno : ∀ q ∈ acc, ¬ norm3 (q.1 + p) < 1e-10 := by
      intro q hq hc
      exact hany (List.any_eq_true.2 ⟨q, hq, decide_eq_true hc⟩)
    refine ⟨?_, ?_, ?_, ?_⟩
    · rw [List.map_append]; exact h.sub.append (List.Sublist.refl _)
    · rw [List.map_append, List.sum_append, h.sum]; simp; ring
    · intro q hq
      rcases List.mem_append.1 hq with hq | hq
      · have ha1 := hne q.1 (hmemL q hq)
        have hc' : ¬ norm3 (p + q.1) < 1e-10 := by rw [norm3_add_comm]; exact hno q hq
        have : classSize [p] q.1 = 0 := by
          simp [classSize, List.countP_cons, Ne.symm ha1, -not_lt, hc']
        rw [classSize_append, this, h.size q hq]; simp
      · rw [List.mem_singleton] at hq; subst hq
        have h1 : classSize [p] p = 1 := by simp [classSize, List.countP_cons]
        have h0 : classSize L p = 0 := by
          unfold classSize
          rw [List.countP_eq_zero]
          intro x hx hd
          rcases of_decide_eq_true hd with he | hc
          · exact hne x hx he
          · rcases h.cover x hx with hk | ⟨q, hq, hc2⟩
            · obtain ⟨q, hq, rfl⟩ := List.mem_map.1 hk
              exact hno q hq hc
            · obtain ⟨i, hi⟩ := hLp q.1 (hmemL q hq)
              have hc3 : norm3 (p + x) < 1e-10 := by rwa [norm3_add_comm]
              have := close_of_cancel q.1 p x 1e-10 hc2 hc3 i
              norm_num at hi this
              linarith
        simp only [classSize_append, h0, h1]; simp
    · intro x hx
      rcases List.mem_append.1 hx with hx | hx
      · rcases h.cover x hx with hh | ⟨q, hq, hc⟩
        · left; rw [List.map_append]; exact List.mem_append_left _ hh
        · exact Or.inr ⟨q, List.mem_append_left _ hq, hc⟩
      · rw [List.mem_singleton] at hx; subst hx
        left; simp

theorem mergeAll_inv (w : ℝ) (mesh : List Vec) (hfar : mesh.Pairwise (FarApart 2e-10)) :
    MergeInv w mesh (mesh.foldl (mergePoint w) []) := by
  suffices ∀ (R L : List Vec) (acc : List (Vec × ℝ)), (L ++ R).Pairwise (FarApart 2e-10) →
      MergeInv w L acc → MergeInv w (L ++ R) (R.foldl (mergePoint w) acc) by
    have := this mesh [] [] (by simpa using hfar)
      ⟨by simp, by simp, by simp, by simp⟩
    simpa using this
  intro R
  induction R with
  | nil => intro L acc _ h; simpa using h
  | cons p R ih =>
    intro L acc hf h
    have h1 : (L ++ [p]).Pairwise (FarApart 2e-10) :=
      hf.sublist (by
        have : L ++ p :: R = (L ++ [p]) ++ R := by simp
        rw [this]; exact List.sublist_append_left _ _)
    have := ih (L ++ [p]) (mergePoint w acc p) (by simpa using hf) (mergePoint_inv w L acc p h1 h)
    simpa using this

end Hotbit
