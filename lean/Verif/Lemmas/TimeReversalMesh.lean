import Verif.Spec.TimeReversal
import Verif.Lemmas.KMesh

/-!
# The k-points that `setup_k_sampling` keeps represent the whole mesh
-/

set_option linter.unusedSimpArgs false

namespace Hotbit

open Real

theorem mergeAll_noInverse (w : ℝ) (mesh : List Vec) :
    ((mesh.foldl (mergePoint w) []).map Prod.fst).Pairwise fun a b => ¬ norm3 (a + b) < 1e-10 := by
  suffices ∀ (R : List Vec) (acc : List (Vec × ℝ)),
      ((acc.map Prod.fst).Pairwise fun a b => ¬ norm3 (a + b) < 1e-10) →
      ((R.foldl (mergePoint w) acc).map Prod.fst).Pairwise fun a b => ¬ norm3 (a + b) < 1e-10 from
    this mesh [] (by simp)
  intro R
  induction R with
  | nil => intro acc h; exact h
  | cons p R ih =>
    intro acc h
    refine ih _ ?_
    unfold mergePoint
    split
    · rw [map_fst_if]; exact h
    · rename_i hany
      rw [List.map_append, List.pairwise_append]
      refine ⟨h, by simp, ?_⟩
      intro a ha b hb
      obtain ⟨q, hq, rfl⟩ := List.mem_map.1 ha
      simp only [List.map_cons, List.map_nil, List.mem_singleton] at hb
      subst hb
      intro hc
      exact hany (List.any_eq_true.2 ⟨q, hq, decide_eq_true hc⟩)

theorem sum_if_count (w : ℝ) (P : Vec → Prop) [DecidablePred P] (L : List Vec) :
    (L.map fun p => if P p then w else 0).sum = w * L.countP fun p => decide (P p) := by
  induction L with
  | nil => simp
  | cons a L ih =>
    rw [List.map_cons, List.sum_cons, List.countP_cons, ih]
    by_cases h : P a <;> simp [h]
    ring

open Classical in
/-- Merging inverse points: the kept points represent all points. -/
theorem represents_merge (w : ℝ) (L : List Vec) (hfar : L.Pairwise (FarApart 2e-10))
    (hex : ∀ p ∈ L, ∀ q ∈ L, norm3 (q + p) < 1e-10 → p = -q) :
    ∃ κ, Represents (.ofList (L.foldl (mergePoint w) [])) (.ofList (L.map fun p => (p, w))) κ := by
  have inv := mergeAll_inv w L hfar
  have hno := mergeAll_noInverse w L
  set acc := L.foldl (mergePoint w) [] with hacc
  set M := L.map fun p => (p, w) with hM
  have hsep : acc.Pairwise fun a b => FarApart 2e-10 a.1 b.1 := by
    have := hfar.sublist inv.sub
    rwa [List.pairwise_map] at this
  rw [List.pairwise_map] at hno
  rw [List.pairwise_iff_getElem] at hsep hno
  have hsep' : ∀ l m : Fin acc.length, l ≠ m → FarApart 2e-10 acc[l].1 acc[m].1 := by
    intro l m h
    rcases lt_or_gt_of_ne (fun e => h (Fin.ext e) : (l : ℕ) ≠ m) with h | h
    · exact hsep l m l.2 m.2 h
    · exact (hsep m l m.2 l.2 h).symm
  have hno' : ∀ l m : Fin acc.length, l ≠ m → ¬ norm3 (acc[l].1 + acc[m].1) < 1e-10 := by
    intro l m h
    rcases lt_or_gt_of_ne (fun e => h (Fin.ext e) : (l : ℕ) ≠ m) with h | h
    · exact hno l m l.2 m.2 h
    · rw [norm3_add_comm]; exact hno m l m.2 l.2 h
  let rel : Vec → Fin acc.length → Prop := fun p l => p = acc[l].1 ∨ norm3 (p + acc[l].1) < 1e-10
  have hrel : ∀ p ∈ L, ∃ l, rel p l := by
    intro p hp
    rcases inv.cover p hp with h | ⟨q, hq, h⟩
    · obtain ⟨q, hq, rfl⟩ := List.mem_map.1 h
      obtain ⟨l, hl, rfl⟩ := List.mem_iff_getElem.1 hq
      exact ⟨⟨l, hl⟩, Or.inl rfl⟩
    · obtain ⟨l, hl, rfl⟩ := List.mem_iff_getElem.1 hq
      exact ⟨⟨l, hl⟩, Or.inr (by rw [norm3_add_comm]; exact h)⟩
  have huniq : ∀ p l m, rel p l → rel p m → l = m := by
    intro p l m hl hm
    by_contra hne
    rcases hl with hl | hl <;> rcases hm with hm | hm
    · obtain ⟨i, hi⟩ := hsep' l m hne
      rw [← hl, ← hm, sub_self, abs_zero] at hi
      norm_num at hi
    · rw [hl] at hm; exact hno' l m hne hm
    · rw [hm] at hl; exact hno' m l (Ne.symm hne) hl
    · obtain ⟨i, hi⟩ := hsep' l m hne
      have := close_of_cancel acc[l].1 acc[m].1 p 1e-10 (by rw [norm3_add_comm]; exact hl)
        (by rw [norm3_add_comm]; exact hm) i
      norm_num at hi this
      linarith
  have hmem : ∀ k : Fin M.length, M[k].1 ∈ L ∧ M[k].2 = w := by
    intro k
    have : M[k] ∈ M := List.getElem_mem _
    obtain ⟨p, hp, he⟩ := List.mem_map.1 (show M[k] ∈ L.map fun p => (p, w) from this)
    rw [← he]
    exact ⟨hp, rfl⟩
  choose κ hκ using fun k : Fin M.length => hrel M[k].1 (hmem k).1
  have hiff : ∀ k l, κ k = l ↔ rel M[k].1 l := fun k l =>
    ⟨fun h => h ▸ hκ k, fun h => huniq _ _ _ (hκ k) h⟩
  refine ⟨κ, ⟨fun l => ?_, fun k => ?_, fun l => ?_⟩⟩
  · have h1 : acc[l].1 ∈ L := inv.sub.subset (List.mem_map_of_mem (List.getElem_mem _))
    have h2 : (acc[l].1, w) ∈ M := List.mem_map.2 ⟨_, h1, rfl⟩
    obtain ⟨k, hk, he⟩ := List.mem_iff_getElem.1 h2
    refine ⟨⟨k, hk⟩, (hiff _ _).2 (Or.inl ?_)⟩
    show M[k].1 = _
    rw [he]
  · show SameOrInverse acc[κ k].1 M[k].1
    have h1 : acc[κ k].1 ∈ L := inv.sub.subset (List.mem_map_of_mem (List.getElem_mem _))
    rcases hκ k with h | h
    · rw [h]
      exact ⟨1, Or.inl rfl, 0, fun c => by simp⟩
    · have := hex _ (hmem k).1 _ h1 (by rw [norm3_add_comm]; exact h)
      rw [this]
      exact ⟨-1, Or.inr rfl, 0, fun c => by simp⟩
  · show acc[l].2 = ∑ k : Fin M.length, if κ k = l then M[k].2 else 0
    refine (inv.size acc[l] (List.getElem_mem _)).trans ?_
    have e1 : ∀ k : Fin M.length, (if κ k = l then M[k].2 else 0)
        = (fun x : Vec × ℝ => if rel x.1 l then x.2 else 0) M[k] := by
      intro k
      dsimp only
      by_cases h : κ k = l
      · rw [if_pos h, if_pos ((hiff k l).1 h)]
      · rw [if_neg h, if_neg fun hr => h ((hiff k l).2 hr)]
    rw [Finset.sum_congr rfl fun k _ => e1 k]
    have e2 : ∑ k : Fin M.length, (fun x : Vec × ℝ => if rel x.1 l then x.2 else 0) M[k]
        = (M.map fun x : Vec × ℝ => if rel x.1 l then x.2 else 0).sum :=
      Fin.sum_univ_fun_getElem M (fun x : Vec × ℝ => if rel x.1 l then x.2 else 0)
    rw [e2, hM, List.map_map]
    exact (sum_if_count w (fun p => rel p l) L).symm

theorem meshCoord_cancel (inf : Bool) (n : ℤ) (h1 : 1 ≤ n) (h2 : n ≤ 10 ^ 10) (a b : ℕ)
    (h : |meshCoord inf n a + meshCoord inf n b| < 1e-10) : meshCoord inf n a + meshCoord inf n b = 0 := by
  have hn0 : (0 : ℝ) < n := by exact_mod_cast h1
  have hn1 : (n : ℝ) ≤ 10 ^ 10 := by exact_mod_cast h2
  obtain ⟨z, hz⟩ : ∃ z : ℤ, meshCoord inf n a + meshCoord inf n b = 2 * π * z / n := by
    cases inf
    · refine ⟨a + b, ?_⟩
      simp only [meshCoord, Bool.false_eq_true, if_false]
      push_cast
      ring
    · refine ⟨a + b + 1 - n, ?_⟩
      simp only [meshCoord, if_true]
      push_cast
      field_simp
      ring
  rw [hz] at h ⊢
  by_cases h0 : z = 0
  · rw [h0]; simp
  · exfalso
    have hz1 : (1 : ℝ) ≤ |(z : ℝ)| := by exact_mod_cast Int.one_le_abs h0
    rw [abs_div, abs_mul, abs_of_pos hn0, abs_of_pos (by positivity : (0 : ℝ) < 2 * π), div_lt_iff₀ hn0] at h
    have : (3 : ℝ) < π := pi_gt_three
    norm_num at hn1 h
    nlinarith

theorem meshPoint_cancel (A : Atoms) (n : Fin 3 → ℤ) (h1 : ∀ i, 1 ≤ n i) (h2 : ∀ i, n i ≤ 10 ^ 10)
    (a b : Fin 3 → ℕ) (h : norm3 (meshPoint A n a + meshPoint A n b) < 1e-10) :
    meshPoint A n b = - meshPoint A n a := by
  have hc : ∀ i, |meshPoint A n a i + meshPoint A n b i| < 1e-10 := fun i => by
    have := abs_le_norm3 (meshPoint A n a + meshPoint A n b) i
    exact lt_of_le_of_lt this h
  have line : ∀ i, |meshCoord (A.numberOfTransformations i).isNone (n i) (a i)
        + meshCoord (A.numberOfTransformations i).isNone (n i) (b i)| < 1e-10 →
      meshCoord (A.numberOfTransformations i).isNone (n i) (b i)
        = - meshCoord (A.numberOfTransformations i).isNone (n i) (a i) := fun i hi => by
    have := meshCoord_cancel _ _ (h1 i) (h2 i) _ _ hi
    linarith
  unfold meshPoint shear at hc ⊢
  by_cases hA : A.ctype = .doubleChiral
  · simp only [if_pos hA] at hc ⊢
    have e2 := line 2 (hc 2)
    have e1 := line 1 (hc 1)
    have e0 := line 0 (by
      have := hc 0
      simp only [Matrix.cons_val_zero] at this
      rw [e2] at this
      convert this using 2
      ring)
    funext i
    fin_cases i
    · simp only [Pi.neg_apply]
      show _ + _ = -(_ + _)
      rw [e0, e2]; ring
    · exact e1
    · exact e2
  · simp only [if_neg hA] at hc ⊢
    funext i
    exact line i (hc i)

/-- The k-points that are kept represent the whole mesh. -/
theorem represents_mesh (A : Atoms) (width : ℝ) (n : Fin 3 → ℤ) (physical rsK : Bool) (s : KSampling)
    (h : setupKSampling A width (.tuple n) physical rsK = .ok s) (hn : ∀ i, n i ≤ 10 ^ 10) :
    ∃ κ, Represents (.ofList s.points) (fullMesh A n) κ := by
  obtain ⟨hk, -⟩ := setup_tuple_ok A width n physical rsK s h
  obtain ⟨hpos, -, hs⟩ := kMesh_ok A n physical s hk
  set la := meshLine (A.numberOfTransformations 0).isNone (n 0) with hla
  set lb := meshLine (A.numberOfTransformations 1).isNone (n 1) with hlb
  set lc := meshLine (A.numberOfTransformations 2).isNone (n 2) with hlc
  have hfar : ((meshPoints la lb lc).map (shear A)).Pairwise (FarApart 2e-10) :=
    meshPoints_far A la lb lc _ (meshLine_sep _ _ (hpos 0) (hn 0))
      (meshLine_sep _ _ (hpos 1) (hn 1)) (meshLine_sep _ _ (hpos 2) (hn 2))
  have hmem : ∀ p ∈ (meshPoints la lb lc).map (shear A), ∃ j : Fin 3 → ℕ, p = meshPoint A n j := by
    intro p hp
    simp only [List.mem_map, mem_meshPoints, hla, hlb, hlc, meshLine, List.mem_range] at hp
    obtain ⟨k, ⟨⟨j0, -, e0⟩, ⟨j1, -, e1⟩, ⟨j2, -, e2⟩⟩, rfl⟩ := hp
    refine ⟨![j0, j1, j2], ?_⟩
    unfold meshPoint
    congr 1
    ext i; fin_cases i
    · exact e0.symm
    · exact e1.symm
    · exact e2.symm
  have hfull : fullMesh A n = .ofList (((meshPoints la lb lc).map (shear A)).map fun p =>
      (p, 1 / ((n 0 * n 1 * n 2 : ℤ) : ℝ))) := by
    unfold fullMesh
    congr 1
    simp only [meshPoints, hla, hlb, hlc, meshLine, List.map_map, List.map_flatMap, List.flatMap_map]
    refine List.flatMap_congr fun a _ => List.flatMap_congr fun b _ => List.map_congr_left fun c _ => ?_
    simp only [Function.comp]
    congr 1
    unfold meshPoint
    congr 1
    funext i
    fin_cases i <;> rfl
  rw [hfull, hs]
  refine represents_merge _ _ hfar ?_
  intro p hp q hq hc
  obtain ⟨a, rfl⟩ := hmem p hp
  obtain ⟨b, rfl⟩ := hmem q hq
  exact meshPoint_cancel A n hpos hn _ _ hc

end Hotbit
