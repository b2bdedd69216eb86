import Verif.Lemmas.KMesh

/-!
# Sums over the reduced k-point mesh
-/

namespace Hotbit

open Real

theorem meshLine_opposite (inf : Bool) (n : ℤ) (hn : 1 ≤ n) (hn' : n ≤ 10 ^ 10) (x y : ℝ)
    (hx : x ∈ meshLine inf n) (hy : y ∈ meshLine inf n) (h : |x + y| < 1e-10) : x + y = 0 := by
  have hn0 : (0 : ℝ) < n := by exact_mod_cast hn
  have hn1 : (n : ℝ) ≤ 10 ^ 10 := by exact_mod_cast hn'
  have key : ∃ m : ℤ, x + y = 2 * π * m / n := by
    simp only [meshLine, List.mem_map, List.mem_range] at hx hy
    obtain ⟨a, -, rfl⟩ := hx
    obtain ⟨b, -, rfl⟩ := hy
    unfold meshCoord
    cases inf
    · refine ⟨a + b, ?_⟩
      simp only [Bool.false_eq_true, if_false]
      push_cast
      ring
    · refine ⟨a + b + 1 - n, ?_⟩
      simp only [if_true]
      push_cast
      field_simp
      ring
  obtain ⟨m, hm⟩ := key
  by_cases h0 : m = 0
  · rw [hm, h0]; simp
  exfalso
  have h1 : (1 : ℝ) ≤ |(m : ℝ)| := by exact_mod_cast Int.one_le_abs h0
  rw [hm, abs_div, abs_of_pos hn0, div_lt_iff₀ hn0, abs_mul, abs_of_pos (by positivity)] at h
  have h2 := pi_gt_three
  have h3 : (1e-10 : ℝ) * n ≤ 1 := by
    calc (1e-10 : ℝ) * n ≤ 1e-10 * 10 ^ 10 := by gcongr
      _ = 1 := by norm_num
  nlinarith

theorem mesh_opposite (A : Atoms) (n : Fin 3 → ℤ) (hn : ∀ i, 1 ≤ n i) (hn' : ∀ i, n i ≤ 10 ^ 10)
    (p q : Vec)
    (hp : p ∈ (meshPoints (meshLine (A.numberOfTransformations 0).isNone (n 0))
      (meshLine (A.numberOfTransformations 1).isNone (n 1))
      (meshLine (A.numberOfTransformations 2).isNone (n 2))).map (shear A))
    (hq : q ∈ (meshPoints (meshLine (A.numberOfTransformations 0).isNone (n 0))
      (meshLine (A.numberOfTransformations 1).isNone (n 1))
      (meshLine (A.numberOfTransformations 2).isNone (n 2))).map (shear A))
    (h : norm3 (p + q) < 1e-10) : p = -q := by
  obtain ⟨p, hp', rfl⟩ := List.mem_map.1 hp
  obtain ⟨q, hq', rfl⟩ := List.mem_map.1 hq
  clear hp hq
  have hp := (mem_meshPoints _ _ _ _).1 hp'
  have hq := (mem_meshPoints _ _ _ _).1 hq'
  have hc : ∀ i, |shear A p i + shear A q i| < 1e-10 := fun i =>
    (abs_le_norm3 (shear A p + shear A q) i).trans_lt h
  have e1 : p 1 + q 1 = 0 := by
    refine meshLine_opposite _ _ (hn 1) (hn' 1) _ _ hp.2.1 hq.2.1 ?_
    have := hc 1
    unfold shear at this
    split at this <;> exact this
  have e2 : p 2 + q 2 = 0 := by
    refine meshLine_opposite _ _ (hn 2) (hn' 2) _ _ hp.2.2 hq.2.2 ?_
    have := hc 2
    unfold shear at this
    split at this <;> exact this
  have e0 : p 0 + q 0 = 0 := by
    refine meshLine_opposite _ _ (hn 0) (hn' 0) _ _ hp.1 hq.1 ?_
    have := hc 0
    unfold shear at this
    split at this
    · have e : p 0 + q 0 = p 0 + (pyRound (2 * A.cell 0 1) : ℝ) * p 2 / 2
          + (q 0 + (pyRound (2 * A.cell 0 1) : ℝ) * q 2 / 2) := by
        rw [eq_neg_of_add_eq_zero_left e2]; ring
      rw [e]
      exact this
    · exact this
  have f0 := eq_neg_of_add_eq_zero_left e0
  have f1 := eq_neg_of_add_eq_zero_left e1
  have f2 := eq_neg_of_add_eq_zero_left e2
  unfold shear
  ext i
  split <;> fin_cases i <;> simp [f0, f1, f2] <;> ring

theorem sum_weight_if (w : ℝ) (g : Vec → ℝ) (P : Vec → Prop) [DecidablePred P]
    (acc : List (Vec × ℝ)) :
    ((acc.map fun q => if P q.1 then (q.1, q.2 + w) else q).map fun q => q.2 * g q.1).sum
      = (acc.map fun q => q.2 * g q.1).sum
        + w * ((acc.map Prod.fst).filter (fun k => decide (P k))|>.map g).sum := by
  induction acc with
  | nil => simp
  | cons a acc ih =>
    simp only [List.map_cons, List.sum_cons, List.filter_cons]
    rw [ih]
    by_cases h : P a.1
    · simp only [h, if_true, decide_true, List.map_cons, List.sum_cons]
      ring
    · simp only [h, if_false, decide_false]
      simp only [Bool.false_eq_true, if_false]
      ring

theorem mergePoint_sum (w : ℝ) (g : Vec → ℝ) (hg : ∀ k, g (-k) = g k) (acc : List (Vec × ℝ)) (p : Vec)
    (hnd : (acc.map Prod.fst).Nodup)
    (hex : ∀ q ∈ acc.map Prod.fst, norm3 (q + p) < 1e-10 → q = -p) :
    ((mergePoint w acc p).map fun q => q.2 * g q.1).sum
      = (acc.map fun q => q.2 * g q.1).sum + w * g p := by
  classical
  unfold mergePoint
  split_ifs with h
  · rw [sum_weight_if w g (fun k => norm3 (k + p) < 1e-10)]
    congr 2
    obtain ⟨q, hq, hc⟩ := List.any_eq_true.1 h
    rw [decide_eq_true_eq] at hc
    have hq' : q.1 ∈ acc.map Prod.fst := List.mem_map_of_mem hq
    have hf : (acc.map Prod.fst).filter (fun k => decide (norm3 (k + p) < 1e-10)) = [q.1] := by
      have e : (acc.map Prod.fst).filter (fun k => decide (norm3 (k + p) < 1e-10))
          = (acc.map Prod.fst).filter (fun k => decide (k = q.1)) := by
        refine List.filter_congr fun k hk => ?_
        rw [decide_eq_decide]
        constructor
        · intro hkp
          rw [hex k hk hkp, hex _ hq' hc]
        · rintro rfl
          exact hc
      rw [e]
      have : (fun k => decide (k = q.1)) = fun k => k == q.1 := by
        funext k
        exact (beq_eq_decide k q.1).symm
      rw [this, List.filter_beq, List.count_eq_one_of_mem hnd hq']
      rfl
    rw [hf]
    simp only [List.map_cons, List.map_nil, List.sum_cons, List.sum_nil, add_zero]
    rw [hex _ hq' hc, hg]
  · simp

theorem mergeAll_sum (w : ℝ) (g : Vec → ℝ) (hg : ∀ k, g (-k) = g k) (mesh : List Vec)
    (hfar : mesh.Pairwise (FarApart 2e-10))
    (hex : ∀ p ∈ mesh, ∀ q ∈ mesh, norm3 (p + q) < 1e-10 → p = -q) :
    ((mesh.foldl (mergePoint w) []).map fun q => q.2 * g q.1).sum = w * (mesh.map g).sum := by
  induction mesh using List.reverseRecOn with
  | nil => simp
  | append_singleton L p ih =>
    have hL : L.Pairwise (FarApart 2e-10) := (List.pairwise_append.1 hfar).1
    have inv := mergeAll_inv w L hL
    have hnd : L.Nodup := by
      refine hL.imp ?_
      rintro a b ⟨i, hi⟩ rfl
      simp at hi; norm_num at hi
    rw [List.foldl_append, List.foldl_cons, List.foldl_nil,
      mergePoint_sum w g hg _ p (inv.sub.nodup hnd),
      ih hL fun a ha b hb => hex a (by simp [ha]) b (by simp [hb])]
    · rw [List.map_append, List.sum_append]
      simp only [List.map_cons, List.map_nil, List.sum_cons, List.sum_nil, add_zero]
      ring
    · intro q hq
      exact hex q (by simp [inv.sub.subset hq]) p (by simp)

theorem meshPoints_sum (a b c : List ℝ) (f : Vec → ℝ) :
    ((meshPoints a b c).map f).sum
      = (a.map fun x => (b.map fun y => (c.map fun z => f ![x, y, z]).sum).sum).sum := by
  have e : ∀ {β : Type} (l : List β) (F : β → List Vec), ((l.flatMap F).map f).sum
      = (l.map fun x => ((F x).map f).sum).sum := by
    intro β l F
    induction l with
    | nil => simp
    | cons x l ih => rw [List.flatMap_cons, List.map_append, List.sum_append, ih]; rfl
  unfold meshPoints
  simp only [e, List.map_map]
  rfl

/-- The weighted sum over the kept points is the mean over the whole mesh. -/
theorem sampling_mean (A : Atoms) (width : ℝ) (n : Fin 3 → ℤ) (physical rsK : Bool)
    (s : KSampling) (h : setupKSampling A width (.tuple n) physical rsK = .ok s)
    (hn : ∀ i, n i ≤ 10 ^ 10) (g : Vec → ℝ) (hg : ∀ k, g (-k) = g k) :
    (s.points.map fun q => q.2 * g q.1).sum
      = (∑ a ∈ Finset.range (n 0).toNat, ∑ b ∈ Finset.range (n 1).toNat,
          ∑ c ∈ Finset.range (n 2).toNat, g (meshPoint A n ![a, b, c])) / (n 0 * n 1 * n 2) := by
  obtain ⟨hk, -⟩ := setup_tuple_ok A width n physical rsK s h
  obtain ⟨hpos, -, hs⟩ := kMesh_ok A n physical s hk
  rw [hs, mergeAll_sum _ g hg _ (meshPoints_far A _ _ _ _ (meshLine_sep _ _ (hpos 0) (hn 0))
      (meshLine_sep _ _ (hpos 1) (hn 1)) (meshLine_sep _ _ (hpos 2) (hn 2)))
    (fun p hp q hq hc => mesh_opposite A n hpos hn p q hp hq hc), List.map_map, meshPoints_sum]
  unfold meshLine
  simp only [List.map_map]
  have e : ∀ (m : ℕ) (f : ℕ → ℝ), ((List.range m).map f).sum = ∑ j ∈ Finset.range m, f j := by
    intro m f
    rw [Finset.sum_range, ← List.sum_ofFn, List.ofFn_eq_map, ← List.map_coe_finRange_eq_range,
      List.map_map]
    rfl
  simp only [e]
  have hd : ((n 0 * n 1 * n 2 : ℤ) : ℝ) = n 0 * n 1 * n 2 := by push_cast; rfl
  rw [hd, one_div_mul_eq_div]
  congr 1
  refine Finset.sum_congr rfl fun a _ => ?_
  refine Finset.sum_congr rfl fun b _ => ?_
  refine Finset.sum_congr rfl fun c _ => ?_
  simp only [Function.comp]
  congr 1
  unfold meshPoint
  congr 1
  ext i; fin_cases i <;> rfl

end Hotbit
