import Verif.Lemmas.Telescope
import Verif.Lemmas.Coulomb

/-!
# C45, C82: the telescoped multipole expansion sums over every cell once, with a bounded error
-/

namespace Hotbit

open Finset

set_option linter.unusedSimpArgs false
set_option linter.unusedSectionVars false

section
variable {s : MP} {A : Atoms} {n : Op} {K : ℕ} {c : Vec}

theorem dipoleCorr_eq (t : TeleCase s A n K c) (hl : 1 ≤ s.lmax) (qr : List (ℝ × Vec)) (M0 : Moments)
    (hM : IsMoments s.lmax M0 qr c) : dipoleCorr A M0 = surfaceDipole A qr c := by
  unfold dipoleCorr surfaceDipole
  have hiff : ((A.ranges 0).2 = .posInf ∧ (A.ranges 1).2 = .posInf ∧ (A.ranges 2).2 = .posInf) ↔
      ∀ d, A.ranges d = rangeInf := by
    have one : ∀ d, (A.ranges d).2 = .posInf ↔ A.ranges d = rangeInf := by
      intro d
      rcases t.pure d with h | h
      · rw [h]; simp [rangeInf]
      · rw [h]; simp [rangeInf, rangeZero]
    rw [one, one, one, Fin.forall_fin_succ, Fin.forall_fin_succ, Fin.forall_fin_one]
    rfl
  by_cases h : ∀ d, A.ranges d = rangeInf
  · rw [if_pos (hiff.2 h), if_pos h]
    unfold Atoms.volume
    congr 1
    obtain ⟨d0, d1, d2⟩ := c60_dipole s.lmax hl qr c M0 hM
    have hs : ∀ d, (qr.map fun a => a.1 • (a.2 - c)).sum d = (qr.map fun a => a.1 * (a.2 d - c d)).sum := by
      intro d
      clear d0 d1 d2 hM
      induction qr with
      | nil => rfl
      | cons a qr ih => simp only [List.map_cons, List.sum_cons, Pi.add_apply, ih]; simp
    funext d
    fin_cases d
    · exact d0.trans (hs 0).symm
    · exact d1.trans (hs 1).symm
    · exact d2.trans (hs 2).symm
  · rw [if_neg (by rw [hiff]; exact h), if_neg h]

theorem nearImage_ok (t : TeleCase s A n K c) (qr : List (ℝ × Vec)) (x : Op) (hx : x ∈ imageBox A n 1) :
    nearImage A c qr x = .ok (imageCharges A qr x) := by
  have hb : blockOp n 0 x = x := by funext d; simp [blockOp]
  have h1 := t.transform_ok (i := 0) hx c
  have h2 := t.rotation_ok (i := 0) hx
  rw [hb] at h1 h2
  unfold nearImage
  rw [h1, h2]
  show Except.ok _ = Except.ok _
  congr 1
  unfold imageCharges
  refine List.map_congr_left fun a _ => ?_
  rw [← rawTransform_sub A t.comm]
  congr 1
  abel

theorem pairField_hasDerivAt (qr : List (ℝ × Vec)) (x u : Vec) (h : ∀ a ∈ qr, a.2 ≠ x) :
    HasDerivAt (fun e : ℝ => chargePot qr (x + e • u)) (-(pairField qr x ⬝ᵥ u)) 0 := by
  unfold chargePot pairField
  induction qr with
  | nil => simpa using hasDerivAt_const (0 : ℝ) (0 : ℝ)
  | cons a qr ih =>
    simp only [List.map_cons, List.sum_cons]
    have i := ih fun b hb => h b (List.mem_cons_of_mem _ hb)
    have hne : x - a.2 ≠ 0 := sub_ne_zero.2 (h a List.mem_cons_self).symm
    have d := (inv_norm_pow_hasDerivAt (x - a.2) u hne 1).const_mul a.1
    refine (d.add i).congr_deriv ?_ |>.congr_of_eventuallyEq ?_
    · rw [add_dotProduct, neg_add, smul_dotProduct]
      congr 1
      rw [show (x - a.2) ⬝ᵥ u = (x - a.2) 0 * u 0 + (x - a.2) 1 * u 1 + (x - a.2) 2 * u 2 by
        rw [dotProduct, Fin.sum_univ_three]]
      simp only [smul_eq_mul, inv_pow, div_eq_mul_inv, Nat.cast_one, pow_succ, pow_zero]
      ring
    · refine Filter.Eventually.of_forall fun e => ?_
      simp only [Pi.add_apply, pow_one]
      rw [div_eq_mul_inv, show x - a.2 + e • u = x + e • u - a.2 by abel]

theorem dot_line_hasDerivAt (a b u v : Vec) :
    HasDerivAt (fun e : ℝ => (a + e • u - b) ⬝ᵥ v) (u ⬝ᵥ v) 0 := by
  have e : (fun e : ℝ => (a + e • u - b) ⬝ᵥ v) = fun e : ℝ => (a - b) ⬝ᵥ v + e * (u ⬝ᵥ v) := by
    funext e
    rw [show a + e • u - b = (a - b) + e • u by abel, add_dotProduct, smul_dotProduct, smul_eq_mul]
  rw [e]
  simpa using ((hasDerivAt_id (0 : ℝ)).mul_const (u ⬝ᵥ v)).const_add ((a - b) ⬝ᵥ v)

theorem list_map_sum_dot {α : Type} (l : List α) (f : α → Vec) (u : Vec) :
    (l.map f).sum ⬝ᵥ u = (l.map fun x => f x ⬝ᵥ u).sum := by
  induction l with
  | nil => simp
  | cons a l ih => simp [add_dotProduct, ih]

theorem near_list (t : TeleCase s A n K c) (f : Op → ℝ) :
    (((cellOps fun d => nFromRanges2 (s.n1 d) (s.n2 d) (A.ranges d)).filter fun x => decide (x ≠ 0)).map f).sum =
      ∑ z ∈ imageBox A n 1 \ {0}, f z := by
  classical
  rw [← List.sum_toFinset f ((cellOps_nodup _).filter _)]
  refine Finset.sum_congr ?_ fun _ _ => rfl
  ext x
  rw [List.mem_toFinset, List.mem_filter, t.mem_near, Finset.mem_sdiff, Finset.mem_singleton]
  simp

/-- What `_update` computes. -/
theorem body_ok (t : TeleCase s A n K c) (hl : 1 ≤ s.lmax) (junk : Moments) (qr : List (ℝ × Vec)) (M0 : Moments)
    (hM : IsMoments s.lmax M0 qr c)
    (hne : ∀ j < K - 1, ∀ x ∈ imageBox A n 2 \ imageBox A n 1, A.rawTransform c (blockOp n j x) ≠ c) :
    ∃ s' L phi E, mpBody s A junk qr c M0 = .ok s' ∧ s'.q = s.q ∧ s'.lmax = s.lmax ∧
      s'.L = some L ∧ s'.phi = some phi ∧ s'.E = some E ∧
      s'.M.length = K - 2 + 1 ∧
      (∀ i ≤ K - 2, IsMoments s.lmax (s'.M.getD i Moments.zero) (blockCharges A n i qr) c) ∧
      (∀ u, localPot s.lmax L u = ∑ j ∈ range (K - 1), passPot A n s.lmax junk c u s'.M j) ∧
      phi = qr.zipIdx.map (fun a => localPot s.lmax L (a.1.2 - c) + latticePot A n 1 qr a.2 a.1.2
        - (a.1.2 - c) ⬝ᵥ surfaceDipole A qr c) ∧
      E.length = qr.length ∧
      ∀ i b, qr[i]? = some b → (∀ a ∈ qr.eraseIdx i, a.2 ≠ b.2) →
        (∀ z ∈ imageBox A n 1 \ {0}, ∀ a ∈ imageCharges A qr z, a.2 ≠ b.2) → ∀ u : Vec,
        HasDerivAt (fun e : ℝ => localPot s.lmax L (b.2 + e • u - c) + latticePot A n 1 qr i (b.2 + e • u)
          - (b.2 + e • u - c) ⬝ᵥ surfaceDipole A qr c) (-(E.getD i 0 ⬝ᵥ u)) 0 := by
  have hk1 : (s.kMax - 2).toNat = K - 2 := by rw [t.kMax]; omega
  have hk2 : (s.kMax - 1).toNat = K - 1 := by rw [t.kMax]; omega
  obtain ⟨st, e1, inv⟩ := tele_ok t junk qr M0 hM (K - 2) (le_refl _)
  obtain ⟨lst, e2, -, -, hpot⟩ := loc_ok t junk st.Ms st.cs
    (fun i hi => inv.cs i (by have := t.hK; omega)) hne st.level inv.level (K - 1) (le_refl _)
  have e3 := mapM_ok_of_forall (nearImage A c qr) (imageCharges A qr)
    ((cellOps fun d => nFromRanges2 (s.n1 d) (s.n2 d) (A.ranges d)).filter fun x => decide (x ≠ 0))
    (fun x hx => nearImage_ok t qr x ((t.mem_near x).1 (List.mem_filter.1 hx).1))
  have hthrow : ¬ ∃ d : Fin 3, (A.ranges d).2 ≠ .posInf ∧ s.k d ≠ 1 := by
    rintro ⟨d, h1, h2⟩
    rcases t.pure d with h | h
    · rw [h] at h1; exact h1 rfl
    · exact h2 (t.kZero d h)
  have hlen : ((st.Ms.length : ℤ) - 1) = ((K - 2 : ℕ) : ℤ) := by rw [inv.len]; push_cast; ring
  let imgs := ((cellOps fun d => nFromRanges2 (s.n1 d) (s.n2 d) (A.ranges d)).filter fun x => decide (x ≠ 0)).map
    (imageCharges A qr)
  let loc := fun r => l2l (r - c) s.lmax lst.L 1 Moments.zero junk
  let phi := qr.zipIdx.map fun a =>
    (loc a.1.2).l0 0 + (imgs.map fun im => pairPot im a.1.2).sum + pairPot (others qr a.2) a.1.2
      - (a.1.2 - c) ⬝ᵥ dipoleCorr A M0
  let E := qr.zipIdx.map fun a =>
    ![-((loc a.1.2).lm 0).re, -((loc a.1.2).lm 0).im, (loc a.1.2).l0 1]
      + (imgs.map fun im => pairField im a.1.2).sum + pairField (others qr a.2) a.1.2 + dipoleCorr A M0
  refine ⟨{ s with M := st.Ms, r0 := st.cs, L := some lst.L, phi := some phi, E := some E }, lst.L, phi, E,
    ?_, rfl, rfl, rfl, rfl, rfl, inv.len, inv.Ms, ?_, ?_, ?_, ?_⟩
  · unfold mpBody
    rw [if_neg hthrow, hk1, hk2]
    dsimp only [pure_bind]
    show (do let t ← List.foldlM (teleStep s A junk) ⟨M0, c, 1, [M0], [c]⟩ (List.range (K - 2)); _) = _
    rw [e1]
    show (do let l ← List.foldlM (locStep s A junk st.Ms st.cs) ⟨Moments.zero, st.level, (st.Ms.length : ℤ) - 1⟩ (List.range (K - 1)); _) = _
    rw [hlen, e2]
    show (do let imgs ← List.mapM (nearImage A c qr) ((cellOps fun d => nFromRanges2 (s.n1 d) (s.n2 d) (A.ranges d)).filter fun x => decide (x ≠ 0)); _) = _
    rw [e3]
    rfl
  · intro u
    rw [hpot u, ← Finset.sum_range_reflect]
    refine Finset.sum_congr rfl fun i hi => ?_
    rw [Finset.mem_range] at hi
    congr 1
    omega
  · refine List.map_congr_left fun a _ => ?_
    rw [show (loc a.1.2).l0 0 = localPot s.lmax lst.L (a.1.2 - c) from c79_value _ _ _ _ _,
      dipoleCorr_eq t hl qr M0 hM]
    unfold latticePot
    simp only [imgs]
    rw [List.map_map]
    have := near_list t fun z => chargePot (imageCharges A qr z) a.1.2
    rw [← this]
    show localPot _ _ _ + _ + chargePot _ _ - _ = _
    rw [show (others qr a.2) = qr.eraseIdx a.2 from rfl]
    simp only [Function.comp_def]
    unfold chargePot pairPot
    ring
  · simp [E]
  · intro i b hb h1 h2 u
    have hE : ∀ f : (ℝ × Vec) × ℕ → Vec, (qr.zipIdx.map f).getD i 0 = f (b, i) := by
      intro f
      rw [List.getD_eq_getElem?_getD, List.getElem?_map, List.getElem?_zipIdx, hb]
      simp
    rw [hE]
    have d1 := c79_field (b.2 - c) u s.lmax 1 hl le_rfl lst.L junk
    have d2 := pairField_hasDerivAt (qr.eraseIdx i) b.2 u h1
    have d3 := HasDerivAt.fun_sum (u := imageBox A n 1 \ {0})
      (A := fun z (e : ℝ) => chargePot (imageCharges A qr z) (b.2 + e • u))
      (A' := fun z => -(pairField (imageCharges A qr z) b.2 ⬝ᵥ u)) (x := (0 : ℝ))
      (fun z hz => pairField_hasDerivAt _ b.2 u (h2 z hz))
    have d4 := dot_line_hasDerivAt b.2 c u (surfaceDipole A qr c)
    have d := (d1.add (d2.add d3)).sub d4
    refine (d.congr_deriv ?_).congr_of_eventuallyEq ?_
    · rw [dipoleCorr_eq t hl qr M0 hM, add_dotProduct, add_dotProduct, add_dotProduct, List.map_map, list_map_sum_dot,
        near_list t fun z => ((fun im => pairField im b.2) ∘ imageCharges A qr) z ⬝ᵥ u, dotProduct_comm (surfaceDipole A qr c) u]
      rw [Finset.sum_neg_distrib]
      simp only [dotProduct, Fin.sum_univ_three, Function.comp_apply, others, Matrix.cons_val_zero, Matrix.cons_val_one,
        Matrix.cons_val]
      ring
    · refine Filter.Eventually.of_forall fun e => ?_
      simp only [Pi.add_apply, Pi.sub_apply, latticePot]
      rw [show b.2 - c + e • u = b.2 + e • u - c by abel]

end

/-- The cases in which the telescoping is right: commuting operations, every direction with all or no
powers of its operation, an odd number of cells in each block, the same `k` in all infinite directions (and 1
in the others), and a centre that is half-way between opposite images. -/
structure RegularCase (A : Atoms) (n k : Op) (K : ℕ) (c : Vec) : Prop where
  comm : Commuting A.ctype
  pure : PureRanges A
  odd : ∀ d, ∃ h : ℤ, 0 ≤ h ∧ n d = 2 * h + 1
  hK : 1 ≤ K
  kPer : ∀ d, A.ranges d = rangeInf → k d = K
  kZero : ∀ d, A.ranges d = rangeZero → k d = 1
  some_inf : K = 1 ∨ ∃ d, A.ranges d = rangeInf
  centre : CentreSymmetric A c

/-- The constructor and the regular case. -/
theorem init_teleCase {lmax : ℤ} {n k : Op} {r0 : Option Vec} {s : MP}
    (hs : mpInit lmax (.seq [n 0, n 1, n 2]) (.seq [k 0, k 1, k 2]) r0 = .ok s) {A : Atoms} {K : ℕ} {c : Vec}
    (h : RegularCase A n k K c) (s' : MP) (h1 : s'.n1 = s.n1) (h2 : s'.n2 = s.n2) (h3 : s'.m1 = s.m1)
    (h4 : s'.m2 = s.m2) (h5 : s'.k = s.k) : TeleCase s' A n K c := by
  unfold mpInit at hs
  split_ifs at hs
  simp only [Except.ok.injEq] at hs
  have e3 : ∀ (f : Op) (d : Fin 3), (IntArg.seq [f 0, f 1, f 2]).toList.getD d 0 = f d := by
    intro f d; fin_cases d <;> rfl
  simp only [e3] at hs
  have hk : ∀ d, s'.k d = k d := by intro d; rw [h5, ← hs]
  refine ⟨h.comm, h.pure, h.odd, ?_, ?_, ?_, ?_, h.hK, fun d e => (hk d).trans (h.kPer d e),
    fun d e => (hk d).trans (h.kZero d e), ?_, h.centre⟩
  · intro d; rw [h1, ← hs]
  · intro d; rw [h2, ← hs]
  · intro d; rw [h3, ← hs]
  · intro d; rw [h4, ← hs]
  · unfold MP.kMax
    have hv : ∀ d, s'.k d ≤ K ∧ (A.ranges d = rangeInf → s'.k d = K) ∧ 1 ≤ s'.k d := by
      intro d
      have := h.hK
      rcases h.pure d with e | e
      · rw [hk, h.kPer d e]; exact ⟨le_refl _, fun _ => rfl, by omega⟩
      · rw [hk, h.kZero d e]; exact ⟨by omega, fun e' => absurd (e'.symm.trans e) rangeInf_ne, le_refl _⟩
    have v0 := hv 0
    have v1 := hv 1
    have v2 := hv 2
    rcases h.some_inf with e | ⟨d, e⟩
    · subst e; omega
    · have := (hv d).2.1 e
      fin_cases d
      · simp only [Fin.zero_eta] at this; omega
      · simp only [Fin.mk_one] at this; omega
      · simp only [Fin.reduceFinMk] at this; omega

theorem init_fields {lmax : ℤ} {n k : IntArg} {r0 : Option Vec} {s : MP} (hs : mpInit lmax n k r0 = .ok s) :
    1 ≤ lmax ∧ s.lmax = lmax.toNat ∧ s.r0v = r0 ∧ s.r = none ∧ s.q = none := by
  unfold mpInit at hs
  split_ifs at hs with h0
  simp only [Except.ok.injEq] at hs
  subst hs
  exact ⟨by omega, rfl, rfl, rfl, rfl⟩

section
variable {lmax : ℤ} {n k : Op} {r0 : Option Vec} {s : MP} {A : Atoms} {K : ℕ} {q : List ℝ}

theorem Separated.ne {A : Atoms} {n : Op} {K : ℕ} {qr : List (ℝ × Vec)} {c x : Vec} (h : Separated A n K qr c x)
    (h0 : ∀ j < K - 1, blockCharges A n j qr ≠ []) :
    ∀ j < K - 1, ∀ w ∈ imageBox A n 2 \ imageBox A n 1, A.rawTransform c (blockOp n j w) ≠ c := by
  intro j hj w hw e
  obtain ⟨a, ha⟩ := List.exists_mem_of_ne_nil _ (h0 j hj)
  have := h j hj w hw a ha
  rw [e, sub_self, norm3_eq_zero.2 rfl] at this
  have := norm3_nonneg (x - c)
  have := norm3_nonneg (a.2 - c)
  linarith

/-- What an update computes, for an object that has just been made. -/
theorem update_ok (hs : mpInit lmax (.seq [n 0, n 1, n 2]) (.seq [k 0, k 1, k 2]) r0 = .ok s)
    (h : RegularCase A n k K (chargeCentre r0 A)) (junk : Moments)
    (hne : ∀ j < K - 1, ∀ x ∈ imageBox A n 2 \ imageBox A n 1,
      A.rawTransform (chargeCentre r0 A) (blockOp n j x) ≠ chargeCentre r0 A) :
    ∃ s' L phi E, mpUpdate junk s A q = (s', .ok ()) ∧ s'.q = some q ∧ s'.lmax = lmax.toNat ∧
      s'.L = some L ∧ s'.phi = some phi ∧ s'.E = some E ∧
      s'.M.length = K - 2 + 1 ∧
      (∀ i ≤ K - 2, IsMoments lmax.toNat (s'.M.getD i Moments.zero) (blockCharges A n i (q.zip A.positions))
        (chargeCentre r0 A)) ∧
      (∀ u, localPot lmax.toNat L u = ∑ j ∈ range (K - 1), passPot A n lmax.toNat junk (chargeCentre r0 A) u s'.M j) ∧
      phi = (q.zip A.positions).zipIdx.map (fun a => localPot lmax.toNat L (a.1.2 - chargeCentre r0 A)
        + latticePot A n 1 (q.zip A.positions) a.2 a.1.2
        - (a.1.2 - chargeCentre r0 A) ⬝ᵥ surfaceDipole A (q.zip A.positions) (chargeCentre r0 A)) ∧
      E.length = (q.zip A.positions).length ∧
      ∀ i b, (q.zip A.positions)[i]? = some b → (∀ a ∈ (q.zip A.positions).eraseIdx i, a.2 ≠ b.2) →
        (∀ z ∈ imageBox A n 1 \ {0}, ∀ a ∈ imageCharges A (q.zip A.positions) z, a.2 ≠ b.2) → ∀ u : Vec,
        HasDerivAt (fun e : ℝ => localPot lmax.toNat L (b.2 + e • u - chargeCentre r0 A)
          + latticePot A n 1 (q.zip A.positions) i (b.2 + e • u)
          - (b.2 + e • u - chargeCentre r0 A) ⬝ᵥ surfaceDipole A (q.zip A.positions) (chargeCentre r0 A))
          (-(E.getD i 0 ⬝ᵥ u)) 0 := by
  obtain ⟨hl, f1, f2, f3, f4⟩ := init_fields hs
  have hc : mpCentre s A = chargeCentre r0 A := by
    unfold mpCentre; rw [f2]; cases r0 <;> rfl
  set c := chargeCentre r0 A with hcdef
  have hu : mpUpdate junk s A q = mpCompute junk s A q := by
    unfold mpUpdate; rw [if_pos (Or.inl f3)]
  set s1 : MP := { s with r := some A.positions, q := some q, M := [getMoments s.lmax (q.zip A.positions) c], r0 := [c] }
    with hs1
  have t := init_teleCase hs h s1 rfl rfl rfl rfl rfl
  obtain ⟨s', L, phi, E, hb, g1, g2, g3⟩ := body_ok t (by rw [hs1]; show 1 ≤ s.lmax; omega) junk (q.zip A.positions)
    (getMoments s.lmax (q.zip A.positions) c) (c60_moments _ _ _) hne
  have hl' : s1.lmax = lmax.toNat := f1
  rw [hl'] at g2 g3
  refine ⟨s', L, phi, E, ?_, g1, g2, g3⟩
  rw [hu]
  unfold mpCompute
  simp only [hc]
  rw [hb]

/-- C45: the moments kept for level `j` are those of all the charges in the block of `n^j` cells. -/
theorem c45_moments (hs : mpInit lmax (.seq [n 0, n 1, n 2]) (.seq [k 0, k 1, k 2]) r0 = .ok s)
    (h : RegularCase A n k K (chargeCentre r0 A)) (junk : Moments) 
    (hne : ∀ j < K - 1, ∀ x ∈ imageBox A n 2 \ imageBox A n 1,
      A.rawTransform (chargeCentre r0 A) (blockOp n j x) ≠ chargeCentre r0 A) :
    (mpUpdate junk s A q).2 = .ok () ∧ (mpUpdate junk s A q).1.M.length = max (K - 1) 1 ∧
    ∀ j < max (K - 1) 1, IsMoments lmax.toNat ((mpUpdate junk s A q).1.M.getD j Moments.zero)
      (blockCharges A n j (q.zip A.positions)) (chargeCentre r0 A) := by
  obtain ⟨s', L, phi, E, e, g1, g2, g3, g4, g5, g6, g7, -⟩ := update_ok (q := q) hs h junk hne
  rw [e]
  have := h.hK
  refine ⟨rfl, by rw [g6]; omega, fun j hj => g7 j (by omega)⟩

/-- The local expansion is the sum over the far cells up to the error bound. -/
theorem local_error (hs : mpInit lmax (.seq [n 0, n 1, n 2]) (.seq [k 0, k 1, k 2]) r0 = .ok s)
    (h : RegularCase A n k K (chargeCentre r0 A)) (junk : Moments) (Ms : List Moments) (p : ℕ) (qr : List (ℝ × Vec))
    (hM : ∀ i ≤ K - 2, IsMoments p (Ms.getD i Moments.zero) (blockCharges A n i qr) (chargeCentre r0 A))
    (hne : ∀ j < K - 1, ∀ x ∈ imageBox A n 2 \ imageBox A n 1,
      A.rawTransform (chargeCentre r0 A) (blockOp n j x) ≠ chargeCentre r0 A)
    (x : Vec) (hsep : Separated A n K qr (chargeCentre r0 A) x) :
    |(∑ z ∈ imageBox A n K, chargePot (imageCharges A qr z) x - ∑ z ∈ imageBox A n 1, chargePot (imageCharges A qr z) x)
      - ∑ j ∈ range (K - 1), passPot A n p junk (chargeCentre r0 A) (x - chargeCentre r0 A) Ms j| ≤
      farBound A n K p qr (chargeCentre r0 A) x := by
  have t := init_teleCase hs h s rfl rfl rfl rfl rfl
  set c := chargeCentre r0 A
  have hK : K - 1 + 1 = K := by have := h.hK; omega
  have tel := t.telescope (fun z => chargePot (imageCharges A qr z) x) (K - 1)
  rw [hK] at tel
  rw [← tel, ← Finset.sum_sub_distrib]
  refine (Finset.abs_sum_le_sum_abs _ _).trans ?_
  unfold farBound
  refine Finset.sum_le_sum fun j hj => ?_
  rw [Finset.mem_range] at hj
  unfold passPot
  rw [← Finset.sum_sub_distrib]
  refine (Finset.abs_sum_le_sum_abs _ _).trans (Finset.sum_le_sum fun w hw => ?_)
  have := farPot_error t p junk (x - c) (Ms.getD j Moments.zero) _ (hM j (by omega)) (blockOp n j w)
    (hne j hj w hw) (hsep j hj w hw)
  rw [add_sub_cancel] at this
  refine le_trans (le_of_eq ?_) this
  rw [block_image t.comm, chargePot_flatMap, List.map_map, Finset.sum_map_toList]
  rfl

/-- C45: the potential at each charge is that of all other charges in the unit cell and all charges of the
other `n^K-1` cells (each once), less the potential of the surface charge, up to the error bound `farBound`. -/
theorem c45_potential (hs : mpInit lmax (.seq [n 0, n 1, n 2]) (.seq [k 0, k 1, k 2]) r0 = .ok s)
    (h : RegularCase A n k K (chargeCentre r0 A)) (junk : Moments)
    (hne : ∀ j < K - 1, ∀ x ∈ imageBox A n 2 \ imageBox A n 1,
      A.rawTransform (chargeCentre r0 A) (blockOp n j x) ≠ chargeCentre r0 A)
    (hsep : ∀ b ∈ q.zip A.positions, Separated A n K (q.zip A.positions) (chargeCentre r0 A) b.2) :
    ∃ phi, mpPotential (mpUpdate junk s A q).1 = .ok phi ∧ phi.length = (q.zip A.positions).length ∧
      ∀ i b, (q.zip A.positions)[i]? = some b →
        |phi.getD i 0 - (latticePot A n K (q.zip A.positions) i b.2
          - (b.2 - chargeCentre r0 A) ⬝ᵥ surfaceDipole A (q.zip A.positions) (chargeCentre r0 A))| ≤
        farBound A n K lmax.toNat (q.zip A.positions) (chargeCentre r0 A) b.2 := by
  obtain ⟨s', L, phi, E, e, g1, g2, g3, g4, g5, g6, g7, g8, g9, -⟩ := update_ok (q := q) hs h junk hne
  have t := init_teleCase hs h s rfl rfl rfl rfl rfl
  refine ⟨phi, ?_, by rw [g9]; simp, ?_⟩
  · rw [e]; unfold mpPotential; rw [g4]
  · intro i b hb
    have hphi : phi.getD i 0 = localPot lmax.toNat L (b.2 - chargeCentre r0 A)
        + latticePot A n 1 (q.zip A.positions) i b.2
        - (b.2 - chargeCentre r0 A) ⬝ᵥ surfaceDipole A (q.zip A.positions) (chargeCentre r0 A) := by
      rw [g9, List.getD_eq_getElem?_getD, List.getElem?_map, List.getElem?_zipIdx, hb]
      simp
    have err := local_error hs h junk s'.M lmax.toNat (q.zip A.positions) g7 hne b.2
      (hsep b (List.mem_of_getElem? hb))
    have h0 : ∀ j, ({0} : Finset Op) ⊆ imageBox A n j := by
      intro j
      rw [Finset.singleton_subset_iff, imageBox_eq, mem_boxF]
      intro d
      have := t.half_nonneg j d
      simp only [Pi.zero_apply] at *
      omega
    have s1 := Finset.sum_sdiff (f := fun z => chargePot (imageCharges A (q.zip A.positions) z) b.2) (h0 1)
    have sK := Finset.sum_sdiff (f := fun z => chargePot (imageCharges A (q.zip A.positions) z) b.2) (h0 K)
    rw [← g8, ← s1, ← sK] at err
    rw [hphi, abs_sub_comm]
    refine le_trans (le_of_eq ?_) err
    unfold latticePot
    congr 1
    ring

/-- The potential outside the unit cell that the code works with: the local expansion of the far cells and the
near cells exactly (the field is its gradient). -/
noncomputable def codePot (A : Atoms) (n : Op) (L : Moments) (p : ℕ) (qr : List (ℝ × Vec)) (c : Vec) (i : ℕ) (x : Vec) : ℝ :=
  localPot p L (x - c) + latticePot A n 1 qr i x - (x - c) ⬝ᵥ surfaceDipole A qr c

/-- C45: the field at each charge is minus the gradient of the very potential whose value there is reported. -/
theorem c45_field (hs : mpInit lmax (.seq [n 0, n 1, n 2]) (.seq [k 0, k 1, k 2]) r0 = .ok s)
    (h : RegularCase A n k K (chargeCentre r0 A)) (junk : Moments)
    (hne : ∀ j < K - 1, ∀ x ∈ imageBox A n 2 \ imageBox A n 1,
      A.rawTransform (chargeCentre r0 A) (blockOp n j x) ≠ chargeCentre r0 A) :
    ∃ L phi E, (mpUpdate junk s A q).1.L = some L ∧ mpPotential (mpUpdate junk s A q).1 = .ok phi ∧
      mpField (mpUpdate junk s A q).1 = .ok E ∧ E.length = (q.zip A.positions).length ∧
      ∀ i b, (q.zip A.positions)[i]? = some b →
        phi.getD i 0 = codePot A n L lmax.toNat (q.zip A.positions) (chargeCentre r0 A) i b.2 ∧
        ((∀ a ∈ (q.zip A.positions).eraseIdx i, a.2 ≠ b.2) →
          (∀ z ∈ imageBox A n 1 \ {0}, ∀ a ∈ imageCharges A (q.zip A.positions) z, a.2 ≠ b.2) → ∀ u : Vec,
          HasDerivAt (fun e : ℝ => codePot A n L lmax.toNat (q.zip A.positions) (chargeCentre r0 A) i (b.2 + e • u))
            (-(E.getD i 0 ⬝ᵥ u)) 0) := by
  obtain ⟨s', L, phi, E, e, g1, g2, g3, g4, g5, g6, g7, g8, g9, g10, g11⟩ := update_ok (q := q) hs h junk hne
  refine ⟨L, phi, E, by rw [e]; exact g3, ?_, ?_, g10, ?_⟩
  · rw [e]; unfold mpPotential; rw [g4]
  · rw [e]; unfold mpField; rw [g5]
  · intro i b hb
    refine ⟨?_, g11 i b hb⟩
    rw [g9, List.getD_eq_getElem?_getD, List.getElem?_map, List.getElem?_zipIdx, hb]
    simp [codePot]

theorem farBound_tendsto (A : Atoms) (n : Op) (K : ℕ) (qr : List (ℝ × Vec)) (c x : Vec)
    (h : Separated A n K qr c x) :
    Filter.Tendsto (fun p => farBound A n K p qr c x) Filter.atTop (nhds 0) := by
  unfold farBound
  have hz : (0 : ℝ) = ∑ j ∈ range (K - 1), ∑ w ∈ imageBox A n 2 \ imageBox A n 1, (0 : ℝ) := by simp
  rw [hz]
  refine tendsto_finset_sum _ fun j hj => tendsto_finset_sum _ fun w hw => ?_
  have hs := h j (Finset.mem_range.1 hj) w hw
  unfold farSum
  generalize blockCharges A n j qr = l at hs
  induction l with
  | nil => simp
  | cons a l ih =>
    simp only [List.map_cons, List.sum_cons]
    have i := ih fun b hb => hs b (List.mem_cons_of_mem _ hb)
    have d := (farError_tendsto (norm3 (x - c) + norm3 (a.2 - c)) _
      (add_nonneg (norm3_nonneg _) (norm3_nonneg _)) (hs a List.mem_cons_self)).const_mul |a.1|
    simpa using d.add i

/-- C45: with growing order of the expansion the potentials converge to the sum over all the cells. -/
theorem c45_converges (s : ℕ → MP)
    (hs : ∀ p : ℕ, 1 ≤ p → mpInit p (.seq [n 0, n 1, n 2]) (.seq [k 0, k 1, k 2]) r0 = .ok (s p))
    (h : RegularCase A n k K (chargeCentre r0 A)) (junk : ℕ → Moments)
    (hne : ∀ j < K - 1, ∀ x ∈ imageBox A n 2 \ imageBox A n 1,
      A.rawTransform (chargeCentre r0 A) (blockOp n j x) ≠ chargeCentre r0 A)
    (hsep : ∀ b ∈ q.zip A.positions, Separated A n K (q.zip A.positions) (chargeCentre r0 A) b.2) (i : ℕ) (b : ℝ × Vec)
    (hb : (q.zip A.positions)[i]? = some b) :
    Filter.Tendsto (fun p => ((mpUpdate (junk p) (s p) A q).1.phi.getD []).getD i 0) Filter.atTop
      (nhds (latticePot A n K (q.zip A.positions) i b.2
          - (b.2 - chargeCentre r0 A) ⬝ᵥ surfaceDipole A (q.zip A.positions) (chargeCentre r0 A))) := by
  rw [tendsto_iff_dist_tendsto_zero]
  refine squeeze_zero' (Filter.Eventually.of_forall fun _ => dist_nonneg) ?_
    (farBound_tendsto A n K (q.zip A.positions) (chargeCentre r0 A) b.2 (hsep b (List.mem_of_getElem? hb)))
  filter_upwards [Filter.eventually_ge_atTop 1] with p hp
  obtain ⟨phi, e, -, g⟩ := c45_potential (hs p hp) h (junk p) hne hsep
  have hphi : (mpUpdate (junk p) (s p) A q).1.phi = some phi := by
    unfold mpPotential at e
    cases hh : (mpUpdate (junk p) (s p) A q).1.phi with
    | none => rw [hh] at e; simp at e
    | some v => rw [hh] at e; simp only [Except.ok.injEq] at e; rw [e]
  rw [hphi, Real.dist_eq]
  have := g i b hb
  rwa [Int.toNat_natCast] at this

/-- C45: energy and forces are those of the charges in this potential and field. -/
theorem c45_energy (hs : mpInit lmax (.seq [n 0, n 1, n 2]) (.seq [k 0, k 1, k 2]) r0 = .ok s)
    (h : RegularCase A n k K (chargeCentre r0 A)) (junk : Moments)
    (hne : ∀ j < K - 1, ∀ x ∈ imageBox A n 2 \ imageBox A n 1,
      A.rawTransform (chargeCentre r0 A) (blockOp n j x) ≠ chargeCentre r0 A) :
    ∃ phi E, mpPotential (mpUpdate junk s A q).1 = .ok phi ∧ mpField (mpUpdate junk s A q).1 = .ok E ∧
      mpEnergy (mpUpdate junk s A q).1 = .ok ((List.zipWith (· * ·) q phi).sum / 2) ∧
      mpForces (mpUpdate junk s A q).1 = .ok (List.zipWith (fun a v => a • v) q E) := by
  obtain ⟨s', L, phi, E, e, g1, g2, g3, g4, g5, -⟩ := update_ok (q := q) hs h junk hne
  refine ⟨phi, E, ?_, ?_, ?_, ?_⟩
  · rw [e]; unfold mpPotential; rw [g4]
  · rw [e]; unfold mpField; rw [g5]
  · rw [e]; unfold mpEnergy; rw [g1, g4]
  · rw [e]; unfold mpForces; rw [g1, g5]

end

/-! ### Every cell once -/

/-- The loops over the near cells. -/
def nearOps (s : MP) (rg : Ranges) : List Op := cellOps fun d => nFromRanges2 (s.n1 d) (s.n2 d) (rg d)

/-- The factors of the operations at level `j`. -/
def levelOp (s : MP) (j : ℕ) : Op := fun d => (s.n2 d - s.n1 d + 1) ^ j

/-- The cells whose charges end up in the moments of level `j`, in the order of the loops. -/
def momentCells (s : MP) (rg : Ranges) : ℕ → List Op
  | 0 => [0]
  | j + 1 => (cellOps (collapse (fun d => decide (s.k d - 2 ≤ (j : ℤ)))
      fun d => nFromRanges2 (s.n1 d) (s.n2 d) (rg d))).flatMap
      fun x => (momentCells s rg j).map fun y => y + mulOp x (levelOp s j)

/-- All cells whose charges act on the atoms: the near cells, then through the local expansion. -/
def visitedCells (s : MP) (rg : Ranges) : List Op :=
  nearOps s rg ++ (List.range (s.kMax - 1).toNat).flatMap fun (i : ℕ) =>
    ((cellOps (collapse (fun d => decide (s.k d - 1 ≤ (i : ℤ)))
      fun d => nFromRanges2 (s.m1 d) (s.m2 d) (rg d))).filter fun x => !innerCell s x).flatMap
      fun x => (momentCells s rg ((s.kMax - 2).toNat - i)).map
        fun y => y + mulOp x (levelOp s ((s.kMax - 2).toNat - i))

theorem count_eq_sum (l : List Op) (z : Op) : ((l.count z : ℕ) : ℝ) = (l.map fun x => if x = z then (1 : ℝ) else 0).sum := by
  induction l with
  | nil => simp
  | cons a l ih =>
    rw [List.count_cons, List.map_cons, List.sum_cons, ← ih]
    by_cases h : a = z
    · subst h; simp; ring
    · simp [h]

theorem list_flatMap_sum {α β : Type} (l : List α) (f : α → List β) (g : β → ℝ) :
    ((l.flatMap f).map g).sum = (l.map fun a => ((f a).map g).sum).sum := by
  induction l with
  | nil => simp
  | cons a l ih => simp [List.flatMap_cons, ih]

theorem momentCells_perm {s : MP} {A : Atoms} {n : Op} {K : ℕ} {c : Vec} (t : TeleCase s A n K c) :
    ∀ j : ℕ, j ≤ K - 2 → (momentCells s A.ranges j).Perm (imageBox A n j).toList
  | 0, _ => by
    have h0 : imageBox A n 0 = {0} := by
      have : halfWidth A n 0 = 0 := by funext d; simp [halfWidth]
      unfold imageBox
      rw [this, neg_zero, Finset.Icc_self]
    rw [h0]; simp [momentCells]
  | j + 1, hj => by
    have ih := momentCells_perm t j (by omega)
    have hlev : levelOp s j = fun d => n d ^ j := by
      funext d
      obtain ⟨g, g0, eg⟩ := t.odd d
      have e1 := t.n1 d
      have e2 := t.n2 d
      unfold levelOp
      rw [show s.n2 d - s.n1 d + 1 = n d by omega]
    unfold momentCells
    rw [t.collapse_tele j (by omega), hlev]
    refine List.Perm.trans ?_ (t.perm_blocks 1 j _ (cellOps_nodup _) t.mem_near)
    refine List.Perm.flatMap_left _ fun x _ => ?_
    exact ih.map _

/-- C45: the loops visit every cell of the block of `n^K` cells exactly once, and no other cell. -/
theorem c45_cover {lmax : ℤ} {n k : Op} {r0 : Option Vec} {s : MP} {A : Atoms} {K : ℕ} {c : Vec}
    (hs : mpInit lmax (.seq [n 0, n 1, n 2]) (.seq [k 0, k 1, k 2]) r0 = .ok s)
    (h : RegularCase A n k K c) : (visitedCells s A.ranges).Nodup ∧ ∀ z, z ∈ visitedCells s A.ranges ↔ z ∈ imageBox A n K := by
  have t := init_teleCase hs h s rfl rfl rfl rfl rfl
  have hp : (visitedCells s A.ranges).Perm (imageBox A n K).toList := by
    rw [List.perm_iff_count]
    intro z
    have key : ((((visitedCells s A.ranges).count z : ℕ)) : ℝ) = (((imageBox A n K).toList.count z : ℕ) : ℝ) := by
      rw [count_eq_sum, count_eq_sum, Finset.sum_map_toList]
      set g : Op → ℝ := fun x => if x = z then (1 : ℝ) else 0
      have hk1 : (s.kMax - 2).toNat = K - 2 := by rw [t.kMax]; omega
      have hk2 : (s.kMax - 1).toNat = K - 1 := by rw [t.kMax]; omega
      have hK : K - 1 + 1 = K := by have := h.hK; omega
      have hlev : ∀ j, levelOp s j = fun d => n d ^ j := by
        intro j; funext d
        obtain ⟨g, g0, eg⟩ := t.odd d
        have e1 := t.n1 d
        have e2 := t.n2 d
        unfold levelOp
        rw [show s.n2 d - s.n1 d + 1 = n d by omega]
      have near : ((nearOps s A.ranges).map g).sum = ∑ z ∈ imageBox A n 1, g z := by
        classical
        unfold nearOps
        rw [← List.sum_toFinset g (cellOps_nodup _)]
        refine Finset.sum_congr ?_ fun _ _ => rfl
        ext x
        rw [List.mem_toFinset]; exact t.mem_near x
      have tel := t.telescope g (K - 1)
      rw [hK] at tel
      unfold visitedCells
      rw [List.map_append, List.sum_append, near, list_flatMap_sum, hk1, hk2, list_range_sum]
      rw [show ∑ x ∈ imageBox A n K, g x = ∑ z ∈ imageBox A n 1, g z +
        (∑ z ∈ imageBox A n K, g z - ∑ z ∈ imageBox A n 1, g z) by ring, ← tel]
      congr 1
      rw [← Finset.sum_range_reflect]
      refine Finset.sum_congr rfl fun i hi => ?_
      rw [Finset.mem_range] at hi
      rw [show K - 1 - 1 - i = K - 2 - i by omega, show K - 2 - (K - 2 - i) = i by omega, hlev,
        list_flatMap_sum]
      classical
      rw [← List.sum_toFinset _ ((cellOps_nodup _).filter _)]
      refine Finset.sum_congr ?_ fun x _ => ?_
      · ext x
        rw [List.mem_toFinset, List.mem_filter, t.mem_far _ (by omega), Finset.mem_sdiff]
        refine and_congr_right fun hx => ?_
        rw [← t.inner_iff x hx]; simp
      · rw [((momentCells_perm t i (by omega)).map _ |>.map g).sum_eq, List.map_map, Finset.sum_map_toList]
        rfl
    exact_mod_cast key
  exact ⟨hp.nodup_iff.2 (Finset.nodup_toList _), fun z => by rw [hp.mem_iff, Finset.mem_toList]⟩

end Hotbit
