import Verif.Lemmas.NanotubeCount

/-!
# C116: nanotubes in a periodic cell
-/

namespace Hotbit

open Real

theorem copies_z (unit : List Vec) (z : ℝ) {L : ℕ} (hL : 1 ≤ L) :
    (unit ++ (List.range (L - 1)).flatMap fun i : ℕ => unit.map fun p => p + ![0, 0, ((i : ℝ) + 1) * z]) =
      (List.range L).flatMap fun i : ℕ => unit.map fun p => p + ![0, 0, (i : ℝ) * z] := by
  obtain ⟨l, rfl⟩ : ∃ l, L = l + 1 := ⟨L - 1, by omega⟩
  rw [List.range_succ_eq_map, List.flatMap_cons, List.flatMap_map, Nat.add_sub_cancel]
  congr 1
  · rw [eq_comm, show (fun p : Vec => p + ![0, 0, ((0 : ℕ) : ℝ) * z]) = id by ext p i; fin_cases i <;> simp]
    simp
  · simp

theorem len2_along_pos {R : ℝ} (hR : 0 < R) {n m : ℕ} (h : 1 ≤ n + m) {A B : ℤ} (hA : 2 * (n : ℤ) + m = tubeDR n m * A)
    (hB : (n : ℤ) + 2 * m = tubeDR n m * B) : 0 < len2 (chiralVec (ta1 R) (ta2 R) (-B) A) := by
  apply len2_pos
  rw [dot2_self_chiral (ta_primitive R)]
  obtain ⟨hq, -, -, -⟩ := tube_q h hA hB
  intro hzero
  have hR2 : (0 : ℝ) < R ^ 2 := by positivity
  have hs : ((-B : ℤ) : ℝ) ^ 2 + (A : ℝ) ^ 2 + ((-B : ℤ) : ℝ) * A = 0 := by
    rcases mul_eq_zero.1 hzero with h | h
    · linarith
    · exact h
  push_cast at hs
  have hB2 : (B : ℝ) ^ 2 = 0 := by nlinarith [sq_nonneg ((A : ℝ) - B / 2), sq_nonneg (B : ℝ)]
  have hA2 : (A : ℝ) ^ 2 = 0 := by nlinarith [sq_nonneg ((B : ℝ) - A / 2), sq_nonneg (A : ℝ)]
  have hA0' : A = 0 := by exact_mod_cast pow_eq_zero_iff (two_ne_zero) |>.1 hA2
  have hB0' : B = 0 := by exact_mod_cast pow_eq_zero_iff (two_ne_zero) |>.1 hB2
  rw [hA0', hB0'] at hq
  simp at hq

theorem sum_centred (l : List Vec) (i : Fin 3) (v : Vec) (hv : v i = -((l.map fun p => p i).sum / l.length)) :
    ((l.map fun p => p + v).map fun p => p i).sum = 0 := by
  rw [List.map_map]
  have e : ∀ l : List Vec, (l.map ((fun p => p i) ∘ fun p => p + v)).sum = (l.map fun p => p i).sum + l.length * v i := by
    intro l
    induction l with
    | nil => simp
    | cons x t ih =>
      simp only [List.map_cons, List.sum_cons, ih, Function.comp_apply, Pi.add_apply, List.length_cons]
      push_cast; ring
  rw [e, hv]
  rcases Nat.eq_zero_or_pos l.length with h0 | h0
  · rw [List.length_eq_zero_iff] at h0
    subst h0; simp
  · have : (0 : ℝ) < l.length := by exact_mod_cast h0
    field_simp
    ring

/-- Boxed, centred and made periodic. -/
noncomputable def tubeBox (at1 : List Vec) (x z : ℝ) : Struct :=
  let s := ((Struct.ofPos at1).setBox x x z).center 2
  let s := s.translate ![-((s.pos.map fun p => p 0).sum / s.pos.length), -((s.pos.map fun p => p 1).sum / s.pos.length), 0]
  s.setPbc false false true

theorem tubeBox_facts (at1 : List Vec) (x z : ℝ) : (tubeBox at1 x z).pbc = ![false, false, true] ∧ (tubeBox at1 x z).cell 2 = ![0, 0, z] ∧
    (∃ t : Vec, (tubeBox at1 x z).pos = at1.map fun p => p + t) ∧
    (((tubeBox at1 x z).pos.map fun p => p 0).sum = 0 ∧ ((tubeBox at1 x z).pos.map fun p => p 1).sum = 0) := by
  refine ⟨rfl, rfl, ?_, ?_⟩
  · have : Moved at1 ((Struct.ofPos at1).setBox x x z) := Moved.of at1
    exact (this.translate _).translate _
  · exact ⟨sum_centred _ _ _ rfl, sum_centred _ _ _ rfl⟩

/-- The atoms of `nanotube` for given vectors. -/
noncomputable def tubeStruct (n m L : ℕ) (R : ℝ) (c a : ℝ × ℝ) : Struct :=
  let unit : List Vec := (tubePoints n m (ta1 R) (ta2 R) c a).map fun s =>
    ![cos (2 * π * s.1) * len2 c / (2 * π), sin (2 * π * s.1) * len2 c / (2 * π), s.2 * len2 a]
  let at1 : List Vec := unit ++ (List.range (L - 1)).flatMap fun i : ℕ => unit.map fun p => p + ![0, 0, (i + 1) * len2 a]
  tubeBox at1 (2 * len2 c / (2 * π)) (L * len2 a)

theorem nanotube_eq {n m : ℕ} (h : 1 ≤ n + m) (R : ℝ) (L : ℕ) {d : TubeData} (hd : nanotubeData n m 1.42 = .ok d) :
    nanotube n m R L = .ok (tubeStruct n m L R ((n : ℝ) • ta1 R + (m : ℝ) • ta2 R)
      ((1 / (tubeDR n m : ℝ)) • ((-(2 * (m : ℝ) + n)) • ta1 R + (2 * (n : ℝ) + m) • ta2 R)), d) := by
  obtain ⟨hg, hRR⟩ := tubeRR h
  have key : ∀ inst : Decidable (((n : ℝ) - m) / ((3 * pyGcd n m : ℤ) : ℝ) - pyInt (((n : ℝ) - m) / ((3 * pyGcd n m : ℤ) : ℝ)) = 0),
      pyGcd n m * (@ite ℤ _ inst 3 1) = tubeDR n m := by
    intro inst
    by_cases hP : ((n : ℝ) - m) / ((3 * pyGcd n m : ℤ) : ℝ) - pyInt (((n : ℝ) - m) / ((3 * pyGcd n m : ℤ) : ℝ)) = 0
    · rw [if_pos hP] at hRR ⊢
      exact hRR
    · rw [if_neg hP] at hRR ⊢
      exact hRR
  unfold nanotube
  simp only
  rw [if_neg hg, key, hd]
  rfl

set_option maxHeartbeats 1000000 in
/-- All that can be said about `nanotube` in terms of the points of a unit. -/
theorem tube_main {R : ℝ} (hR : 0 < R) {n m L : ℕ} (h : 1 ≤ n + m) (hL : 1 ≤ L) {A B : ℤ} (hA : 2 * (n : ℤ) + m = tubeDR n m * A)
    (hB : (n : ℤ) + 2 * m = tubeDR n m * B) :
    ∃ s d, nanotube n m R L = .ok (s, d) ∧ nanotubeData n m 1.42 = .ok d ∧ s.pbc = ![false, false, true] ∧
      s.cell 2 = ![0, 0, L * len2 (chiralVec (ta1 R) (ta2 R) (-B) A)] ∧
      ((s.pos.map fun p => p 0).sum = 0 ∧ (s.pos.map fun p => p 1).sum = 0) ∧
      s.pos.length = L * (tubePoints n m (ta1 R) (ta2 R) (chiralVec (ta1 R) (ta2 R) n m) (chiralVec (ta1 R) (ta2 R) (-B) A)).length ∧
      (TubeFound n m A B → IsNanotube R n m s.sites ∧ s.Simple) := by
  obtain ⟨d, hd, -⟩ := tubeData_ok h 1.42
  have hcc := tube_cc hR h hA hB
  have hdp := tubeDR_pos h
  have hdr : (0 : ℝ) < (tubeDR n m : ℝ) := by exact_mod_cast hdp
  set c := chiralVec (ta1 R) (ta2 R) n m with hc
  set a := chiralVec (ta1 R) (ta2 R) (-B) A with ha
  have hcval : (n : ℝ) • ta1 R + (m : ℝ) • ta2 R = c := by rw [hc]; unfold chiralVec; push_cast; rfl
  have haval : (1 / (tubeDR n m : ℝ)) • ((-(2 * (m : ℝ) + n)) • ta1 R + (2 * (n : ℝ) + m) • ta2 R) = a := by
    have hAr : 2 * (n : ℝ) + m = tubeDR n m * A := by exact_mod_cast hA
    have hBr : 2 * (m : ℝ) + n = tubeDR n m * B := by rw [add_comm]; exact_mod_cast hB
    rw [ha, hAr, hBr, smul_add, smul_smul, smul_smul]
    unfold chiralVec
    push_cast
    congr 2
    · field_simp
    · field_simp
  set pts := tubePoints n m (ta1 R) (ta2 R) c a with hpts
  set place : ℝ × ℝ → Vec := fun s => ![cos (2 * π * s.1) * len2 c / (2 * π), sin (2 * π * s.1) * len2 c / (2 * π), s.2 * len2 a] with hplace
  set unit := pts.map place with hunit
  set at1 : List Vec := unit ++ (List.range (L - 1)).flatMap fun i : ℕ => unit.map fun p => p + ![0, 0, (i + 1) * len2 a] with hat1
  have hat : at1 = (List.range L).flatMap fun i : ℕ => unit.map fun p => p + ![0, 0, i * len2 a] := copies_z unit _ hL
  have hval : nanotube n m R L = .ok (tubeBox at1 (2 * len2 c / (2 * π)) (L * len2 a), d) := by
    rw [nanotube_eq h R L hd, hcval, haval]
    rfl
  obtain ⟨hpbc, hcell2, ⟨t, ht⟩, hsum⟩ := tubeBox_facts at1 (2 * len2 c / (2 * π)) (L * len2 a)
  generalize tubeBox at1 (2 * len2 c / (2 * π)) (L * len2 a) = S at hval hpbc hcell2 ht hsum
  have hlen : at1.length = L * pts.length := by
    rw [hat]
    simp [List.length_flatMap, hunit]
  refine ⟨_, d, hval, hd, hpbc, hcell2, hsum, ?_, ?_⟩
  · rw [ht, List.length_map, hlen]
  · intro hfound
    have hmempts : ∀ s, s ∈ pts ↔ ∃ x y : ℤ, ∃ b : ℕ, TubeCell n m A B x y b ∧ s = (tsc n m A B x y b, tsa n m A B x y b) := by
      intro s
      rw [hpts, tubePoints_mem]
      constructor
      · rintro ⟨x, y, b, hb, -, -, hs, h1, h2, h3, h4⟩
        obtain ⟨e1, e2⟩ := tube_sc hR h hA hB x y b
        rw [e1, e2] at hs
        subst hs
        exact ⟨x, y, b, ⟨hb, ⟨h3, by simp only at h4; linarith⟩, h1, by simp only at h2; linarith⟩, rfl⟩
      · rintro ⟨x, y, b, hcell, rfl⟩
        obtain ⟨e1, e2⟩ := tube_sc hR h hA hB x y b
        obtain ⟨r1, r2, r3, r4⟩ := hfound x y b hcell
        refine ⟨x, y, b, hcell.1, r1, r2, by rw [e1, e2], hcell.2.2.1, r3, hcell.2.1.1, r4⟩
    have hpl : ∀ x y b, place (tsc n m A B x y b, tsa n m A B x y b) = rollUp c (tpt R x y b) := fun x y b => rollUp_coords hR h hA hB
    have halong : ∀ p (k : ℤ), rollUp c (p + (k : ℝ) • a) = rollUp c p + ![0, 0, k * len2 a] := rollUp_along hR h hA hB
    have hmemat : ∀ q, q ∈ at1 ↔ ∃ x y : ℤ, ∃ b : ℕ, TubeCell n m A B x y b ∧ ∃ i : ℕ, i < L ∧ q = rollUp c (tpt R x y b + ((i : ℤ) : ℝ) • a) := by
      intro q
      rw [hat]
      simp only [List.mem_flatMap, List.mem_range, List.mem_map, hunit, hmempts]
      constructor
      · rintro ⟨i, hi, _, ⟨_, ⟨x, y, b, hcell, rfl⟩, rfl⟩, rfl⟩
        refine ⟨x, y, b, hcell, i, hi, ?_⟩
        rw [halong, hpl]
        push_cast; rfl
      · rintro ⟨x, y, b, hcell, i, hi, rfl⟩
        refine ⟨i, hi, _, ⟨_, ⟨x, y, b, hcell, rfl⟩, rfl⟩, ?_⟩
        rw [halong, hpl]
        push_cast; rfl
    have hplus : ∀ (p : ℝ × ℝ) (i k : ℤ), rollUp c (p + (i : ℝ) • a) + t + ![0, 0, k * (L * len2 a)] = rollUp c (p + ((i + L * k : ℤ) : ℝ) • a) + t := by
      intro p i k
      rw [halong, halong]
      ext j
      fin_cases j
      · simp only [Pi.add_apply, Fin.zero_eta, Matrix.cons_val]; ring
      · simp only [Pi.add_apply, Fin.mk_one, Matrix.cons_val]; ring
      · simp only [Pi.add_apply, Fin.reduceFinMk, Matrix.cons_val]
        push_cast; ring
    constructor
    · refine ⟨honeyT R, ta1 R, ta2 R, t, honeyT_honeycomb hR, ta_primitive R, ?_, ?_, ?_⟩
      · intro p
        have := honeyT_add (R := R) 1 0 p
        rwa [show chiralVec (ta1 R) (ta2 R) 1 0 = ta1 R by unfold chiralVec; simp] at this
      · intro p
        have := honeyT_add (R := R) 0 1 p
        rwa [show chiralVec (ta1 R) (ta2 R) 0 1 = ta2 R by unfold chiralVec; simp] at this
      · rw [← hc]
        ext q
        constructor
        · rintro ⟨p, hp, k, hk, rfl⟩
          obtain ⟨k, hk'⟩ := (sites_z hpbc hcell2 (p + ∑ a, (k a : ℝ) • S.cell a) p).1 ⟨k, hk, rfl⟩
          rw [hk']
          rw [ht] at hp
          obtain ⟨q, hq, rfl⟩ := List.mem_map.1 hp
          obtain ⟨x, y, b, hcell, i, hi, rfl⟩ := (hmemat q).1 hq
          refine ⟨tpt R x y b + ((i + L * k : ℤ) : ℝ) • a, ?_, (hplus _ _ _).symm⟩
          rw [ha, show ((i + L * k : ℤ) : ℝ) • chiralVec (ta1 R) (ta2 R) (-B) A = chiralVec (ta1 R) (ta2 R) ((i + L * k) * -B) ((i + L * k) * A) by
            unfold chiralVec; push_cast; module, honeyT_add]
          exact ⟨x, y, b, hcell.1, rfl⟩
        · rintro ⟨p, ⟨x, y, b, hb, rfl⟩, rfl⟩
          obtain ⟨x', y', l, hcell, he⟩ := tube_exists hR h hA hB (x := x) (y := y) hb
          obtain ⟨i, hi, k, hk⟩ := divmod l hL
          refine ⟨rollUp c (tpt R x' y' b + ((i : ℤ) : ℝ) • a) + t, ?_, ?_⟩
          · rw [ht]
            exact List.mem_map.2 ⟨_, (hmemat _).2 ⟨x', y', b, hcell, i, hi, rfl⟩, rfl⟩
          · apply (sites_z hpbc hcell2 _ _).2
            refine ⟨k, ?_⟩
            simp only
            rw [he, hplus, ← hk]
    · constructor
      · rw [ht]
        refine List.Nodup.map (fun p q e => by simpa using e) ?_
        rw [hat]
        have hunitnd : unit.Nodup := by
          rw [hunit]
          refine (tubePoints_nodup hR h hA hB).map_on ?_
          intro s hs s' hs' e
          obtain ⟨x, y, b, hcell, rfl⟩ := (hmempts s).1 hs
          obtain ⟨x', y', b', hcell', rfl⟩ := (hmempts s').1 hs'
          rw [hpl, hpl] at e
          obtain ⟨⟨rfl, rfl, rfl⟩, -⟩ := tube_unique hR h hA hB (i := 0) (i' := 0) hcell hcell' (by simpa using e)
          rfl
        refine nodup_flatMap_of List.nodup_range ?_ ?_
        · intro i _
          exact hunitnd.map (fun p q e => add_right_cancel e)
        · intro i _ i' _ q hq hq'
          obtain ⟨p, hp, rfl⟩ := List.mem_map.1 hq
          obtain ⟨p', hp', e⟩ := List.mem_map.1 hq'
          rw [hunit] at hp hp'
          obtain ⟨s, hs, rfl⟩ := List.mem_map.1 hp
          obtain ⟨s', hs', rfl⟩ := List.mem_map.1 hp'
          obtain ⟨x, y, b, hcell, rfl⟩ := (hmempts s).1 hs
          obtain ⟨x', y', b', hcell', rfl⟩ := (hmempts s').1 hs'
          rw [hpl, hpl] at e
          have e1 := halong (tpt R x y b) i
          have e2 := halong (tpt R x' y' b') i'
          push_cast at e1 e2
          rw [← e1, ← e2] at e
          have := (tube_unique hR h hA hB (i := i') (i' := i) hcell' hcell (by push_cast; exact e)).2
          exact_mod_cast this.symm
      · intro p hp q hq k hk he
        obtain ⟨k', hk'⟩ := (sites_z hpbc hcell2 q p).1 ⟨k, hk, he⟩
        rw [ht] at hp hq
        obtain ⟨p, hp', rfl⟩ := List.mem_map.1 hp
        obtain ⟨q, hq', rfl⟩ := List.mem_map.1 hq
        obtain ⟨x, y, b, hcell, i, hi, rfl⟩ := (hmemat p).1 hp'
        obtain ⟨x', y', b', hcell', i', hi', rfl⟩ := (hmemat q).1 hq'
        rw [hplus] at hk'
        obtain ⟨⟨rfl, rfl, rfl⟩, hii⟩ := tube_unique hR h hA hB hcell' hcell (add_right_cancel hk')
        obtain ⟨hii', -⟩ := divmod_unique hi hi' hii
        subst hii'
        refine ⟨rfl, ?_⟩
        intro j
        have h0 := hk 0 (by rw [hpbc]; rfl)
        have h1 := hk 1 (by rw [hpbc]; rfl)
        have h2 : k 2 = 0 := by
          rw [Fin.sum_univ_three, h0, h1, hcell2] at he
          have hz := congrFun he 2
          simp at hz
          rcases hz with hz | hz | hz
          · exact hz
          · omega
          · exfalso
            have := len2_along_pos hR h hA hB
            rw [← ha] at this
            linarith
        fin_cases j
        · exact h0
        · exact h1
        · exact h2

/-- The points in the list are points of the cell; all of them if none is missed. -/
theorem pts_length {R : ℝ} (hR : 0 < R) {n m : ℕ} (h : 1 ≤ n + m) {A B : ℤ} (hA : 2 * (n : ℤ) + m = tubeDR n m * A)
    (hB : (n : ℤ) + 2 * m = tubeDR n m * B) :
    let pts := tubePoints n m (ta1 R) (ta2 R) (chiralVec (ta1 R) (ta2 R) n m) (chiralVec (ta1 R) (ta2 R) (-B) A)
    (pts.length : ℤ) ≤ 2 * (n * A + m * B) ∧ (TubeFound n m A B → (pts.length : ℤ) = 2 * (n * A + m * B)) ∧
      ∀ x y b, TubeCell n m A B x y b → 1 - 0.00001 ≤ tsc n m A B x y b → (pts.length : ℤ) < 2 * (n * A + m * B) := by
  classical
  intro pts
  obtain ⟨F, hF, hmem⟩ := tube_count h hA hB
  let ψ : ℤ × ℤ × ℕ → ℝ × ℝ := fun t => (tsc n m A B t.1 t.2.1 t.2.2, tsa n m A B t.1 t.2.1 t.2.2)
  have hψ : Set.InjOn ψ F := by
    rintro ⟨x, y, b⟩ h1 ⟨x', y', b'⟩ h2 he
    have c1 := (hmem x y b).1 h1
    have c2 := (hmem x' y' b').1 h2
    obtain ⟨⟨rfl, rfl, rfl⟩, -⟩ := tube_unique hR h hA hB (i := 0) (i' := 0) c1 c2 (by
      have e1 := rollUp_coords hR h hA hB (x := x) (y := y) (b := b)
      have e2 := rollUp_coords hR h hA hB (x := x') (y := y') (b := b')
      simp only [ψ, Prod.mk.injEq] at he
      rw [he.1, he.2, e2] at e1
      simpa using e1.symm)
    rfl
  have hcard : ((F.image ψ).card : ℤ) = 2 * (n * A + m * B) := by
    rw [Finset.card_image_of_injOn hψ, hF]
  have hnd : pts.Nodup := tubePoints_nodup hR h hA hB
  have hsub : pts.toFinset ⊆ F.image ψ := by
    intro s hs
    obtain ⟨x, y, b, hb, -, -, he, h1, h2, h3, h4⟩ := tubePoints_mem.1 (List.mem_toFinset.1 hs)
    obtain ⟨e1, e2⟩ := tube_sc hR h hA hB x y b
    rw [e1, e2] at he
    refine Finset.mem_image.2 ⟨(x, y, b), (hmem x y b).2 ?_, he.symm⟩
    rw [he] at h1 h2 h3 h4
    exact ⟨hb, ⟨h3, by simp only at h4; linarith⟩, h1, by simp only at h2; linarith⟩
  have hlen : pts.length = pts.toFinset.card := (List.toFinset_card_of_nodup hnd).symm
  refine ⟨?_, ?_, ?_⟩
  · rw [← hcard, hlen]
    exact_mod_cast Finset.card_le_card hsub
  · intro hfound
    rw [← hcard, hlen]
    congr 2
    refine Finset.Subset.antisymm hsub ?_
    intro s hs
    obtain ⟨⟨x, y, b⟩, hc, rfl⟩ := Finset.mem_image.1 hs
    have hcell := (hmem x y b).1 hc
    obtain ⟨r1, r2, r3, r4⟩ := hfound x y b hcell
    obtain ⟨e1, e2⟩ := tube_sc hR h hA hB x y b
    exact List.mem_toFinset.2 (tubePoints_mem.2 ⟨x, y, b, hcell.1, r1, r2, by rw [e1, e2], hcell.2.2.1, r3, hcell.2.1.1, r4⟩)
  · intro x y b hcell hlate
    rw [← hcard, hlen]
    have : pts.toFinset.card < (F.image ψ).card := by
      apply Finset.card_lt_card
      refine ⟨hsub, fun hsup => ?_⟩
      have hin : ψ (x, y, b) ∈ pts.toFinset := hsup (Finset.mem_image.2 ⟨(x, y, b), (hmem x y b).2 hcell, rfl⟩)
      obtain ⟨x', y', b', -, -, -, -, -, -, -, h4⟩ := tubePoints_mem.1 (List.mem_toFinset.1 hin)
      simp only [ψ] at h4
      linarith
    exact_mod_cast this

/-- Length and hexagons of a unit. -/
theorem tube_TH {R : ℝ} (hR : 0 < R) {n m : ℕ} (h : 1 ≤ n + m) {A B : ℤ} (hA : 2 * (n : ℤ) + m = tubeDR n m * A)
    (hB : (n : ℤ) + 2 * m = tubeDR n m * B) :
    ∃ D, nanotubeData n m R = .ok D ∧ D.T = len2 (chiralVec (ta1 R) (ta2 R) (-B) A) ∧ D.hexagons = n * A + m * B := by
  have hg := tubeDR_pos h
  have hgr : (0 : ℝ) < (tubeDR n m : ℝ) := by exact_mod_cast hg
  have hm2 : ¬ ((m : ℤ) + 2 * n = 0) := by omega
  have hN := norm_pos h
  have hAr : 2 * (n : ℝ) + m = tubeDR n m * A := by exact_mod_cast hA
  have hBr : (n : ℝ) + 2 * m = tubeDR n m * B := by exact_mod_cast hB
  unfold nanotubeData
  simp only
  rw [if_neg hg.ne', if_neg hm2]
  refine ⟨_, rfl, ?_, ?_⟩
  · simp only
    rw [len2_chiral hR (ta_primitive R)]
    have e : (((-B : ℤ) : ℝ) ^ 2 + (A : ℝ) ^ 2 + ((-B : ℤ) : ℝ) * (A : ℝ)) =
        (1 / (tubeDR n m : ℝ)) ^ 2 * (3 * (((n : ℤ) : ℝ) ^ 2 + ((m : ℤ) : ℝ) ^ 2 + ((n : ℤ) : ℝ) * ((m : ℤ) : ℝ))) := by
      push_cast
      have e1 : (A : ℝ) = (2 * n + m) / tubeDR n m := by rw [hAr]; field_simp
      have e2 : (B : ℝ) = (n + 2 * m) / tubeDR n m := by rw [hBr]; field_simp
      rw [e1, e2]
      field_simp
      ring
    rw [e, Real.sqrt_mul (by positivity), Real.sqrt_sq (by positivity), Real.sqrt_mul (by norm_num)]
    rw [show √3 * R * (1 / (tubeDR n m : ℝ) * (√3 * √(((n : ℤ) : ℝ) ^ 2 + ((m : ℤ) : ℝ) ^ 2 + ((n : ℤ) : ℝ) * ((m : ℤ) : ℝ)))) =
      (√3 * √3) * R * √(((n : ℤ) : ℝ) ^ 2 + ((m : ℤ) : ℝ) ^ 2 + ((n : ℤ) : ℝ) * ((m : ℤ) : ℝ)) / (tubeDR n m : ℝ) by ring, sq3]
  · simp only
    rw [show 2 * (((m : ℤ) : ℝ) ^ 2 + ((n : ℤ) : ℝ) ^ 2 + ((m : ℤ) : ℝ) * ((n : ℤ) : ℝ)) / (tubeDR n m : ℝ) = ((n * A + m * B : ℤ) : ℝ) by
      rw [div_eq_iff hgr.ne']
      push_cast
      linear_combination (n : ℝ) * hAr + (m : ℝ) * hBr]
    exact pyRound_intCast _

theorem window_along {δ r K : ℤ} {b : ℕ} (hb : b = 1 ∨ b = 2) (h1 : -33 ≤ δ) (h2 : δ ≤ 33) (h3 : 0 < r) (h4 : r < 7)
    (hr : r = 300 * K - (100 * b - 3) * δ) : δ = -32 := by
  rcases hb with rfl | rfl
  · push_cast at hr
    interval_cases δ <;> omega
  · push_cast at hr
    interval_cases δ <;> omega

theorem window_around {s P Q : ℤ} {b : ℕ} (hb : b = 1 ∨ b = 2) (h1 : 1 ≤ s) (h2 : s ≤ 33) (h3 : 0 < P)
    (hr : P = 300 * Q - (100 * b - 3) * (3 * s)) : 9 * s ≤ P := by
  rcases hb with rfl | rfl
  · push_cast at hr
    omega
  · push_cast at hr
    omega

theorem window_size {n m P : ℤ} (hn : 0 ≤ n) (hm : 0 ≤ m) (h1 : 1 ≤ n + m) (h2 : n + m ≤ 33) (h3 : 9 * (n + m) ≤ P)
    (h4 : 1000 * P ≤ 3 * (2 * (n ^ 2 + n * m + m ^ 2))) : False := by
  have := mul_nonneg hn hm
  nlinarith

theorem cell_inv {n m A B q X Y : ℝ} (hq : 0 < q) (h : q = n * A + m * B) :
    X = n * ((X * A + Y * B) / q) - B * ((n * Y - m * X) / q) ∧ Y = m * ((X * A + Y * B) / q) + A * ((n * Y - m * X) / q) := by
  constructor
  · field_simp
    rw [h]; ring
  · field_simp
    rw [h]; ring

/-- Small tubes are complete. -/
theorem tube_found {n m : ℕ} (h : 1 ≤ n + m) (h33 : n + m ≤ 33) {A B : ℤ} (hA : 2 * (n : ℤ) + m = tubeDR n m * A)
    (hB : (n : ℤ) + 2 * m = tubeDR n m * B) : TubeFound n m A B := by
  intro x y b hcell
  obtain ⟨hb, ⟨c1, c2⟩, c3, c4⟩ := hcell
  obtain ⟨hq, hdq, hA0, hB0⟩ := tube_q h hA hB
  have hqr := tube_qr h hA hB
  have hd := tubeDR_pos h
  have hbr : (b : ℝ) = 1 ∨ (b : ℝ) = 2 := by
    rcases hb with rfl | rfl
    · left; norm_num
    · right; norm_num
  have hβ : 0 < (b : ℝ) / 3 - 0.01 ∧ (b : ℝ) / 3 - 0.01 < 1 := by
    rcases hbr with h | h <;> rw [h] <;> norm_num
  have hAle : A ≤ 2 * n + m := by nlinarith
  have hBle : B ≤ n + 2 * m := by nlinarith
  have hnr : (0 : ℝ) ≤ n := by positivity
  have hmr : (0 : ℝ) ≤ m := by positivity
  have hAr : (0 : ℝ) ≤ A := by exact_mod_cast hA0
  have hBr : (0 : ℝ) ≤ B := by exact_mod_cast hB0
  have hAl : (A : ℝ) ≤ 66 := by
    have : A ≤ 66 := by omega
    exact_mod_cast this
  have hBl : (B : ℝ) ≤ 66 := by
    have : B ≤ 66 := by omega
    exact_mod_cast this
  have hnl : (n : ℝ) ≤ 33 := by
    have : n ≤ 33 := by omega
    exact_mod_cast this
  have hml : (m : ℝ) ≤ 33 := by
    have : m ≤ 33 := by omega
    exact_mod_cast this
  have hX : (x : ℝ) + ((b : ℝ) / 3 - 0.01) = n * tsc n m A B x y b - B * tsa n m A B x y b := by
    unfold tsc tsa
    exact (cell_inv hqr rfl).1
  have hY : (y : ℝ) + ((b : ℝ) / 3 - 0.01) = m * tsc n m A B x y b + A * tsa n m A B x y b := by
    unfold tsc tsa
    exact (cell_inv hqr rfl).2
  have t1 : 0 ≤ n * tsc n m A B x y b := by positivity
  have t2 : 0 ≤ B * tsa n m A B x y b := by positivity
  have t3 : 0 ≤ m * tsc n m A B x y b := by positivity
  have t4 : 0 ≤ A * tsa n m A B x y b := by positivity
  have t5 : n * tsc n m A B x y b ≤ 33 := by nlinarith
  have t6 : B * tsa n m A B x y b ≤ 66 := by nlinarith
  have t7 : m * tsc n m A B x y b ≤ 33 := by nlinarith
  have t8 : A * tsa n m A B x y b ≤ 66 := by nlinarith
  have bx1 : (-67 : ℝ) < x := by linarith [hβ.2]
  have bx2 : (x : ℝ) < 33 := by linarith [hβ.1]
  have by1 : (-1 : ℝ) < y := by linarith [hβ.2]
  have by2 : (y : ℝ) < 99 := by linarith [hβ.1]
  have bx1' : -67 < x := by exact_mod_cast bx1
  have bx2' : x < 33 := by exact_mod_cast bx2
  have by1' : -1 < y := by exact_mod_cast by1
  have by2' : y < 99 := by exact_mod_cast by2
  have hq2 : (n * A + m * B : ℤ) ≤ 2178 := by
    have h1 : ((n : ℤ) ^ 2 + n * m + m ^ 2) ≤ 1089 := by
      have : (n : ℤ) + m ≤ 33 := by exact_mod_cast h33
      have hnm : (0 : ℤ) ≤ n * m := by positivity
      nlinarith
    nlinarith
  refine ⟨⟨by omega, by omega⟩, ⟨by omega, by omega⟩, ?_, ?_⟩
  · -- along the tube
    by_contra hcon
    rw [not_lt] at hcon
    have hr : ∃ r : ℤ, r = 300 * (n * A + m * B) - 300 * (n * y - m * x) - (100 * b - 3) * ((n : ℤ) - m) := ⟨_, rfl⟩
    obtain ⟨r, hr⟩ := hr
    have hrr : (r : ℝ) = 300 * ((n : ℝ) * A + m * B) * (1 - tsa n m A B x y b) := by
      rw [hr]
      unfold tsa
      push_cast
      field_simp
      ring
    have hr0 : (0 : ℝ) < r := by rw [hrr]; apply mul_pos <;> linarith
    have hr1 : (r : ℝ) ≤ 0.003 * ((n : ℝ) * A + m * B) := by
      rw [hrr]
      nlinarith
    have hr0' : 0 < r := by exact_mod_cast hr0
    have hq2r : ((n : ℝ) * A + m * B) ≤ 2178 := by exact_mod_cast hq2
    have hr7 : r < 7 := by
      have : (r : ℝ) < 7 := by linarith
      exact_mod_cast this
    have hδ : (n : ℤ) = m - 32 := by
      have := window_along (δ := (n : ℤ) - m) (K := n * A + m * B - (n * y - m * x)) hb (by omega) (by omega) hr0' hr7 (by rw [hr]; ring)
      omega
    have hn0 : n = 0 := by omega
    have hm32 : m = 32 := by omega
    subst hn0 hm32
    have hdr : tubeDR (0 : ℕ) (32 : ℕ) = 32 := by
      rw [tubeDR_nat]
      decide
    rw [hdr] at hA hB
    have : A = 1 := by push_cast at hA; omega
    have : B = 2 := by push_cast at hB; omega
    subst A B
    norm_num at hr1
    have : (r : ℝ) < 1 := by linarith
    have : r < 1 := by exact_mod_cast this
    omega
  · by_contra hcon
    rw [not_lt] at hcon
    have hr : ∃ r : ℤ, r = 300 * (n * A + m * B) - 300 * (x * A + y * B) - (100 * b - 3) * (A + B) := ⟨_, rfl⟩
    obtain ⟨r, hr⟩ := hr
    have hrr : (r : ℝ) = 300 * ((n : ℝ) * A + m * B) * (1 - tsc n m A B x y b) := by
      rw [hr]
      unfold tsc
      push_cast
      field_simp
      ring
    have hr0 : (0 : ℝ) < r := by rw [hrr]; apply mul_pos <;> linarith
    have hr1 : (r : ℝ) ≤ 0.003 * ((n : ℝ) * A + m * B) := by
      rw [hrr]
      nlinarith
    have hr0' : 0 < r := by exact_mod_cast hr0
    -- multiplied by the divisor
    have hR0 : 0 < tubeDR n m * r := mul_pos hd hr0'
    have hAB : tubeDR n m * (A + B) = 3 * ((n : ℤ) + m) := by linear_combination -hA - hB
    have hRv : tubeDR n m * r = 300 * (2 * ((n : ℤ) ^ 2 + n * m + m ^ 2) - x * (2 * n + m) - y * (n + 2 * m)) - (100 * b - 3) * (3 * ((n : ℤ) + m)) := by
      rw [hr]
      linear_combination (300 : ℤ) * hdq + (300 * x) * hA + (300 * y) * hB - (100 * (b : ℤ) - 3) * hAB
    have hR1 : 1000 * (tubeDR n m * r) ≤ 3 * (2 * ((n : ℤ) ^ 2 + n * m + m ^ 2)) := by
      have e1 : 1000 * r ≤ 3 * (n * A + m * B) := by
        have : (1000 : ℝ) * r ≤ 3 * ((n : ℝ) * A + m * B) := by linarith
        exact_mod_cast this
      rw [← hdq]
      have := mul_le_mul_of_nonneg_left e1 hd.le
      linarith
    have hs1 : (1 : ℤ) ≤ (n : ℤ) + m := by exact_mod_cast h
    have hs33 : (n : ℤ) + m ≤ 33 := by exact_mod_cast h33
    exact window_size (by positivity) (by positivity) hs1 hs33 (window_around hb hs1 hs33 hR0 hRv) hR1

/-- **C116.** `nanotube(n,m,R,length)` with `n+m` up to 33: the periodic images of its atoms are the endless `(n,m)` tube, each site being
one image of one atom; the cell has the given number of units; there are two atoms for each hexagon; the axis is the z axis. -/
theorem c116_tube_partial {R : ℝ} (hR : 0 < R) {n m L : ℕ} (h : 1 ≤ n + m) (h33 : n + m ≤ 33) (hL : 1 ≤ L) :
    ∃ s d D, nanotube n m R L = .ok (s, d) ∧ nanotubeData n m R = .ok D ∧ s.pbc = ![false, false, true] ∧ s.cell 2 = ![0, 0, L * D.T] ∧
      (s.pos.length : ℤ) = 2 * D.hexagons * L ∧ IsNanotube R n m s.sites ∧ s.Simple ∧
      (s.pos.map fun p => p 0).sum = 0 ∧ (s.pos.map fun p => p 1).sum = 0 := by
  obtain ⟨A, B, hA, hB, -⟩ := across h
  obtain ⟨s, d, h1, h2, h3, h4, h5, h6, h7⟩ := tube_main hR h hL hA hB
  obtain ⟨D, hD, hDT, hDh⟩ := tube_TH hR h hA hB
  have hf := tube_found h h33 hA hB
  obtain ⟨-, hl, -⟩ := pts_length hR h hA hB
  refine ⟨s, d, D, h1, hD, h3, by rw [h4, hDT], ?_, (h7 hf).1, (h7 hf).2, h5.1, h5.2⟩
  rw [h6]
  push_cast
  rw [hl hf, hDh]
  ring

example : ∃ s d, nanotube 6 3 1.42 2 = .ok (s, d) ∧ s.Simple := by
  obtain ⟨s, d, D, h1, -, -, -, -, -, h2, -⟩ := c116_tube_partial (R := 1.42) (by norm_num) (n := 6) (m := 3) (L := 2) (by norm_num) (by norm_num) (by norm_num)
  exact ⟨s, d, h1, h2⟩

/-- **C116.** There are never too many atoms. -/
theorem c116_count {R : ℝ} (hR : 0 < R) {n m L : ℕ} (h : 1 ≤ n + m) (hL : 1 ≤ L) :
    ∃ s d D, nanotube n m R L = .ok (s, d) ∧ nanotubeData n m R = .ok D ∧ s.cell 2 = ![0, 0, L * D.T] ∧ (s.pos.length : ℤ) ≤ 2 * D.hexagons * L := by
  obtain ⟨A, B, hA, hB, -⟩ := across h
  obtain ⟨s, d, h1, h2, h3, h4, h5, h6, h7⟩ := tube_main hR h hL hA hB
  obtain ⟨D, hD, hDT, hDh⟩ := tube_TH hR h hA hB
  obtain ⟨hl, -⟩ := pts_length hR h hA hB
  refine ⟨s, d, D, h1, hD, by rw [h4, hDT], ?_⟩
  rw [h6, hDh]
  push_cast
  have : (0 : ℤ) ≤ L := by positivity
  nlinarith

example : ∃ s d, nanotube 60 3 1.42 2 = .ok (s, d) := by
  obtain ⟨s, d, D, h1, -⟩ := c116_count (R := 1.42) (by norm_num) (n := 60) (m := 3) (L := 2) (by norm_num) (by norm_num)
  exact ⟨s, d, h1⟩

/-- **C116 fails.** The smallest tubes not covered are incomplete: the (33,1) tube has a hole. -/
theorem c116_hole_fails {R : ℝ} (hR : 0 < R) {L : ℕ} (hL : 1 ≤ L) :
    ∃ s d D, nanotube 33 1 R L = .ok (s, d) ∧ nanotubeData 33 1 R = .ok D ∧ s.cell 2 = ![0, 0, L * D.T] ∧ (s.pos.length : ℤ) < 2 * D.hexagons * L := by
  have hdr : tubeDR (33 : ℕ) (1 : ℕ) = 1 := by
    rw [tubeDR_nat]
    decide
  have hA : 2 * ((33 : ℕ) : ℤ) + ((1 : ℕ) : ℤ) = tubeDR (33 : ℕ) (1 : ℕ) * 67 := by rw [hdr]; norm_num
  have hB : ((33 : ℕ) : ℤ) + 2 * ((1 : ℕ) : ℤ) = tubeDR (33 : ℕ) (1 : ℕ) * 35 := by rw [hdr]; norm_num
  have h : 1 ≤ 33 + 1 := by norm_num
  obtain ⟨s, d, h1, h2, h3, h4, h5, h6, h7⟩ := tube_main hR h hL hA hB
  obtain ⟨D, hD, hDT, hDh⟩ := tube_TH hR h hA hB
  obtain ⟨-, -, hl⟩ := pts_length hR h hA hB
  have hlt := hl 9 46 1 ⟨Or.inl rfl, ⟨by unfold tsc; norm_num, by unfold tsc; norm_num⟩, by unfold tsa; norm_num, by unfold tsa; norm_num⟩
    (by unfold tsc; norm_num)
  refine ⟨s, d, D, h1, hD, by rw [h4, hDT], ?_⟩
  rw [h6, hDh]
  push_cast at hlt ⊢
  have : (1 : ℤ) ≤ L := by exact_mod_cast hL
  nlinarith

/-- **C116 fails.** The data of a tube with another bond length are not those of the tube. -/
theorem c116_data_fails {R : ℝ} (hR : 0 < R) (hR' : R ≠ 1.42) {n m L : ℕ} (h : 1 ≤ n + m) (hL : 1 ≤ L) :
    ∃ s d D, nanotube n m R L = .ok (s, d) ∧ nanotubeData n m R = .ok D ∧ s.cell 2 = ![0, 0, L * D.T] ∧ d.T ≠ D.T ∧ d.radius ≠ D.radius := by
  obtain ⟨A, B, hA, hB, -⟩ := across h
  obtain ⟨s, d, h1, h2, h3, h4, -⟩ := tube_main hR h hL hA hB
  obtain ⟨D, hD, hDT, hDh⟩ := tube_TH hR h hA hB
  have hg := tubeDR_pos h
  have hgr : (0 : ℝ) < (tubeDR n m : ℝ) := by exact_mod_cast hg
  have hm2 : ¬ ((m : ℤ) + 2 * n = 0) := by omega
  have hN := Real.sqrt_pos.2 (norm_pos h)
  have h3' := sqrt3_pos
  have hpi := Real.pi_pos
  refine ⟨s, d, D, h1, hD, by rw [h4, hDT], ?_, ?_⟩
  · intro he
    unfold nanotubeData at h2 hD
    simp only at h2 hD
    rw [if_neg hg.ne', if_neg hm2] at h2 hD
    have e1 := Except.ok.inj h2
    have e2 := Except.ok.inj hD
    subst e1 e2
    simp only at he
    rw [div_left_inj' hgr.ne'] at he
    have := mul_right_cancel₀ hN.ne' he
    apply hR'
    linarith
  · intro he
    unfold nanotubeData at h2 hD
    simp only at h2 hD
    rw [if_neg hg.ne', if_neg hm2] at h2 hD
    have e1 := Except.ok.inj h2
    have e2 := Except.ok.inj hD
    subst e1 e2
    simp only at he
    rw [div_left_inj' (by norm_num)] at he
    have := mul_right_cancel₀ hN.ne' he
    rw [div_left_inj' hpi.ne'] at this
    have := mul_left_cancel₀ h3'.ne' this
    exact hR' this.symm

/-- **C116.** Without a chiral vector there is no tube. -/
theorem c116_none (R : ℝ) (L : ℕ) : nanotube 0 0 R L = .error .zeroDivisionError := by
  unfold nanotube
  simp only
  rw [if_pos]
  rw [c51_gcd_nonneg _ _ (by positivity) (by positivity)]
  simp

theorem row_ok (n : ℕ) (hn : 1 ≤ n) (l : List ℕ) (st : List (ℤ × ℝ × ℝ × ℤ × ℤ) × Bool) :
    ∃ st', l.foldl (cntStep n) (.ok st) = .ok st' := by
  induction l generalizing st with
  | nil => exact ⟨st, rfl⟩
  | cons m t ih =>
    rw [List.foldl_cons]
    obtain ⟨l, b⟩ := st
    cases b with
    | true => exact ih (l, true)
    | false =>
      obtain ⟨d, hd, -⟩ := tubeData_ok (n := n) (m := m) (by omega) 1.42
      have : ∃ st', cntStep n (.ok (l, false)) m = .ok st' := by
        unfold cntStep
        simp only [hd]
        split
        · exact ⟨_, rfl⟩
        · exact ⟨_, rfl⟩
      obtain ⟨st', hs⟩ := this
      rw [hs]
      exact ih _

/-- **C116 fails.** The list of nanotubes cannot be had, and so no tube of it. -/
theorem c116_list_fails (i : Option ℤ) : cntList i = .error .typeError := by
  have key : ∃ st, cntData = .ok st := by
    unfold cntData
    generalize List.range 19 = l
    obtain ⟨acc, hacc⟩ : ∃ acc : Except Exn (List (ℤ × ℝ × ℝ × ℤ × ℤ)), acc = .ok [] := ⟨_, rfl⟩
    rw [← hacc]
    have hok : ∃ s, acc = .ok s := ⟨_, hacc⟩
    clear hacc
    induction l generalizing acc with
    | nil => exact hok
    | cons k t ih =>
      rw [List.foldl_cons]
      obtain ⟨r, hr⟩ := row_ok (k + 1) (by omega) (List.range (k + 2)) ([], false)
      obtain ⟨s, rfl⟩ := hok
      apply ih
      simp only [hr]
      exact ⟨_, rfl⟩
  obtain ⟨st, hst⟩ := key
  unfold cntList
  rw [hst]

end Hotbit
