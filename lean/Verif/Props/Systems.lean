import Verif.Lemmas.SystemsRibbon

/-!
# C113: graphene and its ribbons
-/

namespace Hotbit

/-! ### Graphene -/

/-- **C113.** `graphene(n1,n2,R,height)` is a honeycomb sheet with bond length `R`: `2 n1 n2` atoms in the cell, each site of the honeycomb
being exactly one image of one atom; all atoms are in the middle of the cell, which has the given height. -/
theorem c113_graphene {n1 n2 : ℕ} (h1 : 1 ≤ n1) (h2 : 1 ≤ n2) {R : ℝ} (hR : 0 < R) (height : ℝ) :
    ∃ s, graphene n1 n2 (.float R) height = .ok s ∧ s.pos.length = 2 * n1 * n2 ∧ s.Simple ∧
      (∃ H, Honeycomb R H ∧ s.IsSheet H) ∧ (∀ p ∈ s.pos, p 2 = height / 2) ∧ s.cell 2 = ![0, 0, height] := by
  have hlen : (graphenePos n1 n2 R).length = 2 * n1 * n2 := by
    unfold graphenePos
    simp [List.length_flatMap]
    ring
  have hne : graphenePos n1 n2 R ≠ [] := by
    intro h
    rw [h] at hlen
    have : 0 < 2 * n1 * n2 := by positivity
    simp at hlen
    omega
  have hflat : ∀ p ∈ graphenePos n1 n2 R, p 2 = 0 := by
    intro p hp
    obtain ⟨i, -, j, -, rfl | rfl⟩ := graphene_mem.1 hp <;> rfl
  obtain ⟨hmin, hmax⟩ := colMin_const (a := 2) hne hflat
  have h3 : (0 : ℝ) < √3 := Real.sqrt_pos.2 (by norm_num)
  refine ⟨_, rfl, ?_, ?_, ⟨honey0 R, honey0_honeycomb hR, ?_⟩, ?_, ?_⟩
  · simpa [Struct.setPbc, Struct.centerVacuum, Struct.translate, Struct.ofPos] using hlen
  · refine ⟨(graphene_nodup n1 n2 hR).map fun p q h => add_right_cancel h, ?_⟩
    intro p hp q hq k hk hqe
    have k2 := hk 2 (by simp [Struct.setPbc])
    simp only [Struct.setPbc, Struct.centerVacuum, Struct.translate, Struct.ofPos] at hp hq hqe
    obtain ⟨p, hp0, rfl⟩ := List.mem_map.1 hp
    obtain ⟨q, hq0, rfl⟩ := List.mem_map.1 hq
    rw [Fin.sum_univ_three, k2, single2] at hqe
    have f0 := congrFun hqe 0
    have f1 := congrFun hqe 1
    simp [Function.update, Real.cos_pi_div_six] at f0 f1
    have hx : ∀ x y : ℝ, √3 * R * x = √3 * R * y → x = y := fun x y h => mul_left_cancel₀ (by positivity) h
    have hy : ∀ x y : ℝ, R * x = R * y → x = y := fun x y h => mul_left_cancel₀ (by positivity) h
    obtain ⟨i, hi, j, hj, hpe⟩ := graphene_mem.1 hp0
    obtain ⟨i', hi', j', hj', hqe'⟩ := graphene_mem.1 hq0
    have fin : (j' : ℤ) = j + n2 * k 1 → (i' : ℤ) = i + n1 * k 0 → j' = j ∧ i' = i ∧ k 0 = 0 ∧ k 1 = 0 := by
      intro e1 e2
      obtain ⟨a, b⟩ := divmod_unique hj hj' e1
      obtain ⟨c, d⟩ := divmod_unique hi hi' e2
      exact ⟨a, c, d, b⟩
    have hk3 : k 0 = 0 ∧ k 1 = 0 → ∀ a, k a = 0 := by
      rintro ⟨a, b⟩ c
      fin_cases c
      · exact a
      · exact b
      · exact k2
    rcases hpe with rfl | rfl <;> rcases hqe' with rfl | rfl <;>
      simp only [Matrix.cons_val, Matrix.head_cons, Matrix.tail_cons] at f0 f1
    · have e1 : (j' : ℝ) = j + n2 * k 1 := by
        have := hy (3 * j') (3 * (j + n2 * k 1)) (by linarith)
        linarith
      have e2 : (i' : ℝ) = i + n1 * k 0 := by
        have := hx (i' + j' / 2) (i + j / 2 + n1 * k 0 + n2 * k 1 / 2) (by linarith)
        linarith
      obtain ⟨a, b, c⟩ := fin (by exact_mod_cast e1) (by exact_mod_cast e2)
      exact ⟨by rw [a, b], hk3 c⟩
    · exfalso
      have := hy (3 * j' + 2) (3 * (j + n2 * k 1)) (by linarith)
      have : (3 * (j' : ℤ) + 2) = 3 * (j + n2 * k 1) := by exact_mod_cast this
      omega
    · exfalso
      have := hy (3 * j') (3 * (j + n2 * k 1) + 2) (by linarith)
      have : (3 * (j' : ℤ)) = 3 * (j + n2 * k 1) + 2 := by exact_mod_cast this
      omega
    · have e1 : (j' : ℝ) = j + n2 * k 1 := by
        have := hy (3 * j') (3 * (j + n2 * k 1)) (by linarith)
        linarith
      have e2 : (i' : ℝ) = i + n1 * k 0 := by
        have := hx (i' + 1 + j' / 2) (i + 1 + j / 2 + n1 * k 0 + n2 * k 1 / 2) (by linarith)
        linarith
      obtain ⟨a, b, c⟩ := fin (by exact_mod_cast e1) (by exact_mod_cast e2)
      exact ⟨by rw [a, b], hk3 c⟩
  · refine ⟨fun q => ![q.1, q.2, height / 2], ?_, ?_⟩
    · intro p q
      rw [Fin.sum_univ_three]
      simp [d2]
    · ext q
      unfold Struct.sites
      simp only [Set.mem_setOf_eq, Struct.setPbc, Struct.centerVacuum, Struct.translate, Struct.ofPos, List.mem_map, hmin, single2]
      constructor
      · rintro ⟨_, ⟨p, hp, rfl⟩, k, hk, rfl⟩
        have k2 := hk 2 (by simp)
        obtain ⟨i, -, j, -, rfl | rfl⟩ := graphene_mem.1 hp
        · refine ⟨(√3 * R * (((i + n1 * k 0 : ℤ) : ℝ) + ((j + n2 * k 1 : ℤ) : ℝ) / 2), 1.5 * R * ((j + n2 * k 1 : ℤ) : ℝ)),
            ⟨_, _, Or.inl rfl⟩, ?_⟩
          rw [Fin.sum_univ_three, k2]
          ext a
          fin_cases a
          · simp [Function.update, Real.cos_pi_div_six]; ring
          · simp [Function.update]; ring
          · simp [Function.update]
        · refine ⟨(√3 * R * (((i + 1 + n1 * k 0 : ℤ) : ℝ) + ((j + n2 * k 1 : ℤ) : ℝ) / 2), 1.5 * R * ((j + n2 * k 1 : ℤ) : ℝ) + R),
            ⟨_, _, Or.inr rfl⟩, ?_⟩
          rw [Fin.sum_univ_three, k2]
          ext a
          fin_cases a
          · simp [Function.update, Real.cos_pi_div_six]; ring
          · simp [Function.update]; ring
          · simp [Function.update]
      · rintro ⟨_, ⟨i, j, rfl | rfl⟩, rfl⟩
        · obtain ⟨i0, hi0, k0, rfl⟩ := divmod i h1
          obtain ⟨j0, hj0, k1, rfl⟩ := divmod j h2
          refine ⟨_, ⟨_, graphene_mem.2 ⟨i0, hi0, j0, hj0, Or.inl rfl⟩, rfl⟩, ![k0, k1, 0], ?_, ?_⟩
          · intro a; fin_cases a <;> simp
          · rw [Fin.sum_univ_three]
            ext a
            fin_cases a
            · simp [Function.update, Real.cos_pi_div_six]; ring
            · simp [Function.update]; ring
            · simp [Function.update]
        · obtain ⟨i0, hi0, k0, hik⟩ := divmod (i - 1) h1
          obtain ⟨j0, hj0, k1, rfl⟩ := divmod j h2
          obtain rfl : i = i0 + n1 * k0 + 1 := by omega
          refine ⟨_, ⟨_, graphene_mem.2 ⟨i0, hi0, j0, hj0, Or.inr rfl⟩, rfl⟩, ![k0, k1, 0], ?_, ?_⟩
          · intro a; fin_cases a <;> simp
          · rw [Fin.sum_univ_three]
            ext a
            fin_cases a
            · simp [Function.update, Real.cos_pi_div_six]; ring
            · simp [Function.update]; ring
            · simp [Function.update]
  · intro p hp
    simp only [Struct.setPbc, Struct.centerVacuum, Struct.translate, Struct.ofPos, hmin, single2] at hp
    obtain ⟨p, hp0, rfl⟩ := List.mem_map.1 hp
    simp only [Pi.add_apply, hflat p hp0, Matrix.cons_val]
    ring
  · simp only [Struct.setPbc, Struct.centerVacuum, Struct.translate, Struct.ofPos, hmin, hmax, Function.update_self]
    ext a
    fin_cases a <;> simp
    ring

example : ∃ s, graphene 2 3 (.float 1.42) 10 = .ok s ∧ s.pos.length = 12 := by
  obtain ⟨s, h, hl, -⟩ := c113_graphene (n1 := 2) (n2 := 3) (by norm_num) (by norm_num) (R := 1.42) (by norm_num) 10
  exact ⟨s, h, hl⟩

/-- **C113 fails for a whole bond length.** A bond length which is an integer, as in `graphene(2,2,1)`, raises `TypeError`. -/
theorem c113_integer_fails (n1 n2 : ℕ) (R : ℤ) (height : ℝ) : graphene n1 n2 (.int R) height = .error .typeError := rfl

/-! ### Ribbons -/

/-- **C113.** `AGNR(n,units,pbc,R)` is an endless armchair ribbon of `n` rows along x or z, with each site being one image of one of
`2 n units` atoms. -/
theorem c113_armchair (n : ℕ) {units : ℕ} (hu : 1 ≤ units) {R : ℝ} (hR : 0 < R) {ax : Axis} (hax : ax = .x ∨ ax = .z) :
    (agnr n units ax R).pos.length = 2 * n * units ∧ (agnr n units ax R).Simple ∧
      ∃ P, ArmchairRibbon R n P ∧ (agnr n units ax R).IsSheet P := by
  have hlen : (rowOf (agnrUnit n R) (3 * R) units).length = 2 * n * units := by
    rw [rowOf_length, agnrUnit_length]; ring
  have hM : Moved (rowOf (agnrUnit n R) (3 * R) units) (Struct.ofPos (copies (agnrUnit n R) (3 * R) units)) := by
    rw [copies_eq _ _ hu]; exact Moved.of _
  have hflat := rowOf_flat (agnrUnit_flat n R) (3 * R) units
  have hsimple := planarSimple_rowOf (n := units) (agnr_simple n hR)
  have hpl := planar_rowOf (agnrUnit n R) (3 * R) hu
  have hrib := agnr_ribbon n hR
  rcases hax with rfl | rfl
  · obtain ⟨h1, h2, h3⟩ := sheet_x' (s := agnr n units .x R) (c := units * (3 * R)) ((hM.translate _).translate _) rfl
      (by simp [agnr, Struct.centerVacuum, Struct.translate, Struct.setBox, Function.update, mul_assoc]) hflat
    exact ⟨h3.trans hlen, h2 hsimple, _, hrib, hpl ▸ h1⟩
  · obtain ⟨h1, h2, h3⟩ := sheet_z' (s := agnr n units .z R) (c := units * (3 * R)) (hM.turn.translate _) rfl
      (by simp [agnr, Struct.toCenter, Struct.translate, Struct.setBox, mul_assoc]) hflat
    exact ⟨h3.trans hlen, h2 hsimple, _, hrib, hpl ▸ h1⟩

example : (agnr 7 3 .z 1.42).pos.length = 42 :=
  (c113_armchair 7 (by norm_num) (by norm_num) (Or.inr rfl)).1

/-- **C113.** `ZGNR(n,units,pbc,R)` is an endless zigzag ribbon of `n` rows along x or z, with each site being one image of one of
`2 n units` atoms. -/
theorem c113_zigzag (n : ℕ) {units : ℕ} (hu : 1 ≤ units) {R : ℝ} (hR : 0 < R) {ax : Axis} (hax : ax = .x ∨ ax = .z) :
    (zgnr n units ax R).pos.length = 2 * n * units ∧ (zgnr n units ax R).Simple ∧
      ∃ P, ZigzagRibbon R n P ∧ (zgnr n units ax R).IsSheet P := by
  have hlen : (rowOf (zgnrUnit n R) (R * √3) units).length = 2 * n * units := by
    rw [rowOf_length, zgnrUnit_length]; ring
  have hM : Moved (rowOf (zgnrUnit n R) (R * √3) units) (Struct.ofPos (copies (zgnrUnit n R) (R * √3) units)) := by
    rw [copies_eq _ _ hu]; exact Moved.of _
  have hflat := rowOf_flat (zgnrUnit_flat n R) (R * √3) units
  have hsimple := planarSimple_rowOf (n := units) (zgnr_simple n hR)
  have hpl := planar_rowOf (zgnrUnit n R) (R * √3) hu
  have hrib := zgnr_ribbon n hR
  rcases hax with rfl | rfl
  · obtain ⟨h1, h2, h3⟩ := sheet_x' (s := zgnr n units .x R) (c := units * (R * √3)) ((hM.translate _).translate _) rfl
      (by simp [zgnr, Struct.centerVacuum, Struct.translate, Struct.setBox, Function.update]) hflat
    exact ⟨h3.trans hlen, h2 hsimple, _, hrib, hpl ▸ h1⟩
  · obtain ⟨h1, h2, h3⟩ := sheet_z' (s := zgnr n units .z R) (c := units * (R * √3)) ((hM.turn.translate _).translate _) rfl
      (by simp [zgnr, Struct.center, Struct.toCenter, Struct.translate, Struct.setBox]) hflat
    exact ⟨h3.trans hlen, h2 hsimple, _, hrib, hpl ▸ h1⟩

example : (zgnr 4 3 .z 1.42).pos.length = 24 :=
  (c113_zigzag 4 (by norm_num) (by norm_num) (Or.inr rfl)).1

/-- **C113.** `armchair_ribbon(n1,n2,R,pbc)` is an endless armchair ribbon of `2 n2` rows along x or z, with each site being one image of
one of `4 n1 n2` atoms; another direction is refused. -/
theorem c113_armchair_ribbon {n1 : ℕ} (h1 : 1 ≤ n1) (n2 : ℕ) {R : ℝ} (hR : 0 < R) (ax : Axis) :
    match armchairRibbon n1 n2 R ax with
    | .error e => ax = .other ∧ e = .notImplementedError
    | .ok s => ax ≠ .other ∧ s.pos.length = 4 * n1 * n2 ∧ s.Simple ∧ ∃ P, ArmchairRibbon R (2 * n2) P ∧ s.IsSheet P := by
  have hlen : (rowOf (agnrUnit (2 * n2) R) (3 * R) n1).length = 4 * n1 * n2 := by
    rw [rowOf_length, agnrUnit_length]; ring
  have hM : Moved (rowOf (agnrUnit (2 * n2) R) (3 * R) n1) (Struct.ofPos (armchairPos n1 n2 R)) := by
    rw [armchairPos_eq]; exact Moved.of _
  have hflat := rowOf_flat (agnrUnit_flat (2 * n2) R) (3 * R) n1
  have hsimple := planarSimple_rowOf (n := n1) (agnr_simple (2 * n2) hR)
  have hpl := planar_rowOf (agnrUnit (2 * n2) R) (3 * R) h1
  have hrib := agnr_ribbon (2 * n2) hR
  cases ax with
  | other => exact ⟨rfl, rfl⟩
  | x =>
    obtain ⟨a, b, c⟩ := sheet_x' (s := (((((Struct.ofPos (armchairPos n1 n2 R)).setBox (n1 * 3 * R)
      (n2 * 2 * R * Real.cos (Real.pi / 6)) 1).centerVacuum 5 2).centerVacuum 5 1).setPbc true false false))
      (c := n1 * (3 * R)) ((hM.translate _).translate _) rfl
      (by simp [Struct.setPbc, Struct.centerVacuum, Struct.translate, Struct.setBox, Function.update, mul_assoc]) hflat
    exact ⟨by simp, c.trans hlen, b hsimple, _, hrib, hpl ▸ a⟩
  | z =>
    obtain ⟨a, b, c⟩ := sheet_z' (s := (((Struct.ofPos (armchairPos n1 n2 R)).standUp.setBox (n2 * 2 * R * Real.cos (Real.pi / 6)) 1
      (n1 * 3 * R)).setPbc false false true)) (c := n1 * (3 * R)) hM.standUp rfl
      (by simp [Struct.setPbc, Struct.setBox, mul_assoc]) hflat
    exact ⟨by simp, c.trans hlen, b hsimple, _, hrib, hpl ▸ a⟩

example : ∃ s, armchairRibbon 2 3 1.42 .z = .ok s ∧ s.pos.length = 24 := by
  have := c113_armchair_ribbon (n1 := 2) (by norm_num) 3 (R := 1.42) (by norm_num) .z
  exact ⟨_, rfl, this.2.1⟩

/-- **C113, the part that holds for `zigzag_ribbon`.** One unit, periodic along x, is a zigzag ribbon of `2 n2` rows. Missing: other
lengths, and the direction z. -/
theorem c113_zigzag_ribbon_partial (n2 : ℕ) {R : ℝ} (hR : 0 < R) : ∃ s, zigzagRibbon 1 n2 R .x = .ok s ∧ s.pos.length = 4 * n2 ∧ s.Simple ∧
    ∃ P, ZigzagRibbon R (2 * n2) P ∧ s.IsSheet P := by
  have hlen : (rowOf (zigUnit n2 R) (R * √3) 1).length = 4 * n2 := by
    rw [rowOf_length, zigUnit_length]; ring
  have hM : Moved (rowOf (zigUnit n2 R) (R * √3) 1) (Struct.ofPos (zigzagPos 1 n2 R)) := by
    rw [zigzagPos_eq]; exact Moved.of _
  have hflat := rowOf_flat (zigUnit_flat n2 R) (R * √3) 1
  have hsimple := planarSimple_rowOf (n := 1) (zig_simple n2 hR)
  have hpl := planar_rowOf (zigUnit n2 R) (R * √3) le_rfl
  have hrib := zig_ribbon n2 hR
  refine ⟨_, rfl, ?_⟩
  obtain ⟨a, b, c⟩ := sheet_x' (s := ((((((Struct.ofPos (zigzagPos 1 n2 R)).setBox ((1 : ℕ) * 2 * R * Real.cos (Real.pi / 6)) (n2 * 3 * R) 1).setBox
      (2 * R * Real.cos (Real.pi / 6)) ((1 : ℕ) * 3 * R) 1).centerVacuum 5 2).centerVacuum 5 1).setPbc true false false))
      (c := (1 : ℕ) * (R * √3)) ((hM.translate _).translate _) rfl
      (by
        simp only [Struct.setPbc, Struct.centerVacuum, Struct.translate, Struct.setBox, Real.cos_pi_div_six]
        rw [Function.update_of_ne (by decide), Function.update_of_ne (by decide)]
        simp only [Matrix.cons_val]
        congr 1
        push_cast; ring) hflat
  exact ⟨c.trans hlen, b hsimple, _, hrib, hpl ▸ a⟩

/-- **C113 fails for `zigzag_ribbon` along x.** With two units or more the cell is one unit long, so that atoms lie on top of images of
other atoms. -/
theorem c113_zigzag_ribbon_x_fails {n1 n2 : ℕ} (h1 : 2 ≤ n1) (h2 : 1 ≤ n2) {R : ℝ} (hR : 0 < R) :
    ∃ s, zigzagRibbon n1 n2 R .x = .ok s ∧ ¬ s.Simple := by
  refine ⟨_, rfl, ?_⟩
  have hM : Moved (rowOf (zigUnit n2 R) (R * √3) n1) (Struct.ofPos (zigzagPos n1 n2 R)) := by
    rw [zigzagPos_eq]; exact Moved.of _
  obtain ⟨t, ht⟩ := (hM.translate (Pi.single 2 (5 - colMin (zigzagPos n1 n2 R) 2))).translate
    (Pi.single 1 (5 - colMin (((Struct.ofPos (zigzagPos n1 n2 R)).translate (Pi.single 2 (5 - colMin (zigzagPos n1 n2 R) 2))).pos) 1))
  intro hs
  have hp0 : (![0, (0 : ℕ) * (3 * R) + R, 0] : Vec) ∈ zigUnit n2 R := zigUnit_mem.2 ⟨0, by omega, Or.inr (Or.inl rfl)⟩
  have hp : ∀ i < n1, (![0, (0 : ℕ) * (3 * R) + R, 0] : Vec) + ![(i : ℝ) * (R * √3), 0, 0] + t ∈ ((((((Struct.ofPos (zigzagPos n1 n2 R)).setBox
      (n1 * 2 * R * Real.cos (Real.pi / 6)) (n2 * 3 * R) 1).setBox
      (2 * R * Real.cos (Real.pi / 6)) (n1 * 3 * R) 1).centerVacuum 5 2).centerVacuum 5 1).setPbc true false false).pos := by
    intro i hi
    have : ((((((Struct.ofPos (zigzagPos n1 n2 R)).setBox
      (n1 * 2 * R * Real.cos (Real.pi / 6)) (n2 * 3 * R) 1).setBox
      (2 * R * Real.cos (Real.pi / 6)) (n1 * 3 * R) 1).centerVacuum 5 2).centerVacuum 5 1).setPbc true false false).pos =
      (rowOf (zigUnit n2 R) (R * √3) n1).map fun p => p + t := ht
    rw [this]
    exact List.mem_map.2 ⟨_, mem_rowOf.2 ⟨i, hi, _, hp0, rfl⟩, rfl⟩
  obtain ⟨-, hk⟩ := hs.2 _ (hp 0 (by omega)) _ (hp 1 (by omega)) ![1, 0, 0] (by
    intro a ha
    fin_cases a
    · simp [Struct.setPbc] at ha
    · rfl
    · rfl) (by
    rw [Fin.sum_univ_three]
    simp only [Struct.setPbc, Struct.centerVacuum, Struct.translate, Struct.setBox, Real.cos_pi_div_six]
    rw [Function.update_of_ne (show (0 : Fin 3) ≠ 1 by decide), Function.update_of_ne (show (0 : Fin 3) ≠ 2 by decide)]
    ext a
    fin_cases a
    · simp only [Pi.add_apply, Pi.smul_apply, smul_eq_mul, Fin.zero_eta, Matrix.cons_val]; push_cast; ring
    · simp only [Pi.add_apply, Pi.smul_apply, smul_eq_mul, Fin.mk_one, Matrix.cons_val]; push_cast; ring
    · simp only [Pi.add_apply, Pi.smul_apply, smul_eq_mul, Fin.reduceFinMk, Matrix.cons_val]; push_cast; ring)
  have := hk 0
  simp at this

example : ∃ s, zigzagRibbon 2 3 1.42 .x = .ok s ∧ ¬ s.Simple := c113_zigzag_ribbon_x_fails (by norm_num) (by norm_num) (by norm_num)

/-- **C113 fails for `zigzag_ribbon` along z.** The cell is too long (`3 R` in place of `√3 R` for each unit): some atom has a single
neighbour at the bond length, whereas all atoms of a ribbon have two or three. -/
theorem c113_zigzag_ribbon_z_fails {n1 n2 : ℕ} (h1 : 1 ≤ n1) (h2 : 1 ≤ n2) {R : ℝ} (hR : 0 < R) :
    ∃ s, zigzagRibbon n1 n2 R .z = .ok s ∧ ∃ q ∈ s.sites, ∃ b, {q' ∈ s.sites | ∑ a, (q a - q' a) ^ 2 = R ^ 2} = {b} := by
  refine ⟨_, rfl, ?_⟩
  have hM : Moved (rowOf (zigUnit n2 R) (R * √3) n1) ((Struct.ofPos (zigzagPos n1 n2 R)).setBox (n1 * 2 * R * Real.cos (Real.pi / 6)) (n2 * 3 * R) 1) := by
    rw [zigzagPos_eq]; exact Moved.of _
  have hflat := rowOf_flat (zigUnit_flat n2 R) (R * √3) n1
  obtain ⟨⟨f, hf, hs⟩, -⟩ := sheet_z' (s := ((((Struct.ofPos (zigzagPos n1 n2 R)).setBox (n1 * 2 * R * Real.cos (Real.pi / 6)) (n2 * 3 * R) 1).standUp.setBox
      (n2 * 2 * R * Real.cos (Real.pi / 6)) 1 (n1 * 3 * R)).setPbc false false true)) (c := n1 * (3 * R)) hM.standUp rfl
      (by simp [Struct.setPbc, Struct.setBox, mul_assoc]) hflat
  rw [hs]
  have m0 : ∀ i < n1, ∀ p ∈ zigUnit n2 R, p + ![(i : ℝ) * (R * √3), 0, 0] ∈ rowOf (zigUnit n2 R) (R * √3) n1 :=
    fun i hi p hp => mem_rowOf.2 ⟨i, hi, p, hp, rfl⟩
  have hq : (R * √3 / 2 + ((n1 - 1 : ℕ) : ℝ) * (R * √3), R / 2) ∈ planar (rowOf (zigUnit n2 R) (R * √3) n1) (n1 * (3 * R)) := by
    refine ⟨_, m0 (n1 - 1) (by omega) _ (zigUnit_mem.2 ⟨0, by omega, Or.inl rfl⟩), 0, ?_⟩
    ext <;> simp
  have hb : (((n1 - 1 : ℕ) : ℝ) * (R * √3), R) ∈ planar (rowOf (zigUnit n2 R) (R * √3) n1) (n1 * (3 * R)) := by
    refine ⟨_, m0 (n1 - 1) (by omega) _ (zigUnit_mem.2 ⟨0, by omega, Or.inr (Or.inl rfl)⟩), 0, ?_⟩
    ext <;> simp
  refine ⟨_, ⟨_, hq, rfl⟩, f (((n1 - 1 : ℕ) : ℝ) * (R * √3), R), ?_⟩
  have s1 := lt_sqrt3
  have s2 := sqrt3_lt
  have s3 := sq3
  obtain ⟨m, rfl⟩ : ∃ m, n1 = m + 1 := ⟨n1 - 1, by omega⟩
  simp only [Nat.add_sub_cancel] at hq hb ⊢
  ext q
  constructor
  · rintro ⟨⟨p, ⟨_, hp, k, rfl⟩, rfl⟩, hd⟩
    rw [hf] at hd
    obtain ⟨i, hi, p, hpu, rfl⟩ := mem_rowOf.1 hp
    have him : (i : ℝ) ≤ m := by exact_mod_cast (by omega : i ≤ m)
    have hi0 : (0 : ℝ) ≤ i := by positivity
    have hm0 : (0 : ℝ) ≤ m := by positivity
    unfold d2 at hd
    simp only [Pi.add_apply, Matrix.cons_val, add_zero] at hd
    push_cast at hd
    have far : ∀ c x : ℝ, 0 < c → x ≤ -c → c ^ 2 ≤ x ^ 2 := by
      intro c x hc h
      nlinarith
    obtain ⟨j, hj, hpe⟩ := zigUnit_mem.1 hpu
    have hj1 : (0 : ℝ) ≤ j := by positivity
    have hjR : 0 ≤ (j : ℝ) * R := by positivity
    rcases hpe with rfl | rfl | rfl | rfl <;> simp only [Matrix.cons_val] at hd
    · exfalso
      rcases Nat.eq_zero_or_pos j with rfl | hj0
      · refine zz1 hR (m := m) (i := i) (by omega) k ?_
        push_cast at hd
        linarith
      · have hj1 : R ≤ (j : ℝ) * R := by
          have : (1 : ℝ) ≤ j := by exact_mod_cast hj0
          nlinarith
        have h5 := far (3 * R) (R / 2 - (j * (3 * R) + R / 2)) (by positivity) (by linarith)
        have h6 := sq_nonneg (R * √3 / 2 + m * (R * √3) - (R * √3 / 2 + i * (R * √3) + k * ((m + 1) * (3 * R))))
        clear * - h5 h6 hd hR
        nlinarith
    · rcases Nat.eq_zero_or_pos j with rfl | hj0
      · obtain ⟨rfl, rfl⟩ := zz2 hR (m := m) (i := i) (by omega) k (by push_cast at hd; linarith)
        rw [Set.mem_singleton_iff]
        congr 1
        ext <;> simp
      · exfalso
        have hj1 : R ≤ (j : ℝ) * R := by
          have : (1 : ℝ) ≤ j := by exact_mod_cast hj0
          nlinarith
        have h5 := far (3 * R) (R / 2 - (j * (3 * R) + R)) (by positivity) (by linarith)
        have h6 := sq_nonneg (R * √3 / 2 + m * (R * √3) - (0 + i * (R * √3) + k * ((m + 1) * (3 * R))))
        clear * - h5 h6 hd hR
        nlinarith
    · exfalso
      have h5 := far (1.5 * R) (R / 2 - (j * (3 * R) + 2 * R)) (by positivity) (by linarith)
      have h6 := sq_nonneg (R * √3 / 2 + m * (R * √3) - (0 + i * (R * √3) + k * ((m + 1) * (3 * R))))
      clear * - h5 h6 hd hR
      nlinarith
    · exfalso
      have h5 := far (1.5 * R) (R / 2 - (j * (3 * R) + 2.5 * R)) (by positivity) (by linarith)
      have h6 := sq_nonneg (R * √3 / 2 + m * (R * √3) - (R * √3 / 2 + i * (R * √3) + k * ((m + 1) * (3 * R))))
      clear * - h5 h6 hd hR
      nlinarith
  · rintro rfl
    refine ⟨⟨_, hb, rfl⟩, ?_⟩
    rw [hf]
    unfold d2
    simp only
    nlinarith [sq3]

example : ∃ s, zigzagRibbon 2 3 1.42 .z = .ok s ∧ ∃ q ∈ s.sites, ∃ b, {q' ∈ s.sites | ∑ a, (q a - q' a) ^ 2 = (1.42 : ℝ) ^ 2} = {b} :=
  c113_zigzag_ribbon_z_fails (by norm_num) (by norm_num) (by norm_num)

end Hotbit
