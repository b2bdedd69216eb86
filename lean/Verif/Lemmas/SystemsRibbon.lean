import Verif.Lemmas.Systems

/-!
# Lemmas on graphene and ribbons
-/

namespace Hotbit

theorem graphene_mem {n1 n2 : ℕ} {R : ℝ} {q : Vec} : q ∈ graphenePos n1 n2 R ↔ ∃ i < n1, ∃ j < n2,
    q = ![√3 * R * ((i : ℝ) + (j : ℝ) / 2), 1.5 * R * (j : ℝ), 0] ∨
      q = ![√3 * R * ((i : ℝ) + 1 + (j : ℝ) / 2), 1.5 * R * (j : ℝ) + R, 0] := by
  unfold graphenePos
  simp only [List.mem_flatMap, List.mem_range, List.mem_cons, List.not_mem_nil, or_false]
  have e1 : ∀ i j : ℕ, ((i : ℝ) • (![R * Real.cos (Real.pi / 6) * 2, 0, 0] : Vec) +
      (j : ℝ) • ((0.5 : ℝ) • (![R * Real.cos (Real.pi / 6) * 2, 0, 0] : Vec) + ![0, 1.5 * R, 0])) =
      ![√3 * R * ((i : ℝ) + (j : ℝ) / 2), 1.5 * R * (j : ℝ), 0] := by
    intro i j
    rw [Real.cos_pi_div_six]
    ext a
    fin_cases a <;> simp <;> ring
  have e2 : ∀ i j : ℕ, ((i : ℝ) • (![R * Real.cos (Real.pi / 6) * 2, 0, 0] : Vec) +
      (j : ℝ) • ((0.5 : ℝ) • (![R * Real.cos (Real.pi / 6) * 2, 0, 0] : Vec) + ![0, 1.5 * R, 0])) +
      ![R * Real.cos (Real.pi / 6) * 2, 0, 0] + ![0, R, 0] =
      ![√3 * R * ((i : ℝ) + 1 + (j : ℝ) / 2), 1.5 * R * (j : ℝ) + R, 0] := by
    intro i j
    rw [e1, Real.cos_pi_div_six]
    ext a
    fin_cases a <;> simp <;> ring
  simp only [e2]
  simp only [e1]

theorem single2 (x : ℝ) : (Pi.single 2 x : Vec) = ![0, 0, x] := by
  ext a
  fin_cases a <;> simp

theorem foldl_const {f : ℝ → ℝ → ℝ} {c : ℝ} (hf : f c c = c) (l : List ℝ) (h : ∀ x ∈ l, x = c) : l.foldl f c = c := by
  induction l with
  | nil => rfl
  | cons a l ih =>
    rw [List.foldl_cons, h a List.mem_cons_self, hf]
    exact ih fun x hx => h x (List.mem_cons_of_mem _ hx)

theorem colMin_const {l : List Vec} {a : Fin 3} {c : ℝ} (hne : l ≠ []) (h : ∀ p ∈ l, p a = c) : colMin l a = c ∧ colMax l a = c := by
  obtain ⟨p, l, rfl⟩ := List.exists_cons_of_ne_nil hne
  unfold colMin colMax
  simp only [List.map_cons, List.tail_cons, List.headD_cons, h p List.mem_cons_self]
  constructor
  · refine foldl_const (min_self c) _ fun x hx => ?_
    obtain ⟨q, hq, rfl⟩ := List.mem_map.1 hx
    exact h q (List.mem_cons_of_mem _ hq)
  · refine foldl_const (max_self c) _ fun x hx => ?_
    obtain ⟨q, hq, rfl⟩ := List.mem_map.1 hx
    exact h q (List.mem_cons_of_mem _ hq)

theorem graphene_nodup (n1 n2 : ℕ) {R : ℝ} (hR : 0 < R) : (graphenePos n1 n2 R).Nodup := by
  have h3 : (0 : ℝ) < √3 := Real.sqrt_pos.2 (by norm_num)
  have hinj : ∀ i j : ℕ, ∀ i' j' : ℕ, ∀ q : Vec,
      (q = ![√3 * R * ((i : ℝ) + (j : ℝ) / 2), 1.5 * R * (j : ℝ), 0] ∨
        q = ![√3 * R * ((i : ℝ) + 1 + (j : ℝ) / 2), 1.5 * R * (j : ℝ) + R, 0]) →
      (q = ![√3 * R * ((i' : ℝ) + (j' : ℝ) / 2), 1.5 * R * (j' : ℝ), 0] ∨
        q = ![√3 * R * ((i' : ℝ) + 1 + (j' : ℝ) / 2), 1.5 * R * (j' : ℝ) + R, 0]) → i = i' ∧ j = j' := by
    have hx : ∀ x y : ℝ, √3 * R * x = √3 * R * y → x = y := fun x y h => mul_left_cancel₀ (by positivity) h
    have hy : ∀ x y : ℝ, 1.5 * R * x = 1.5 * R * y → x = y := fun x y h => mul_left_cancel₀ (by positivity) h
    have hno : ∀ j j' : ℕ, 1.5 * R * (j : ℝ) ≠ 1.5 * R * (j' : ℝ) + R := by
      intro j j' h
      have : R * (3 * (j : ℝ)) = R * (3 * j' + 2) := by linarith
      have := mul_left_cancel₀ hR.ne' this
      have h' : 3 * j = 3 * j' + 2 := by exact_mod_cast this
      omega
    rintro i j i' j' q (rfl | rfl) (h | h)
    · have e0 := congrFun h 0
      have e1 := congrFun h 1
      simp only [Matrix.cons_val] at e0 e1
      have ej : j = j' := by exact_mod_cast hy _ _ e1
      subst ej
      refine ⟨?_, rfl⟩
      have := hx _ _ e0
      have : (i : ℝ) = i' := by linarith
      exact_mod_cast this
    · have e1 := congrFun h 1
      simp only [Matrix.cons_val] at e1
      exact absurd e1 (hno j j')
    · have e1 := congrFun h 1
      simp only [Matrix.cons_val] at e1
      exact absurd e1.symm (hno j' j)
    · have e0 := congrFun h 0
      have e1 := congrFun h 1
      simp only [Matrix.cons_val] at e0 e1
      have ej : j = j' := by
        have := hy j j' (by linarith)
        exact_mod_cast this
      subst ej
      refine ⟨?_, rfl⟩
      have := hx _ _ e0
      have : (i : ℝ) = i' := by linarith
      exact_mod_cast this
  have e1 : ∀ i j : ℕ, ((i : ℝ) • (![R * Real.cos (Real.pi / 6) * 2, 0, 0] : Vec) +
      (j : ℝ) • ((0.5 : ℝ) • (![R * Real.cos (Real.pi / 6) * 2, 0, 0] : Vec) + ![0, 1.5 * R, 0])) =
      ![√3 * R * ((i : ℝ) + (j : ℝ) / 2), 1.5 * R * (j : ℝ), 0] := by
    intro i j
    rw [Real.cos_pi_div_six]
    ext a
    fin_cases a <;> simp <;> ring
  have e2 : ∀ i j : ℕ, (![√3 * R * ((i : ℝ) + (j : ℝ) / 2), 1.5 * R * (j : ℝ), 0] : Vec) +
      ![R * Real.cos (Real.pi / 6) * 2, 0, 0] + ![0, R, 0] =
      ![√3 * R * ((i : ℝ) + 1 + (j : ℝ) / 2), 1.5 * R * (j : ℝ) + R, 0] := by
    intro i j
    rw [Real.cos_pi_div_six]
    ext a
    fin_cases a <;> simp <;> ring
  unfold graphenePos
  simp only [e1, e2]
  rw [List.nodup_flatMap]
  constructor
  · intro i _
    rw [List.nodup_flatMap]
    constructor
    · intro j _
      simp only [List.nodup_cons, List.mem_singleton, List.not_mem_nil, not_false_iff, List.nodup_nil, and_true]
      intro h
      have e1 := congrFun h 1
      simp only [Matrix.cons_val] at e1
      linarith
    · refine (List.nodup_range (n := n2)).imp ?_
      intro j j' hjj q hq1 hq2
      simp only [List.mem_cons, List.not_mem_nil, or_false] at hq1 hq2
      exact hjj (hinj i j i j' q hq1 hq2).2
  · refine (List.nodup_range (n := n1)).imp ?_
    intro i i' hii q hq1 hq2
    obtain ⟨j, -, hq1⟩ := List.mem_flatMap.1 hq1
    obtain ⟨j', -, hq2⟩ := List.mem_flatMap.1 hq2
    simp only [List.mem_cons, List.not_mem_nil, or_false] at hq1 hq2
    exact hii (hinj i j i' j' q hq1 hq2).1

theorem divmod (k : ℤ) {n : ℕ} (hn : 1 ≤ n) : ∃ i < n, ∃ m : ℤ, k = i + n * m := by
  have hn' : (0 : ℤ) < n := by omega
  have h1 := Int.emod_nonneg k hn'.ne'
  have h2 := Int.emod_lt_of_pos k hn'
  refine ⟨(k % n).toNat, by omega, k / n, ?_⟩
  rw [Int.toNat_of_nonneg h1]
  exact (Int.emod_add_mul_ediv k n).symm

theorem divmod_unique {n i j : ℕ} {k : ℤ} (hi : i < n) (hj : j < n) (h : (j : ℤ) = i + n * k) : j = i ∧ k = 0 := by
  have h5 : k = 0 := by
    have a : -(n : ℤ) < n * k := by omega
    have b : n * k < (n : ℤ) := by omega
    have hn0 : (0 : ℤ) < n := by omega
    have : -1 < k := by nlinarith
    have : k < 1 := by nlinarith
    omega
  subst h5
  exact ⟨by omega, rfl⟩

/-! ### Moving structures -/

def Moved (L : List Vec) (s : Struct) : Prop := ∃ t : Vec, s.pos = L.map fun p => p + t
def MovedUp (L : List Vec) (s : Struct) : Prop := ∃ t : Vec, s.pos = L.map fun p => ![-p 1, -p 2, p 0] + t

theorem Moved.translate {L : List Vec} {s : Struct} (h : Moved L s) (v : Vec) : Moved L (s.translate v) := by
  obtain ⟨t, h⟩ := h
  refine ⟨t + v, ?_⟩
  unfold Struct.translate
  simp only [h, List.map_map]
  refine List.map_congr_left fun p _ => ?_
  simp [add_assoc]

theorem MovedUp.translate {L : List Vec} {s : Struct} (h : MovedUp L s) (v : Vec) : MovedUp L (s.translate v) := by
  obtain ⟨t, h⟩ := h
  refine ⟨t + v, ?_⟩
  unfold Struct.translate
  simp only [h, List.map_map]
  refine List.map_congr_left fun p _ => ?_
  simp only [Function.comp_apply, add_assoc]

theorem Moved.of (L : List Vec) : Moved L (Struct.ofPos L) := ⟨0, by simp [Struct.ofPos]⟩

theorem Moved.turn {L : List Vec} {s : Struct} (h : Moved L s) : MovedUp L s.turnZ.turnX := by
  obtain ⟨t, h⟩ := h
  refine ⟨![-t 1, -t 2, t 0], ?_⟩
  unfold Struct.turnZ Struct.turnX
  simp only [h, List.map_map]
  refine List.map_congr_left fun p _ => ?_
  ext a
  fin_cases a
  · simp only [Function.comp_apply, Pi.add_apply, Fin.zero_eta, Fin.mk_one, Fin.reduceFinMk, Matrix.cons_val]; ring
  · simp only [Function.comp_apply, Pi.add_apply, Fin.zero_eta, Fin.mk_one, Fin.reduceFinMk, Matrix.cons_val]; ring
  · simp only [Function.comp_apply, Pi.add_apply, Fin.zero_eta, Fin.mk_one, Fin.reduceFinMk, Matrix.cons_val]

theorem Moved.standUp {L : List Vec} {s : Struct} (h : Moved L s) : MovedUp L s.standUp :=
  ((((h.translate _).turn).translate _).translate _).translate _

/-! ### The ribbons as sets in the plane -/

theorem sqrt3_pos : (0 : ℝ) < √3 := Real.sqrt_pos.2 (by norm_num)
theorem sqrt3_lt : √3 < (1.8 : ℝ) := by
  rw [Real.sqrt_lt' (by norm_num)]; norm_num
theorem lt_sqrt3 : (1.7 : ℝ) < √3 := by
  rw [Real.lt_sqrt (by norm_num)]; norm_num

/-- The honeycomb with bonds along the first axis. -/
def honey1 (R : ℝ) : Set (ℝ × ℝ) :=
  {p | ∃ i j : ℤ, p = (1.5 * R * j, √3 * R * (i + j / 2)) ∨ p = (1.5 * R * j + R, √3 * R * (i + j / 2))}

theorem honey1_honeycomb {R : ℝ} (hR : 0 < R) : Honeycomb R (honey1 R) := by
  have h := (honey0_honeycomb hR).map Prod.swap (by intro p q; unfold d2; simp; ring)
  convert h using 1
  ext q
  constructor
  · rintro ⟨i, j, rfl | rfl⟩
    · exact ⟨_, ⟨i, j, Or.inl rfl⟩, rfl⟩
    · exact ⟨_, ⟨i, j, Or.inr rfl⟩, rfl⟩
  · rintro ⟨_, ⟨i, j, rfl | rfl⟩, rfl⟩
    · exact ⟨i, j, Or.inl rfl⟩
    · exact ⟨i, j, Or.inr rfl⟩

/-- The honeycomb with bonds along the second axis, shifted. -/
def honey2 (R sx : ℝ) : Set (ℝ × ℝ) :=
  {p | ∃ i j : ℤ, p = (√3 * R * (i + j / 2) + sx, 1.5 * R * j + R) ∨ p = (√3 * R * (i + j / 2) + sx, 1.5 * R * j + 2 * R)}

theorem honey2_honeycomb {R : ℝ} (hR : 0 < R) (sx : ℝ) : Honeycomb R (honey2 R sx) := by
  have h := (honey0_honeycomb hR).map (fun p => (p.1 + sx, p.2 + R)) (by intro p q; unfold d2; ring)
  convert h using 1
  ext q
  constructor
  · rintro ⟨i, j, rfl | rfl⟩
    · exact ⟨_, ⟨i, j, Or.inl rfl⟩, rfl⟩
    · exact ⟨_, ⟨i, j, Or.inr rfl⟩, by ext <;> simp; ring⟩
  · rintro ⟨_, ⟨i, j, rfl | rfl⟩, rfl⟩
    · exact ⟨i, j, Or.inl rfl⟩
    · exact ⟨i, j, Or.inr (by ext <;> simp; ring)⟩

theorem agnrUnit_mem {n : ℕ} {R : ℝ} {q : Vec} : q ∈ agnrUnit n R ↔ ∃ i < n,
    q = ![((i % 2 : ℕ) : ℝ) * (1.5 * R), (i : ℝ) * (R * √3) / 2, 0] ∨
      q = ![((i % 2 : ℕ) : ℝ) * (1.5 * R) + R, (i : ℝ) * (R * √3) / 2, 0] := by
  unfold agnrUnit
  simp only [List.mem_flatMap, List.mem_range, List.mem_cons, List.not_mem_nil, or_false]
  refine exists_congr fun i => and_congr_right fun _ => ?_
  have h2 : i % 2 = 0 ∨ i % 2 = 1 := by omega
  rcases h2 with h2 | h2 <;> simp [h2]

theorem agnrUnit_flat (n : ℕ) (R : ℝ) : ∀ p ∈ agnrUnit n R, p 2 = 0 := by
  intro p hp
  obtain ⟨i, -, rfl | rfl⟩ := agnrUnit_mem.1 hp <;> rfl

theorem agnrUnit_length (n : ℕ) (R : ℝ) : (agnrUnit n R).length = n * 2 := by
  unfold agnrUnit
  simp [List.length_flatMap]

theorem agnr_planar (n : ℕ) {R : ℝ} (hR : 0 < R) :
    planar (agnrUnit n R) (3 * R) = stripOf (honey1 R) 0 (0 + ((n : ℝ) - 1) * (√3 * R / 2)) := by
  have h3 := sqrt3_pos
  ext q
  constructor
  · rintro ⟨p, hp, k, rfl⟩
    obtain ⟨i, hi, hp⟩ := agnrUnit_mem.1 hp
    have hi2 : ((i % 2 : ℕ) : ℝ) + 2 * ((i / 2 : ℕ) : ℝ) = i := by exact_mod_cast Nat.mod_add_div i 2
    have hin : (i : ℝ) ≤ n - 1 := by
      have : (i : ℝ) + 1 ≤ n := by exact_mod_cast hi
      linarith
    have hy1 : (0 : ℝ) ≤ (i : ℝ) * (R * √3) / 2 := by positivity
    have hy2 : (i : ℝ) * (R * √3) / 2 ≤ 0 + ((n : ℝ) - 1) * (√3 * R / 2) := by
      have : (0 : ℝ) < √3 * R / 2 := by positivity
      have := mul_le_mul_of_nonneg_right hin this.le
      linarith
    generalize i % 2 = e at hi2 hp
    generalize i / 2 = h at hi2
    rcases hp with rfl | rfl
    · refine ⟨⟨(h : ℤ) - k, (e : ℤ) + 2 * k, Or.inl ?_⟩, hy1, hy2⟩
      ext
      · simp; ring
      · simp only [Matrix.cons_val]
        push_cast
        rw [← hi2]; ring
    · refine ⟨⟨(h : ℤ) - k, (e : ℤ) + 2 * k, Or.inr ?_⟩, hy1, hy2⟩
      ext
      · simp; ring
      · simp only [Matrix.cons_val]
        push_cast
        rw [← hi2]; ring
  · rintro ⟨⟨i', j, hq⟩, hlo, hhi⟩
    have hrow : ∃ i < n, (i : ℤ) = 2 * i' + j := by
      have hy : q.2 = √3 * R / 2 * ((2 * i' + j : ℤ) : ℝ) := by
        rcases hq with rfl | rfl <;> · push_cast; ring
      have hp : (0 : ℝ) < √3 * R / 2 := by positivity
      rw [hy] at hlo hhi
      have h0 : (0 : ℝ) ≤ ((2 * i' + j : ℤ) : ℝ) := by
        by_contra hc
        push_neg at hc
        have := mul_neg_of_pos_of_neg hp hc
        linarith
      have h1 : ((2 * i' + j : ℤ) : ℝ) ≤ n - 1 := by
        refine le_of_mul_le_mul_left ?_ hp
        linarith
      have h0' : 0 ≤ 2 * i' + j := by exact_mod_cast h0
      have h1' : 2 * i' + j ≤ n - 1 := by
        have : ((2 * i' + j : ℤ) : ℝ) ≤ (((n : ℤ) - 1 : ℤ) : ℝ) := by rw [Int.cast_sub]; simpa using h1
        exact_mod_cast this
      exact ⟨(2 * i' + j).toNat, by omega, by omega⟩
    obtain ⟨i, hi, hij⟩ := hrow
    obtain ⟨m, hj⟩ : ∃ m, j = ((i % 2 : ℕ) : ℤ) + 2 * m := ⟨j / 2, by omega⟩
    have hj' : (j : ℝ) = ((i % 2 : ℕ) : ℝ) + 2 * (m : ℝ) := by rw [hj]; push_cast; rfl
    have hir : (i : ℝ) = 2 * i' + j := by exact_mod_cast hij
    rcases hq with rfl | rfl
    · refine ⟨_, agnrUnit_mem.2 ⟨i, hi, Or.inl rfl⟩, m, ?_⟩
      ext
      · simp only [Matrix.cons_val]; rw [hj']; ring
      · simp only [Matrix.cons_val]; rw [hir]; ring
    · refine ⟨_, agnrUnit_mem.2 ⟨i, hi, Or.inr rfl⟩, m, ?_⟩
      ext
      · simp only [Matrix.cons_val]; rw [hj']; ring
      · simp only [Matrix.cons_val]; rw [hir]; ring

theorem agnr_simple (n : ℕ) {R : ℝ} (hR : 0 < R) : PlanarSimple (agnrUnit n R) (3 * R) := by
  have h3 := sqrt3_pos
  have hrow : ∀ i i' : ℕ, (i : ℝ) * (R * √3) / 2 = (i' : ℝ) * (R * √3) / 2 → i = i' := by
    intro i i' h
    have : (R * √3 / 2) * (i : ℝ) = (R * √3 / 2) * i' := by linarith
    exact_mod_cast mul_left_cancel₀ (by positivity) this
  constructor
  · unfold agnrUnit
    rw [List.nodup_flatMap]
    constructor
    · intro i _
      simp only [List.nodup_cons, List.mem_singleton, List.not_mem_nil, not_false_iff, List.nodup_nil, and_true]
      intro h
      have := congrFun h 0
      simp only [Matrix.cons_val] at this
      linarith
    · refine (List.nodup_range (n := n)).imp ?_
      intro i i' hii q hq hq'
      simp only [List.mem_cons, List.not_mem_nil, or_false] at hq hq'
      apply hii
      rcases hq with rfl | rfl <;> rcases hq' with h | h <;>
      · have := congrFun h 1
        simp only [Matrix.cons_val] at this
        exact hrow _ _ this
  · intro p hp q hq k e0 e1
    obtain ⟨i, -, hp⟩ := agnrUnit_mem.1 hp
    obtain ⟨i', -, hq⟩ := agnrUnit_mem.1 hq
    have hx : ∀ x y : ℝ, R * x = R * y → x = y := fun x y h => mul_left_cancel₀ hR.ne' h
    rcases hp with rfl | rfl <;> rcases hq with rfl | rfl <;> simp only [Matrix.cons_val] at e0 e1 <;>
      obtain rfl := hrow _ _ e1
    · have := hx 0 (3 * k) (by linarith)
      have : (k : ℝ) = 0 := by linarith
      exact ⟨rfl, by exact_mod_cast this⟩
    · exfalso
      have := hx 1 (3 * k) (by linarith)
      have : (1 : ℤ) = 3 * k := by exact_mod_cast this
      omega
    · exfalso
      have := hx (-1) (3 * k) (by linarith)
      have : (-1 : ℤ) = 3 * k := by exact_mod_cast this
      omega
    · have := hx 0 (3 * k) (by linarith)
      have : (k : ℝ) = 0 := by linarith
      exact ⟨rfl, by exact_mod_cast this⟩

/-- A zigzag row: the upper atoms of odd rows are at `u`, those of even rows `√3 R/2` further. -/
theorem zig_planar {R : ℝ} (hR : 0 < R) (sx : ℝ) (n : ℕ) (L : List Vec)
    (hL : ∀ q, (∃ p ∈ L, ∃ k : ℤ, q = (p 0 + k * (R * √3), p 1)) ↔ ∃ i < n, ∃ k : ℤ,
      q = (√3 * R * (k + (i : ℝ) / 2) + sx, 1.5 * R * i + R) ∨ q = (√3 * R * (k + ((i : ℝ) - 1) / 2) + sx, 1.5 * R * i + R / 2)) :
    planar L (R * √3) = stripOf (honey2 R sx) (R / 2) (R / 2 + (((n : ℝ) - 1) * (1.5 * R) + R / 2)) := by
  ext q
  refine (hL q).trans ?_
  constructor
  · rintro ⟨i, hi, k, hq⟩
    have hin : (i : ℝ) ≤ n - 1 := by
      have : (i : ℝ) + 1 ≤ n := by exact_mod_cast hi
      linarith
    have hin2 : 1.5 * R * i ≤ 1.5 * R * (n - 1) := mul_le_mul_of_nonneg_left hin (by positivity)
    have hi0 : 0 ≤ 1.5 * R * (i : ℝ) := by positivity
    rcases hq with rfl | rfl
    · refine ⟨⟨k, i, Or.inl (by push_cast; rfl)⟩, ?_, ?_⟩ <;> simp only <;> linarith
    · refine ⟨⟨k, i - 1, Or.inr ?_⟩, ?_, ?_⟩
      · ext
        · simp
        · simp only; push_cast; ring
      · simp only; linarith
      · simp only; linarith
  · rintro ⟨⟨k, j, rfl | rfl⟩, hlo, hhi⟩ <;> simp only at hlo hhi
    · have h1 : R * (-1) ≤ R * (3 * j) := by linarith
      have h2 : R * (3 * j) ≤ R * (3 * (n - 1)) := by linarith
      have h1' := le_of_mul_le_mul_left h1 hR
      have h2' := le_of_mul_le_mul_left h2 hR
      have h1'' : -1 ≤ 3 * j := by exact_mod_cast h1'
      have h2'' : 3 * j ≤ 3 * ((n : ℤ) - 1) := by exact_mod_cast h2'
      have hj : ((j.toNat : ℕ) : ℝ) = j := by
        have : ((j.toNat : ℕ) : ℤ) = j := Int.toNat_of_nonneg (by omega)
        exact_mod_cast this
      exact ⟨j.toNat, by omega, k, Or.inl (by rw [hj])⟩
    · have h1 : R * (-3) ≤ R * (3 * j) := by linarith
      have h2 : R * (3 * j) ≤ R * (3 * n - 5) := by linarith
      have h1' := le_of_mul_le_mul_left h1 hR
      have h2' := le_of_mul_le_mul_left h2 hR
      have h1'' : -3 ≤ 3 * j := by exact_mod_cast h1'
      have h2'' : 3 * j ≤ 3 * (n : ℤ) - 5 := by exact_mod_cast h2'
      have hj : (((j + 1).toNat : ℕ) : ℝ) = j + 1 := by
        have : (((j + 1).toNat : ℕ) : ℤ) = j + 1 := Int.toNat_of_nonneg (by omega)
        exact_mod_cast this
      refine ⟨(j + 1).toNat, by omega, k, Or.inr ?_⟩
      rw [hj]
      ext
      · simp only; ring
      · simp only; ring

theorem planarSimple_of_y {L : List Vec} {c : ℝ} (hc : c ≠ 0) (h : (L.map fun p => p 1).Nodup) : PlanarSimple L c := by
  refine ⟨List.Nodup.of_map _ h, ?_⟩
  intro p hp q hq k e0 e1
  have : q = p := List.inj_on_of_nodup_map h hq hp e1
  subst this
  have : (k : ℝ) * c = 0 := by linarith
  rcases mul_eq_zero.1 this with h | h
  · exact ⟨rfl, by exact_mod_cast h⟩
  · exact absurd h hc

theorem zgnrUnit_flat (n : ℕ) (R : ℝ) : ∀ p ∈ zgnrUnit n R, p 2 = 0 := by
  intro p hp
  unfold zgnrUnit at hp
  simp only [List.mem_flatMap, List.mem_cons, List.not_mem_nil, or_false] at hp
  obtain ⟨i, -, rfl | rfl⟩ := hp <;> rfl

theorem zgnrUnit_length (n : ℕ) (R : ℝ) : (zgnrUnit n R).length = n * 2 := by
  unfold zgnrUnit
  simp [List.length_flatMap]

theorem zgnrUnit_mem {n : ℕ} {R : ℝ} {q : Vec} : q ∈ zgnrUnit n R ↔ ∃ i < n,
    (i % 2 = 0 ∧ (q = ![0, 1.5 * R * i + R / 2, 0] ∨ q = ![R * √3 / 2, 1.5 * R * i + R, 0])) ∨
    (i % 2 = 1 ∧ (q = ![0, 1.5 * R * i + R, 0] ∨ q = ![R * √3 / 2, 1.5 * R * i + R / 2, 0])) := by
  unfold zgnrUnit
  simp only [List.mem_flatMap, List.mem_range, List.mem_cons, List.not_mem_nil, or_false]
  refine exists_congr fun i => and_congr_right fun _ => ?_
  have h2 : i % 2 = 0 ∨ i % 2 = 1 := by omega
  rcases h2 with h2 | h2
  · rw [h2]
    simp only [zero_ne_one, if_false, true_and, false_and, or_false]
    rw [show (3 * R * (i : ℝ) / 2 + 3 * R / 4 - 1 * R / 4) = 1.5 * R * i + R / 2 by ring,
      show (3 * R * (i : ℝ) / 2 + 3 * R / 4 + 1 * R / 4) = 1.5 * R * i + R by ring]
  · rw [h2]
    simp only [one_ne_zero, if_true, true_and, false_and, false_or]
    rw [show (3 * R * (i : ℝ) / 2 + 3 * R / 4 - -1 * R / 4) = 1.5 * R * i + R by ring,
      show (3 * R * (i : ℝ) / 2 + 3 * R / 4 + -1 * R / 4) = 1.5 * R * i + R / 2 by ring]

theorem zgnr_planar (n : ℕ) {R : ℝ} (hR : 0 < R) : planar (zgnrUnit n R) (R * √3) =
    stripOf (honey2 R (√3 * R / 2)) (R / 2) (R / 2 + (((n : ℝ) - 1) * (1.5 * R) + R / 2)) := by
  refine zig_planar hR _ n _ fun q => ?_
  constructor
  · rintro ⟨p, hp, k, rfl⟩
    obtain ⟨i, hi, ⟨h2, rfl | rfl⟩ | ⟨h2, rfl | rfl⟩⟩ := zgnrUnit_mem.1 hp
    · obtain ⟨h, rfl⟩ : ∃ h, i = 2 * h := ⟨i / 2, by omega⟩
      refine ⟨2 * h, hi, k - h, Or.inr ?_⟩
      ext
      · simp only [Matrix.cons_val]; push_cast; ring
      · simp
    · obtain ⟨h, rfl⟩ : ∃ h, i = 2 * h := ⟨i / 2, by omega⟩
      refine ⟨2 * h, hi, k - h, Or.inl ?_⟩
      ext
      · simp only [Matrix.cons_val]; push_cast; ring
      · simp
    · obtain ⟨h, rfl⟩ : ∃ h, i = 2 * h + 1 := ⟨i / 2, by omega⟩
      refine ⟨2 * h + 1, hi, k - h - 1, Or.inl ?_⟩
      ext
      · simp only [Matrix.cons_val]; push_cast; ring
      · simp
    · obtain ⟨h, rfl⟩ : ∃ h, i = 2 * h + 1 := ⟨i / 2, by omega⟩
      refine ⟨2 * h + 1, hi, k - h, Or.inr ?_⟩
      ext
      · simp only [Matrix.cons_val]; push_cast; ring
      · simp
  · rintro ⟨i, hi, k, rfl | rfl⟩
    · have h2 : i % 2 = 0 ∨ i % 2 = 1 := by omega
      rcases h2 with h2 | h2
      · refine ⟨_, zgnrUnit_mem.2 ⟨i, hi, Or.inl ⟨h2, Or.inr rfl⟩⟩, k + (i / 2 : ℕ), ?_⟩
        obtain ⟨h, rfl⟩ : ∃ h, i = 2 * h := ⟨i / 2, by omega⟩
        rw [show 2 * h / 2 = h by omega]
        ext
        · simp only [Matrix.cons_val]; push_cast; ring
        · simp
      · refine ⟨_, zgnrUnit_mem.2 ⟨i, hi, Or.inr ⟨h2, Or.inl rfl⟩⟩, k + (i / 2 : ℕ) + 1, ?_⟩
        obtain ⟨h, rfl⟩ : ∃ h, i = 2 * h + 1 := ⟨i / 2, by omega⟩
        rw [show (2 * h + 1) / 2 = h by omega]
        ext
        · simp only [Matrix.cons_val]; push_cast; ring
        · simp
    · have h2 : i % 2 = 0 ∨ i % 2 = 1 := by omega
      rcases h2 with h2 | h2
      · refine ⟨_, zgnrUnit_mem.2 ⟨i, hi, Or.inl ⟨h2, Or.inl rfl⟩⟩, k + (i / 2 : ℕ), ?_⟩
        obtain ⟨h, rfl⟩ : ∃ h, i = 2 * h := ⟨i / 2, by omega⟩
        rw [show 2 * h / 2 = h by omega]
        ext
        · simp only [Matrix.cons_val]; push_cast; ring
        · simp
      · refine ⟨_, zgnrUnit_mem.2 ⟨i, hi, Or.inr ⟨h2, Or.inr rfl⟩⟩, k + (i / 2 : ℕ), ?_⟩
        obtain ⟨h, rfl⟩ : ∃ h, i = 2 * h + 1 := ⟨i / 2, by omega⟩
        rw [show (2 * h + 1) / 2 = h by omega]
        ext
        · simp only [Matrix.cons_val]; push_cast; ring
        · simp

theorem zgnr_simple (n : ℕ) {R : ℝ} (hR : 0 < R) : PlanarSimple (zgnrUnit n R) (R * √3) := by
  have h3 := sqrt3_pos
  refine planarSimple_of_y (by positivity) ?_
  unfold zgnrUnit
  rw [List.map_flatMap, List.nodup_flatMap]
  constructor
  · intro i _
    have h2 : i % 2 = 0 ∨ i % 2 = 1 := by omega
    simp only [List.map_cons, List.map_nil, Matrix.cons_val, List.nodup_cons, List.mem_singleton, List.not_mem_nil, not_false_iff,
      List.nodup_nil, and_true]
    rcases h2 with h2 | h2 <;> rw [h2] <;> simp only [one_ne_zero, zero_ne_one, if_true, if_false] <;> intro h <;> linarith
  · refine (List.nodup_range (n := n)).imp ?_
    intro i i' hii y hy hy'
    have key : ∀ m : ℕ, y ∈ List.map (fun p : Vec => p 1)
        (let x : ℝ := if m % 2 = 1 then -1 else 1
        [![0, 3 * R * m / 2 + 3 * R / 4 - x * R / 4, 0], ![R * √3 / 2, 3 * R * m / 2 + 3 * R / 4 + x * R / 4, 0]]) →
        y = R / 2 * (3 * m + 1) ∨ y = R / 2 * (3 * m + 2) := by
      intro m hm
      have h2 : m % 2 = 0 ∨ m % 2 = 1 := by omega
      simp only [List.map_cons, List.map_nil, Matrix.cons_val, List.mem_cons, List.not_mem_nil, or_false] at hm
      rcases h2 with h2 | h2 <;> rw [h2] at hm <;> simp only [one_ne_zero, zero_ne_one, if_true, if_false] at hm <;>
        rcases hm with rfl | rfl
      · left; ring
      · right; ring
      · right; ring
      · left; ring
    have hx : ∀ a b : ℝ, R / 2 * a = R / 2 * b → a = b := fun a b h => mul_left_cancel₀ (by positivity) h
    have h1 := key i hy
    have h2 := key i' hy'
    rcases h1 with rfl | rfl <;> rcases h2 with h2 | h2 <;> have h2 := hx _ _ h2 <;> norm_cast at h2 <;> omega

/-! ### The other two functions -/

noncomputable def armUnit (n2 : ℕ) (R : ℝ) : List Vec :=
  (List.range n2).flatMap fun i2 : ℕ =>
    [![0, i2 * (R * √3), 0], ![R, i2 * (R * √3), 0], ![1.5 * R, i2 * (R * √3) + R * √3 / 2, 0],
      ![2.5 * R, i2 * (R * √3) + R * √3 / 2, 0]]

theorem armUnit_eq (n2 : ℕ) (R : ℝ) : armUnit n2 R = agnrUnit (2 * n2) R := by
  induction n2 with
  | zero => simp [armUnit, agnrUnit]
  | succ n ih =>
    unfold armUnit agnrUnit at ih ⊢
    rw [List.range_succ, List.flatMap_append, ih, show 2 * (n + 1) = 2 * n + 1 + 1 by ring, List.range_succ, List.range_succ,
      List.flatMap_append, List.flatMap_append, List.append_assoc]
    congr 1
    simp only [List.flatMap_cons, List.flatMap_nil, List.append_nil, List.cons_append, List.nil_append]
    rw [if_neg (show ¬ 2 * n % 2 = 1 by omega), if_pos (show (2 * n + 1) % 2 = 1 by omega)]
    congr 1
    · ext a; fin_cases a <;> simp; ring
    congr 1
    · ext a; fin_cases a <;> simp; ring
    congr 1
    · ext a; fin_cases a <;> simp; ring
    congr 1
    · ext a; fin_cases a <;> simp <;> ring

theorem armchairPos_eq (n1 n2 : ℕ) (R : ℝ) : armchairPos n1 n2 R = rowOf (agnrUnit (2 * n2) R) (3 * R) n1 := by
  rw [← armUnit_eq]
  unfold armchairPos rowOf armUnit
  simp only [Real.cos_pi_div_six]
  refine List.flatMap_congr fun i1 _ => ?_
  rw [List.map_flatMap]
  refine List.flatMap_congr fun i2 _ => ?_
  simp only [List.map_cons, List.map_nil]
  congr 1
  · ext a; fin_cases a <;> simp only [Pi.add_apply, Pi.smul_apply, smul_eq_mul, Fin.zero_eta, Fin.mk_one, Fin.reduceFinMk, Matrix.cons_val] <;> ring
  congr 1
  · ext a; fin_cases a <;> simp only [Pi.add_apply, Pi.smul_apply, smul_eq_mul, Fin.zero_eta, Fin.mk_one, Fin.reduceFinMk, Matrix.cons_val] <;> ring
  congr 1
  · ext a; fin_cases a <;> simp only [Pi.add_apply, Pi.smul_apply, smul_eq_mul, Fin.zero_eta, Fin.mk_one, Fin.reduceFinMk, Matrix.cons_val] <;> ring
  congr 1
  · ext a; fin_cases a <;> simp only [Pi.add_apply, Pi.smul_apply, smul_eq_mul, Fin.zero_eta, Fin.mk_one, Fin.reduceFinMk, Matrix.cons_val] <;> ring

noncomputable def zigUnit (n2 : ℕ) (R : ℝ) : List Vec :=
  (List.range n2).flatMap fun i2 : ℕ =>
    [![R * √3 / 2, i2 * (3 * R) + R / 2, 0], ![0, i2 * (3 * R) + R, 0], ![0, i2 * (3 * R) + 2 * R, 0],
      ![R * √3 / 2, i2 * (3 * R) + 2.5 * R, 0]]

theorem zigzagPos_eq (n1 n2 : ℕ) (R : ℝ) : zigzagPos n1 n2 R = rowOf (zigUnit n2 R) (R * √3) n1 := by
  unfold zigzagPos rowOf zigUnit
  simp only [Real.cos_pi_div_six]
  refine List.flatMap_congr fun i1 _ => ?_
  rw [List.map_flatMap]
  refine List.flatMap_congr fun i2 _ => ?_
  simp only [List.map_cons, List.map_nil]
  congr 1
  · ext a; fin_cases a <;> simp only [Pi.add_apply, Pi.smul_apply, smul_eq_mul, Fin.zero_eta, Fin.mk_one, Fin.reduceFinMk, Matrix.cons_val] <;> ring
  congr 1
  · ext a; fin_cases a <;> simp only [Pi.add_apply, Pi.smul_apply, smul_eq_mul, Fin.zero_eta, Fin.mk_one, Fin.reduceFinMk, Matrix.cons_val] <;> ring
  congr 1
  · ext a; fin_cases a <;> simp only [Pi.add_apply, Pi.smul_apply, smul_eq_mul, Fin.zero_eta, Fin.mk_one, Fin.reduceFinMk, Matrix.cons_val] <;> ring
  congr 1
  · ext a; fin_cases a <;> simp only [Pi.add_apply, Pi.smul_apply, smul_eq_mul, Fin.zero_eta, Fin.mk_one, Fin.reduceFinMk, Matrix.cons_val] <;> ring

theorem zigUnit_mem {n2 : ℕ} {R : ℝ} {q : Vec} : q ∈ zigUnit n2 R ↔ ∃ i < n2, q = ![R * √3 / 2, i * (3 * R) + R / 2, 0] ∨
    q = ![0, i * (3 * R) + R, 0] ∨ q = ![0, i * (3 * R) + 2 * R, 0] ∨ q = ![R * √3 / 2, i * (3 * R) + 2.5 * R, 0] := by
  unfold zigUnit
  simp only [List.mem_flatMap, List.mem_range, List.mem_cons, List.not_mem_nil, or_false]

theorem zigUnit_flat (n2 : ℕ) (R : ℝ) : ∀ p ∈ zigUnit n2 R, p 2 = 0 := by
  intro p hp
  obtain ⟨i, -, rfl | rfl | rfl | rfl⟩ := zigUnit_mem.1 hp <;> rfl

theorem zigUnit_length (n2 : ℕ) (R : ℝ) : (zigUnit n2 R).length = n2 * 4 := by
  unfold zigUnit
  simp [List.length_flatMap]

theorem zig_planar' (n2 : ℕ) {R : ℝ} (hR : 0 < R) : planar (zigUnit n2 R) (R * √3) =
    stripOf (honey2 R 0) (R / 2) (R / 2 + ((((2 * n2 : ℕ) : ℝ) - 1) * (1.5 * R) + R / 2)) := by
  refine zig_planar hR _ (2 * n2) _ fun q => ?_
  constructor
  · rintro ⟨p, hp, k, rfl⟩
    obtain ⟨h, hi, rfl | rfl | rfl | rfl⟩ := zigUnit_mem.1 hp
    · refine ⟨2 * h, by omega, k - h + 1, Or.inr ?_⟩
      ext
      · simp only [Matrix.cons_val]; push_cast; ring
      · simp only [Matrix.cons_val]; push_cast; ring
    · refine ⟨2 * h, by omega, k - h, Or.inl ?_⟩
      ext
      · simp only [Matrix.cons_val]; push_cast; ring
      · simp only [Matrix.cons_val]; push_cast; ring
    · refine ⟨2 * h + 1, by omega, k - h, Or.inr ?_⟩
      ext
      · simp only [Matrix.cons_val]; push_cast; ring
      · simp only [Matrix.cons_val]; push_cast; ring
    · refine ⟨2 * h + 1, by omega, k - h, Or.inl ?_⟩
      ext
      · simp only [Matrix.cons_val]; push_cast; ring
      · simp only [Matrix.cons_val]; push_cast; ring
  · rintro ⟨i, hi, k, rfl | rfl⟩
    · have h2 : i % 2 = 0 ∨ i % 2 = 1 := by omega
      rcases h2 with h2 | h2
      · obtain ⟨h, rfl⟩ : ∃ h, i = 2 * h := ⟨i / 2, by omega⟩
        refine ⟨_, zigUnit_mem.2 ⟨h, by omega, Or.inr (Or.inl rfl)⟩, k + h, ?_⟩
        ext
        · simp only [Matrix.cons_val]; push_cast; ring
        · simp only [Matrix.cons_val]; push_cast; ring
      · obtain ⟨h, rfl⟩ : ∃ h, i = 2 * h + 1 := ⟨i / 2, by omega⟩
        refine ⟨_, zigUnit_mem.2 ⟨h, by omega, Or.inr (Or.inr (Or.inr rfl))⟩, k + h, ?_⟩
        ext
        · simp only [Matrix.cons_val]; push_cast; ring
        · simp only [Matrix.cons_val]; push_cast; ring
    · have h2 : i % 2 = 0 ∨ i % 2 = 1 := by omega
      rcases h2 with h2 | h2
      · obtain ⟨h, rfl⟩ : ∃ h, i = 2 * h := ⟨i / 2, by omega⟩
        refine ⟨_, zigUnit_mem.2 ⟨h, by omega, Or.inl rfl⟩, k + h - 1, ?_⟩
        ext
        · simp only [Matrix.cons_val]; push_cast; ring
        · simp only [Matrix.cons_val]; push_cast; ring
      · obtain ⟨h, rfl⟩ : ∃ h, i = 2 * h + 1 := ⟨i / 2, by omega⟩
        refine ⟨_, zigUnit_mem.2 ⟨h, by omega, Or.inr (Or.inr (Or.inl rfl))⟩, k + h, ?_⟩
        ext
        · simp only [Matrix.cons_val]; push_cast; ring
        · simp only [Matrix.cons_val]; push_cast; ring

theorem zig_simple (n2 : ℕ) {R : ℝ} (hR : 0 < R) : PlanarSimple (zigUnit n2 R) (R * √3) := by
  have h3 := sqrt3_pos
  refine planarSimple_of_y (by positivity) ?_
  unfold zigUnit
  rw [List.map_flatMap, List.nodup_flatMap]
  constructor
  · intro i _
    simp only [List.map_cons, List.map_nil, Matrix.cons_val, List.nodup_cons, List.mem_cons, List.not_mem_nil, not_false_iff,
      List.nodup_nil, and_true, or_false, not_or]
    refine ⟨⟨?_, ?_, ?_⟩, ⟨?_, ?_⟩, ?_⟩ <;> intro h <;> linarith
  · refine (List.nodup_range (n := n2)).imp ?_
    intro i i' hii y hy hy'
    simp only [List.map_cons, List.map_nil, Matrix.cons_val, List.mem_cons, List.not_mem_nil, or_false] at hy hy'
    have hx : ∀ a b : ℝ, R / 2 * a = R / 2 * b → a = b := fun a b h => mul_left_cancel₀ (by positivity) h
    have key : ∀ m : ℕ, (y = m * (3 * R) + R / 2 ∨ y = m * (3 * R) + R ∨ y = m * (3 * R) + 2 * R ∨ y = m * (3 * R) + 2.5 * R) →
        y = R / 2 * (6 * m + 1) ∨ y = R / 2 * (6 * m + 2) ∨ y = R / 2 * (6 * m + 4) ∨ y = R / 2 * (6 * m + 5) := by
      rintro m (rfl | rfl | rfl | rfl)
      · left; ring
      · right; left; ring
      · right; right; left; ring
      · right; right; right; ring
    have h1 := key i hy
    have h2 := key i' hy'
    rcases h1 with rfl | rfl | rfl | rfl <;> rcases h2 with h2 | h2 | h2 | h2 <;> have h2 := hx _ _ h2 <;> norm_cast at h2 <;> omega

theorem agnr_ribbon (n : ℕ) {R : ℝ} (hR : 0 < R) : ArmchairRibbon R n (planar (agnrUnit n R) (3 * R)) := by
  refine ⟨honey1 R, 0, honey1_honeycomb hR, ?_, ⟨(0, 0), ⟨0, 0, Or.inl (by simp)⟩, rfl⟩, agnr_planar n hR⟩
  rintro _ ⟨i, j, rfl | rfl⟩
  · exact Or.inl ⟨i, j, Or.inr rfl⟩
  · exact Or.inr ⟨i, j, Or.inl (by simp)⟩

theorem honey2_zigzag (R sx : ℝ) : ∀ p ∈ honey2 R sx, (p.1, p.2 + R) ∈ honey2 R sx ∨ (p.1, p.2 - R) ∈ honey2 R sx := by
  rintro _ ⟨i, j, rfl | rfl⟩
  · exact Or.inl ⟨i, j, Or.inr (by simp; ring)⟩
  · exact Or.inr ⟨i, j, Or.inl (by simp; ring)⟩

theorem honey2_low (R sx : ℝ) : ∃ p ∈ honey2 R sx, p.2 = R / 2 ∧ (p.1, p.2 - R) ∈ honey2 R sx := by
  refine ⟨(√3 * R * ((0 : ℤ) + ((-1 : ℤ) : ℝ) / 2) + sx, 1.5 * R * ((-1 : ℤ) : ℝ) + 2 * R), ⟨0, -1, Or.inr rfl⟩, by push_cast; ring,
    ⟨0, -1, Or.inl (by simp; ring)⟩⟩

theorem zgnr_ribbon (n : ℕ) {R : ℝ} (hR : 0 < R) : ZigzagRibbon R n (planar (zgnrUnit n R) (R * √3)) :=
  ⟨honey2 R (√3 * R / 2), R / 2, honey2_honeycomb hR _, honey2_zigzag _ _, honey2_low _ _, zgnr_planar n hR⟩

theorem zig_ribbon (n2 : ℕ) {R : ℝ} (hR : 0 < R) : ZigzagRibbon R (2 * n2) (planar (zigUnit n2 R) (R * √3)) :=
  ⟨honey2 R 0, R / 2, honey2_honeycomb hR _, honey2_zigzag _ _, honey2_low _ _, zig_planar' n2 hR⟩

theorem sheet_x' {s : Struct} {c : ℝ} {L : List Vec} (h : Moved L s) (hp : s.pbc = ![true, false, false]) (hc : s.cell 0 = ![c, 0, 0])
    (hL : ∀ p ∈ L, p 2 = 0) : s.IsSheet (planar L c) ∧ (PlanarSimple L c → s.Simple) ∧ s.pos.length = L.length := by
  obtain ⟨t, h⟩ := h
  obtain ⟨a, b⟩ := sheet_x hp hc hL h
  exact ⟨a, b, by rw [h]; simp⟩

theorem sheet_z' {s : Struct} {c : ℝ} {L : List Vec} (h : MovedUp L s) (hp : s.pbc = ![false, false, true]) (hc : s.cell 2 = ![0, 0, c])
    (hL : ∀ p ∈ L, p 2 = 0) : s.IsSheet (planar L c) ∧ (PlanarSimple L c → s.Simple) ∧ s.pos.length = L.length := by
  obtain ⟨t, h⟩ := h
  obtain ⟨a, b⟩ := sheet_z hp hc hL h
  exact ⟨a, b, by rw [h]; simp⟩

theorem zz_bounds {R : ℝ} (hR : 0 < R) {m i : ℕ} (him : i ≤ m) (k : ℤ) :
    (1 ≤ k → ((m : ℝ) - i) * (R * √3) - k * ((m + 1) * (3 * R)) ≤ -(3 * R)) ∧
      (k ≤ -1 → 3 * R ≤ ((m : ℝ) - i) * (R * √3) - k * ((m + 1) * (3 * R))) := by
  have s0 := sqrt3_pos
  have s2 := sqrt3_lt
  have him' : (i : ℝ) ≤ m := by exact_mod_cast him
  have hi0 : (0 : ℝ) ≤ i := by positivity
  have hm0 : (0 : ℝ) ≤ m := by positivity
  have ha0 : 0 < R * √3 := by positivity
  have ha1 : R * √3 < 1.8 * R := by nlinarith
  have h1 : 0 ≤ ((m : ℝ) - i) * (R * √3) := mul_nonneg (by linarith) ha0.le
  have h2 : ((m : ℝ) - i) * (R * √3) ≤ m * (1.8 * R) :=
    mul_le_mul (by linarith) ha1.le ha0.le hm0
  have h0 : 0 ≤ ((m : ℝ) + 1) * (3 * R) := by positivity
  have hmR : 0 ≤ (m : ℝ) * R := by positivity
  constructor
  · intro hk
    have hk' : (1 : ℝ) ≤ k := by exact_mod_cast hk
    have : 1 * (((m : ℝ) + 1) * (3 * R)) ≤ k * (((m : ℝ) + 1) * (3 * R)) := mul_le_mul_of_nonneg_right hk' h0
    linarith
  · intro hk
    have hk' : (k : ℝ) ≤ -1 := by exact_mod_cast hk
    have : k * (((m : ℝ) + 1) * (3 * R)) ≤ (-1) * (((m : ℝ) + 1) * (3 * R)) := mul_le_mul_of_nonneg_right hk' h0
    linarith

theorem zz1 {R : ℝ} (hR : 0 < R) {m i : ℕ} (him : i ≤ m) (k : ℤ) :
    (R * √3 / 2 + m * (R * √3) - (R * √3 / 2 + i * (R * √3) + k * ((m + 1) * (3 * R)))) ^ 2 ≠ R ^ 2 := by
  intro hd
  obtain ⟨b1, b2⟩ := zz_bounds hR him k
  rw [show R * √3 / 2 + m * (R * √3) - (R * √3 / 2 + i * (R * √3) + k * ((m + 1) * (3 * R))) =
    ((m : ℝ) - i) * (R * √3) - k * ((m + 1) * (3 * R)) by ring] at hd
  have hk : k = 0 ∨ 1 ≤ k ∨ k ≤ -1 := by omega
  rcases hk with rfl | hk | hk
  · have hR2 : 0 < R ^ 2 := by positivity
    have h5 : R ^ 2 * (3 * ((m : ℝ) - i) ^ 2) = R ^ 2 * 1 := by
      have e : (((m : ℝ) - i) * (R * √3) - ((0 : ℤ) : ℝ) * ((m + 1) * (3 * R))) ^ 2 = R ^ 2 * ((√3 * √3) * ((m : ℝ) - i) ^ 2) := by
        push_cast; ring
      rw [e, sq3] at hd
      linarith
    have h6 := mul_left_cancel₀ hR2.ne' h5
    have h7 : 3 * ((m : ℤ) - i) ^ 2 = 1 := by exact_mod_cast h6
    omega
  · have := b1 hk
    nlinarith
  · have := b2 hk
    nlinarith

theorem zz2 {R : ℝ} (hR : 0 < R) {m i : ℕ} (him : i ≤ m) (k : ℤ)
    (hd : (R * √3 / 2 + m * (R * √3) - (0 + i * (R * √3) + k * ((m + 1) * (3 * R)))) ^ 2 = R ^ 2 * (3 / 4)) : k = 0 ∧ i = m := by
  obtain ⟨b1, b2⟩ := zz_bounds hR him k
  rw [show R * √3 / 2 + m * (R * √3) - (0 + i * (R * √3) + k * ((m + 1) * (3 * R))) =
    R * √3 / 2 + (((m : ℝ) - i) * (R * √3) - k * ((m + 1) * (3 * R))) by ring] at hd
  have hk : k = 0 ∨ 1 ≤ k ∨ k ≤ -1 := by omega
  have s0 := sqrt3_pos
  have s2 := sqrt3_lt
  have ha0 : 0 < R * √3 := by positivity
  have ha1 : R * √3 < 1.8 * R := by nlinarith
  rcases hk with rfl | hk | hk
  · have hR2 : 0 < R ^ 2 := by positivity
    have h5 : R ^ 2 * ((1 + 2 * ((m : ℝ) - i)) ^ 2) = R ^ 2 * 1 := by
      have e : (R * √3 / 2 + (((m : ℝ) - i) * (R * √3) - ((0 : ℤ) : ℝ) * ((m + 1) * (3 * R)))) ^ 2 =
          R ^ 2 * ((√3 * √3) * (1 + 2 * ((m : ℝ) - i)) ^ 2) / 4 := by
        push_cast; ring
      rw [e, sq3] at hd
      linarith
    have h6 := mul_left_cancel₀ hR2.ne' h5
    have h7 : (1 + 2 * ((m : ℤ) - i)) ^ 2 = 1 := by exact_mod_cast h6
    refine ⟨rfl, ?_⟩
    have h8 : (0 : ℤ) ≤ (m : ℤ) - i := by omega
    have h9 : (m : ℤ) - i = 0 := by nlinarith
    omega
  · have := b1 hk
    nlinarith
  · have := b2 hk
    nlinarith

end Hotbit
