import Verif.Spec.Systems
import Mathlib.Tactic

/-!
# Lemmas on honeycombs and periodic structures
-/

namespace Hotbit

/-! ### A honeycomb -/

/-- The honeycomb with bonds along the second axis. -/
def honey0 (R : ℝ) : Set (ℝ × ℝ) :=
  {p | ∃ i j : ℤ, p = (√3 * R * (i + j / 2), 1.5 * R * j) ∨ p = (√3 * R * (i + j / 2), 1.5 * R * j + R)}

theorem sq3 : √3 * √3 = (3 : ℝ) := Real.mul_self_sqrt (by norm_num)

theorem d2_comm (p q : ℝ × ℝ) : d2 p q = d2 q p := by unfold d2; ring

theorem d2_AA (R : ℝ) (u v : ℝ) (x y : ℝ) : d2 (x, y) (x + √3 * R * (u + v / 2), y + 1.5 * R * v) = 3 * R ^ 2 * (u ^ 2 + u * v + v ^ 2) := by
  unfold d2
  have := sq3
  ring_nf
  rw [Real.sq_sqrt (by norm_num)]
  ring

theorem d2_AB (R : ℝ) (u v : ℝ) (x y : ℝ) :
    d2 (x, y) (x + √3 * R * (u + v / 2), y + 1.5 * R * v + R) = R ^ 2 * (3 * (u ^ 2 + u * v + v ^ 2 + v) + 1) := by
  unfold d2
  ring_nf
  rw [Real.sq_sqrt (by norm_num)]
  ring

theorem form_pos (u v : ℤ) (h : ¬ (u = 0 ∧ v = 0)) : 1 ≤ u ^ 2 + u * v + v ^ 2 := by
  by_contra hc
  have h1 : u ^ 2 + u * v + v ^ 2 ≤ 0 := by omega
  have hv : v = 0 := by
    by_contra hv
    have : 0 < v ^ 2 := by positivity
    nlinarith [sq_nonneg (2 * u + v)]
  subst hv
  have hu : u = 0 := by nlinarith
  exact h ⟨hu, rfl⟩

theorem form_nonneg (u v : ℤ) : 0 ≤ u ^ 2 + u * v + v ^ 2 + v := by
  by_contra hc
  have h1 : u ^ 2 + u * v + v ^ 2 + v ≤ -1 := by omega
  have h2 : (2 * u + v) ^ 2 + 3 * v ^ 2 + 4 * v ≤ -4 := by nlinarith
  have h3 : 3 * v ^ 2 + 4 * v ≤ -4 := by nlinarith [sq_nonneg (2 * u + v)]
  nlinarith [sq_nonneg (3 * v + 2)]

theorem form_zero (u v : ℤ) : u ^ 2 + u * v + v ^ 2 + v = 0 ↔ (u = 0 ∧ v = 0) ∨ (u = 0 ∧ v = -1) ∨ (u = 1 ∧ v = -1) := by
  constructor
  · intro h
    have h2 : (2 * u + v) ^ 2 + 3 * v ^ 2 + 4 * v = 0 := by nlinarith
    have h3 : 3 * v ^ 2 + 4 * v ≤ 0 := by nlinarith [sq_nonneg (2 * u + v)]
    have hv1 : v ≤ 0 := by nlinarith
    have hv2 : -1 ≤ v := by nlinarith
    have hv : v = 0 ∨ v = -1 := by omega
    rcases hv with rfl | rfl
    · left
      exact ⟨by nlinarith, rfl⟩
    · have : u * (u - 1) = 0 := by nlinarith
      rcases mul_eq_zero.1 this with h | h
      · right; left; exact ⟨h, rfl⟩
      · right; right; exact ⟨by omega, rfl⟩
  · rintro (⟨rfl, rfl⟩ | ⟨rfl, rfl⟩ | ⟨rfl, rfl⟩) <;> norm_num

theorem honey0_honeycomb {R : ℝ} (hR : 0 < R) : Honeycomb R (honey0 R) := by
  have hA : ∀ i j i' j' : ℤ, d2 (√3 * R * (i + j / 2), 1.5 * R * j) (√3 * R * (i' + j' / 2), 1.5 * R * j') =
      3 * R ^ 2 * (((i' - i) ^ 2 + (i' - i) * (j' - j) + (j' - j) ^ 2 : ℤ) : ℝ) := by
    intro i j i' j'
    rw [show ((√3 * R * (i' + j' / 2), 1.5 * R * j') : ℝ × ℝ) = (√3 * R * (i + j / 2) + √3 * R * (((i' : ℝ) - i) + ((j' : ℝ) - j) / 2),
      1.5 * R * j + 1.5 * R * ((j' : ℝ) - j)) by ext <;> simp <;> ring, d2_AA]
    push_cast; ring
  have hB : ∀ i j i' j' : ℤ, d2 (√3 * R * (i + j / 2), 1.5 * R * j + R) (√3 * R * (i' + j' / 2), 1.5 * R * j' + R) =
      3 * R ^ 2 * (((i' - i) ^ 2 + (i' - i) * (j' - j) + (j' - j) ^ 2 : ℤ) : ℝ) := by
    intro i j i' j'
    rw [← hA]
    unfold d2; ring
  have hAB : ∀ i j i' j' : ℤ, d2 (√3 * R * (i + j / 2), 1.5 * R * j) (√3 * R * (i' + j' / 2), 1.5 * R * j' + R) =
      R ^ 2 * (3 * (((i' - i) ^ 2 + (i' - i) * (j' - j) + (j' - j) ^ 2 + (j' - j) : ℤ) : ℝ) + 1) := by
    intro i j i' j'
    rw [show ((√3 * R * (i' + j' / 2), 1.5 * R * j' + R) : ℝ × ℝ) =
      (√3 * R * (i + j / 2) + √3 * R * (((i' : ℝ) - i) + ((j' : ℝ) - j) / 2),
      1.5 * R * j + 1.5 * R * ((j' : ℝ) - j) + R) by ext <;> simp <;> ring, d2_AB]
    push_cast; ring
  have hR2 : 0 < R ^ 2 := by positivity
  have h1 : ∀ u v : ℤ, ¬ (u = 0 ∧ v = 0) → 3 * R ^ 2 ≤ 3 * R ^ 2 * ((u ^ 2 + u * v + v ^ 2 : ℤ) : ℝ) := by
    intro u v h
    have : (1 : ℝ) ≤ ((u ^ 2 + u * v + v ^ 2 : ℤ) : ℝ) := by exact_mod_cast form_pos u v h
    nlinarith
  have h2 : ∀ u v : ℤ, R ^ 2 ≤ R ^ 2 * (3 * ((u ^ 2 + u * v + v ^ 2 + v : ℤ) : ℝ) + 1) := by
    intro u v
    have : (0 : ℝ) ≤ ((u ^ 2 + u * v + v ^ 2 + v : ℤ) : ℝ) := by exact_mod_cast form_nonneg u v
    nlinarith
  have h3 : ∀ u v : ℤ, R ^ 2 * (3 * ((u ^ 2 + u * v + v ^ 2 + v : ℤ) : ℝ) + 1) = R ^ 2 ↔
      (u = 0 ∧ v = 0) ∨ (u = 0 ∧ v = -1) ∨ (u = 1 ∧ v = -1) := by
    intro u v
    rw [← form_zero]
    constructor
    · intro h
      have : ((u ^ 2 + u * v + v ^ 2 + v : ℤ) : ℝ) = 0 := by
        have : R ^ 2 * (3 * ((u ^ 2 + u * v + v ^ 2 + v : ℤ) : ℝ)) = 0 := by linarith
        rcases mul_eq_zero.1 this with h | h
        · exact absurd h hR2.ne'
        · linarith
      exact_mod_cast this
    · intro h
      rw [h]
      simp
  refine ⟨⟨(√3 * R * ((0 : ℤ) + (0 : ℤ) / 2), 1.5 * R * (0 : ℤ)), 0, 0, Or.inl rfl⟩, ?_⟩
  rintro p ⟨i, j, rfl | rfl⟩
  · refine ⟨?_, (√3 * R * (i + j / 2), 1.5 * R * j + R), (√3 * R * (i + ((j - 1 : ℤ) : ℝ) / 2), 1.5 * R * ((j - 1 : ℤ) : ℝ) + R),
      (√3 * R * (((i + 1 : ℤ) : ℝ) + ((j - 1 : ℤ) : ℝ) / 2), 1.5 * R * ((j - 1 : ℤ) : ℝ) + R), ?_, ?_, ?_, ?_⟩
    · rintro q ⟨i', j', rfl | rfl⟩ hne
      · rw [hA]
        refine le_trans (by linarith) (h1 (i' - i) (j' - j) ?_)
        rintro ⟨e1, e2⟩
        have e1' : i' = i := by omega
        have e2' : j' = j := by omega
        exact hne (by rw [e1', e2'])
      · rw [hAB]; exact h2 _ _
    · ext q
      simp only [Set.mem_setOf_eq, Set.mem_insert_iff, Set.mem_singleton_iff]
      constructor
      · rintro ⟨⟨i', j', rfl | rfl⟩, hd⟩
        · rw [hA] at hd
          by_cases h0 : i' - i = 0 ∧ j' - j = 0
          · rw [h0.1, h0.2] at hd; simp at hd; exact absurd hd.symm hR2.ne'
          · have := h1 _ _ h0; linarith
        · rw [hAB, h3] at hd
          rcases hd with ⟨a, b⟩ | ⟨a, b⟩ | ⟨a, b⟩
          · left; rw [show i' = i by omega, show j' = j by omega]
          · right; left; rw [show i' = i by omega, show j' = j - 1 by omega]
          · right; right; rw [show i' = i + 1 by omega, show j' = j - 1 by omega]
      · rintro (rfl | rfl | rfl)
        · exact ⟨⟨i, j, Or.inr rfl⟩, by rw [hAB, h3]; left; simp⟩
        · exact ⟨⟨i, j - 1, Or.inr rfl⟩, by rw [hAB, h3]; right; left; simp⟩
        · exact ⟨⟨i + 1, j - 1, Or.inr rfl⟩, by rw [hAB, h3]; right; right; simp⟩
    · rw [hB]; push_cast; ring
    · rw [hB]; push_cast; ring
    · rw [hB]; push_cast; ring
  · refine ⟨?_, (√3 * R * (i + j / 2), 1.5 * R * j), (√3 * R * (i + ((j + 1 : ℤ) : ℝ) / 2), 1.5 * R * ((j + 1 : ℤ) : ℝ)),
      (√3 * R * (((i - 1 : ℤ) : ℝ) + ((j + 1 : ℤ) : ℝ) / 2), 1.5 * R * ((j + 1 : ℤ) : ℝ)), ?_, ?_, ?_, ?_⟩
    · rintro q ⟨i', j', rfl | rfl⟩ hne
      · rw [d2_comm, hAB]; exact h2 _ _
      · rw [hB]
        refine le_trans (by linarith) (h1 (i' - i) (j' - j) ?_)
        rintro ⟨e1, e2⟩
        have e1' : i' = i := by omega
        have e2' : j' = j := by omega
        exact hne (by rw [e1', e2'])
    · ext q
      simp only [Set.mem_setOf_eq, Set.mem_insert_iff, Set.mem_singleton_iff]
      constructor
      · rintro ⟨⟨i', j', rfl | rfl⟩, hd⟩
        · rw [d2_comm, hAB, h3] at hd
          rcases hd with ⟨a, b⟩ | ⟨a, b⟩ | ⟨a, b⟩
          · left; rw [show i' = i by omega, show j' = j by omega]
          · right; left; rw [show i' = i by omega, show j' = j + 1 by omega]
          · right; right; rw [show i' = i - 1 by omega, show j' = j + 1 by omega]
        · rw [hB] at hd
          by_cases h0 : i' - i = 0 ∧ j' - j = 0
          · rw [h0.1, h0.2] at hd; simp at hd; exact absurd hd.symm hR2.ne'
          · have := h1 _ _ h0; linarith
      · rintro (rfl | rfl | rfl)
        · exact ⟨⟨i, j, Or.inl rfl⟩, by rw [d2_comm, hAB, h3]; left; simp⟩
        · exact ⟨⟨i, j + 1, Or.inl rfl⟩, by rw [d2_comm, hAB, h3]; right; left; simp⟩
        · exact ⟨⟨i - 1, j + 1, Or.inl rfl⟩, by rw [d2_comm, hAB, h3]; right; right; simp⟩
    · rw [hA]; push_cast; ring
    · rw [hA]; push_cast; ring
    · rw [hA]; push_cast; ring

theorem d2_eq_zero {p q : ℝ × ℝ} (h : d2 p q = 0) : p = q := by
  unfold d2 at h
  have h1 : (p.1 - q.1) ^ 2 = 0 := by nlinarith [sq_nonneg (p.1 - q.1), sq_nonneg (p.2 - q.2)]
  have h2 : (p.2 - q.2) ^ 2 = 0 := by nlinarith [sq_nonneg (p.1 - q.1), sq_nonneg (p.2 - q.2)]
  have h1' := pow_eq_zero_iff (n := 2) (by norm_num) |>.1 h1
  have h2' := pow_eq_zero_iff (n := 2) (by norm_num) |>.1 h2
  exact Prod.ext (by linarith) (by linarith)

/-- Moving, turning or mirroring a honeycomb. -/
theorem Honeycomb.map {R : ℝ} {H : Set (ℝ × ℝ)} (h : Honeycomb R H) (f : ℝ × ℝ → ℝ × ℝ) (hf : ∀ p q, d2 (f p) (f q) = d2 p q) :
    Honeycomb R (f '' H) := by
  obtain ⟨⟨p0, hp0⟩, h⟩ := h
  refine ⟨⟨f p0, p0, hp0, rfl⟩, ?_⟩
  rintro _ ⟨p, hp, rfl⟩
  obtain ⟨h1, a, b, c, h2, h3, h4, h5⟩ := h p hp
  refine ⟨?_, f a, f b, f c, ?_, by rw [hf, h3], by rw [hf, h4], by rw [hf, h5]⟩
  · rintro _ ⟨q, hq, rfl⟩ hne
    rw [hf]
    exact h1 q hq fun e => hne (by rw [e])
  · have : {q ∈ f '' H | d2 (f p) q = R ^ 2} = f '' {q ∈ H | d2 p q = R ^ 2} := by
      ext q
      constructor
      · rintro ⟨⟨q, hq, rfl⟩, hd⟩
        rw [hf] at hd
        exact ⟨q, ⟨hq, hd⟩, rfl⟩
      · rintro ⟨q, ⟨hq, hd⟩, rfl⟩
        exact ⟨⟨q, hq, rfl⟩, by rw [hf]; exact hd⟩
    rw [this, h2]
    simp [Set.image_insert_eq]

/-! ### Structures periodic in one direction -/

/-- The plane points of atoms and their images along the first axis. -/
def planar (L : List Vec) (c : ℝ) : Set (ℝ × ℝ) := {q | ∃ p ∈ L, ∃ k : ℤ, q = (p 0 + k * c, p 1)}

def PlanarSimple (L : List Vec) (c : ℝ) : Prop :=
  L.Nodup ∧ ∀ p ∈ L, ∀ q ∈ L, ∀ k : ℤ, q 0 = p 0 + k * c → q 1 = p 1 → q = p ∧ k = 0

theorem sites_x {s : Struct} {c : ℝ} (hp : s.pbc = ![true, false, false]) (hc : s.cell 0 = ![c, 0, 0]) (q : Vec) (p : Vec) :
    (∃ k : Fin 3 → ℤ, (∀ a, s.pbc a = false → k a = 0) ∧ q = p + ∑ a, (k a : ℝ) • s.cell a) ↔ ∃ k : ℤ, q = p + ![k * c, 0, 0] := by
  constructor
  · rintro ⟨k, hk, rfl⟩
    have h1 := hk 1 (by simp [hp])
    have h2 := hk 2 (by simp [hp])
    refine ⟨k 0, ?_⟩
    rw [Fin.sum_univ_three, h1, h2, hc]
    simp
  · rintro ⟨k, rfl⟩
    refine ⟨![k, 0, 0], ?_, ?_⟩
    · intro a
      fin_cases a <;> simp [hp]
    · rw [Fin.sum_univ_three, hc]
      simp

theorem sites_z {s : Struct} {c : ℝ} (hp : s.pbc = ![false, false, true]) (hc : s.cell 2 = ![0, 0, c]) (q : Vec) (p : Vec) :
    (∃ k : Fin 3 → ℤ, (∀ a, s.pbc a = false → k a = 0) ∧ q = p + ∑ a, (k a : ℝ) • s.cell a) ↔ ∃ k : ℤ, q = p + ![0, 0, k * c] := by
  constructor
  · rintro ⟨k, hk, rfl⟩
    have h1 := hk 0 (by simp [hp])
    have h2 := hk 1 (by simp [hp])
    refine ⟨k 2, ?_⟩
    rw [Fin.sum_univ_three, h1, h2, hc]
    simp
  · rintro ⟨k, rfl⟩
    refine ⟨![0, 0, k], ?_, ?_⟩
    · intro a
      fin_cases a <;> simp [hp]
    · rw [Fin.sum_univ_three, hc]
      simp

/-- A flat structure, moved, periodic along x. -/
theorem sheet_x {s : Struct} {c : ℝ} {L : List Vec} {t : Vec} (hp : s.pbc = ![true, false, false]) (hc : s.cell 0 = ![c, 0, 0])
    (hL : ∀ p ∈ L, p 2 = 0) (hpos : s.pos = L.map fun p => p + t) :
    s.IsSheet (planar L c) ∧ (PlanarSimple L c → s.Simple) := by
  constructor
  · refine ⟨fun q => ![q.1, q.2, 0] + t, ?_, ?_⟩
    · intro p q
      rw [Fin.sum_univ_three]
      simp [d2]
    · ext q
      unfold Struct.sites
      simp only [Set.mem_setOf_eq, sites_x hp hc, hpos, List.mem_map]
      constructor
      · rintro ⟨_, ⟨p, hpL, rfl⟩, k, rfl⟩
        refine ⟨(p 0 + k * c, p 1), ⟨p, hpL, k, rfl⟩, ?_⟩
        have := hL p hpL
        ext a
        fin_cases a <;> simp [this] <;> ring
      · rintro ⟨_, ⟨p, hpL, k, rfl⟩, rfl⟩
        refine ⟨p + t, ⟨p, hpL, rfl⟩, k, ?_⟩
        have := hL p hpL
        ext a
        fin_cases a <;> simp [this] <;> ring
  · rintro ⟨h1, h2⟩
    refine ⟨?_, ?_⟩
    · rw [hpos]
      exact h1.map fun p q h => add_right_cancel h
    · intro p hpp q hq k hk hqe
      rw [hpos] at hpp hq
      obtain ⟨p, hp', rfl⟩ := List.mem_map.1 hpp
      obtain ⟨q, hq', rfl⟩ := List.mem_map.1 hq
      have k1 := hk 1 (by simp [hp])
      have k2 := hk 2 (by simp [hp])
      rw [Fin.sum_univ_three, k1, k2, hc] at hqe
      have e0 := congrFun hqe 0
      have e1 := congrFun hqe 1
      simp at e0 e1
      obtain ⟨h3, h4⟩ := h2 p hp' q hq' (k 0) (by linarith) e1
      refine ⟨by rw [h3], fun a => ?_⟩
      fin_cases a
      · exact h4
      · exact k1
      · exact k2

/-- A flat structure, put upright and moved, periodic along z. -/
theorem sheet_z {s : Struct} {c : ℝ} {L : List Vec} {t : Vec} (hp : s.pbc = ![false, false, true]) (hc : s.cell 2 = ![0, 0, c])
    (hL : ∀ p ∈ L, p 2 = 0) (hpos : s.pos = L.map fun p => ![-p 1, -p 2, p 0] + t) :
    s.IsSheet (planar L c) ∧ (PlanarSimple L c → s.Simple) := by
  constructor
  · refine ⟨fun q => ![-q.2, 0, q.1] + t, ?_, ?_⟩
    · intro p q
      rw [Fin.sum_univ_three]
      simp [d2]
      ring
    · ext q
      unfold Struct.sites
      simp only [Set.mem_setOf_eq, sites_z hp hc, hpos, List.mem_map]
      constructor
      · rintro ⟨_, ⟨p, hpL, rfl⟩, k, rfl⟩
        refine ⟨(p 0 + k * c, p 1), ⟨p, hpL, k, rfl⟩, ?_⟩
        have := hL p hpL
        ext a
        fin_cases a <;> simp only [Pi.add_apply, this, Fin.zero_eta, Fin.mk_one, Fin.reduceFinMk, Matrix.cons_val] <;> ring
      · rintro ⟨_, ⟨p, hpL, k, rfl⟩, rfl⟩
        refine ⟨![-p 1, -p 2, p 0] + t, ⟨p, hpL, rfl⟩, k, ?_⟩
        have := hL p hpL
        ext a
        fin_cases a <;> simp only [Pi.add_apply, this, Fin.zero_eta, Fin.mk_one, Fin.reduceFinMk, Matrix.cons_val] <;> ring
  · rintro ⟨h1, h2⟩
    refine ⟨?_, ?_⟩
    · rw [hpos]
      refine h1.map fun p q h => ?_
      have h' := add_right_cancel h
      have e0 := congrFun h' 0
      have e1 := congrFun h' 1
      have e2 := congrFun h' 2
      simp at e0 e1 e2
      ext a
      fin_cases a
      · exact e2
      · exact e0
      · exact e1
    · intro p hpp q hq k hk hqe
      rw [hpos] at hpp hq
      obtain ⟨p, hp', rfl⟩ := List.mem_map.1 hpp
      obtain ⟨q, hq', rfl⟩ := List.mem_map.1 hq
      have k1 := hk 0 (by simp [hp])
      have k2 := hk 1 (by simp [hp])
      rw [Fin.sum_univ_three, k1, k2, hc] at hqe
      have e0 := congrFun hqe 0
      have e2 := congrFun hqe 2
      simp only [Pi.add_apply, Pi.smul_apply, smul_eq_mul, Matrix.cons_val, Int.cast_zero, zero_mul, zero_add, mul_zero, add_zero] at e0 e2
      obtain ⟨h3, h4⟩ := h2 p hp' q hq' (k 2) (by linarith) (by linarith)
      refine ⟨by rw [h3], fun a => ?_⟩
      fin_cases a
      · exact k1
      · exact k2
      · exact h4

/-! ### Copies of a unit -/

/-- `n` copies of a unit, one period after the other. -/
def rowOf (unit : List Vec) (c : ℝ) (n : ℕ) : List Vec :=
  (List.range n).flatMap fun i : ℕ => unit.map fun p => p + ![i * c, 0, 0]

theorem copies_eq (unit : List Vec) (c : ℝ) {n : ℕ} (hn : 1 ≤ n) : copies unit c n = rowOf unit c n := by
  obtain ⟨m, rfl⟩ : ∃ m, n = m + 1 := ⟨n - 1, by omega⟩
  unfold copies rowOf
  rw [List.range_succ_eq_map, List.flatMap_cons, List.flatMap_map]
  congr 1
  · conv_lhs => rw [← List.map_id unit]
    refine List.map_congr_left fun p _ => ?_
    ext a
    fin_cases a <;> simp
  · simp

theorem mem_rowOf {unit : List Vec} {c : ℝ} {n : ℕ} {q : Vec} :
    q ∈ rowOf unit c n ↔ ∃ i < n, ∃ p ∈ unit, q = p + ![(i : ℝ) * c, 0, 0] := by
  unfold rowOf
  simp only [List.mem_flatMap, List.mem_range, List.mem_map]
  constructor
  · rintro ⟨i, hi, p, hp, rfl⟩; exact ⟨i, hi, p, hp, rfl⟩
  · rintro ⟨i, hi, p, hp, rfl⟩; exact ⟨i, hi, p, hp, rfl⟩

theorem planar_rowOf (unit : List Vec) (c : ℝ) {n : ℕ} (hn : 1 ≤ n) : planar (rowOf unit c n) (n * c) = planar unit c := by
  ext q
  constructor
  · rintro ⟨p, hp, k, rfl⟩
    obtain ⟨i, hi, p, hpu, rfl⟩ := mem_rowOf.1 hp
    refine ⟨p, hpu, i + n * k, ?_⟩
    ext
    · simp; ring
    · simp
  · rintro ⟨p, hp, k, rfl⟩
    have hn' : (0 : ℤ) < n := by omega
    have h1 := Int.emod_nonneg k hn'.ne'
    have h2 := Int.emod_lt_of_pos k hn'
    refine ⟨p + ![((k % n).toNat : ℝ) * c, 0, 0], mem_rowOf.2 ⟨(k % n).toNat, by omega, p, hp, rfl⟩, k / n, ?_⟩
    have e : (((k % n).toNat : ℕ) : ℝ) = ((k % n : ℤ) : ℝ) := by
      have : (((k % n).toNat : ℕ) : ℤ) = k % n := Int.toNat_of_nonneg h1
      exact_mod_cast this
    have e2 : ((k : ℤ) : ℝ) = ((k % n : ℤ) : ℝ) + n * ((k / n : ℤ) : ℝ) := by
      have := Int.emod_add_mul_ediv k n
      exact_mod_cast this.symm
    ext
    · simp [e]
      rw [e2]; ring
    · simp

theorem planarSimple_rowOf {unit : List Vec} {c : ℝ} {n : ℕ} (h : PlanarSimple unit c) : PlanarSimple (rowOf unit c n) (n * c) := by
  obtain ⟨h1, h2⟩ := h
  have key : ∀ i < n, ∀ p ∈ unit, ∀ j < n, ∀ q ∈ unit, ∀ k : ℤ,
      q 0 + j * c = p 0 + i * c + k * (n * c) → q 1 = p 1 → q = p ∧ j = i ∧ k = 0 := by
    intro i hi p hp j hj q hq k e0 e1
    obtain ⟨h3, h4⟩ := h2 p hp q hq (i - j + n * k) (by push_cast; linarith) e1
    have h5 : k = 0 := by
      have hn : (n : ℤ) * k = j - i := by linarith
      have a : -(n : ℤ) < n * k := by omega
      have b : n * k < (n : ℤ) := by omega
      have hn0 : (0 : ℤ) < n := by omega
      have : -1 < k := by nlinarith
      have : k < 1 := by nlinarith
      omega
    subst h5
    exact ⟨h3, by omega, rfl⟩
  refine ⟨?_, ?_⟩
  · unfold rowOf
    rw [List.nodup_flatMap]
    refine ⟨fun i _ => h1.map fun p q h => add_right_cancel h, ?_⟩
    have : (List.range n).Pairwise fun i j => i < n ∧ j < n ∧ i ≠ j := by
      refine List.Pairwise.imp_of_mem ?_ (List.nodup_range (n := n))
      intro i j hi hj hij
      exact ⟨List.mem_range.1 hi, List.mem_range.1 hj, hij⟩
    refine this.imp ?_
    rintro i j ⟨hi, hj, hij⟩ q hq1 hq2
    obtain ⟨p, hp, rfl⟩ := List.mem_map.1 hq1
    obtain ⟨p', hp', he⟩ := List.mem_map.1 hq2
    have e0 := congrFun he 0
    have e1 := congrFun he 1
    simp at e0 e1
    have := key i hi p hp j hj p' hp' 0 (by simpa using e0) e1
    exact hij this.2.1.symm
  · intro p hp q hq k e0 e1
    obtain ⟨i, hi, p, hpu, rfl⟩ := mem_rowOf.1 hp
    obtain ⟨j, hj, q, hqu, rfl⟩ := mem_rowOf.1 hq
    simp at e0 e1
    obtain ⟨a, b, d⟩ := key i hi p hpu j hj q hqu k e0 e1
    exact ⟨by rw [a, b], d⟩

theorem rowOf_flat {unit : List Vec} (h : ∀ p ∈ unit, p 2 = 0) (c : ℝ) (n : ℕ) : ∀ p ∈ rowOf unit c n, p 2 = 0 := by
  intro p hp
  obtain ⟨i, -, p, hpu, rfl⟩ := mem_rowOf.1 hp
  simp [h p hpu]

theorem rowOf_length (unit : List Vec) (c : ℝ) (n : ℕ) : (rowOf unit c n).length = n * unit.length := by
  unfold rowOf
  simp [List.length_flatMap]

end Hotbit
