import Verif.Lemmas.NanotubeMain

/-!
# The number of points in one unit of a nanotube
-/

namespace Hotbit

open Real

theorem ceil_window (k : ℤ) (q : ℤ) (α : ℝ) : (0 ≤ (k : ℝ) + α ∧ (k : ℝ) + α < q) ↔ (0 ≤ k - ⌈-α⌉ ∧ k - ⌈-α⌉ < q) := by
  constructor
  · rintro ⟨h1, h2⟩
    constructor
    · have : ⌈-α⌉ ≤ k := Int.ceil_le.2 (by linarith)
      omega
    · have : k - q < ⌈-α⌉ := Int.lt_ceil.2 (by push_cast; linarith)
      omega
  · rintro ⟨h1, h2⟩
    constructor
    · have : ⌈-α⌉ ≤ k := by omega
      have := Int.ceil_le.1 this
      linarith
    · have : k - q < ⌈-α⌉ := by omega
      have := Int.lt_ceil.1 this
      push_cast at this
      linarith

theorem tube_count {n m : ℕ} (h : 1 ≤ n + m) {A B : ℤ} (hA : 2 * (n : ℤ) + m = tubeDR n m * A)
    (hB : (n : ℤ) + 2 * m = tubeDR n m * B) :
    ∃ F : Finset (ℤ × ℤ × ℕ), (F.card : ℤ) = 2 * (n * A + m * B) ∧ ∀ x y b, (x, y, b) ∈ F ↔ TubeCell n m A B x y b := by
  obtain ⟨hq, -, -, -⟩ := tube_q h hA hB
  have hqr := tube_qr h hA hB
  have hg : 0 < Int.gcd n m := by
    apply Int.gcd_pos_iff.2
    omega
  obtain ⟨n', m', hco, hn, hm⟩ := Int.exists_gcd_one hg
  generalize Int.gcd n m = g at *
  have hg0 : (0 : ℤ) < g := by exact_mod_cast hg
  have hgr : (0 : ℝ) < g := by exact_mod_cast hg
  have hnr : (n : ℝ) = n' * g := by exact_mod_cast hn
  have hmr : (m : ℝ) = m' * g := by exact_mod_cast hm
  obtain ⟨u, w, huw⟩ : ∃ u w : ℤ, n' * w - m' * u = 1 := by
    have := Int.gcd_eq_gcd_ab n' m'
    rw [hco] at this
    exact ⟨-Int.gcdB n' m', Int.gcdA n' m', by push_cast at this; linarith⟩
  have huwr : (n' : ℝ) * w - m' * u = 1 := by exact_mod_cast huw
  set q' : ℤ := n' * A + m' * B with hq'
  have hqq : (n : ℤ) * A + m * B = g * q' := by rw [hn, hm, hq']; ring
  have hqqr : (n : ℝ) * A + m * B = g * q' := by exact_mod_cast hqq
  have hq'0 : 0 < q' := by
    rw [hqq] at hq
    exact (pos_iff_pos_of_mul_pos hq).1 hg0
  have hq'r : (0 : ℝ) < q' := by exact_mod_cast hq'0
  -- the coordinates i and j
  let β : ℕ → ℝ := fun b => (b : ℝ) / 3 - 0.01
  let α : ℕ → ℝ := fun b => β b * ((n' : ℝ) - m')
  let γ : ℕ → ℤ → ℝ := fun b i => (i * ((u : ℝ) * A + w * B) + β b * (A + B)) / q'
  have hsa : ∀ (i j : ℤ) (b : ℕ), tsa n m A B (j * n' + i * u) (j * m' + i * w) b = ((i : ℝ) + α b) / q' := by
    intro i j b
    unfold tsa
    rw [hqqr, hnr, hmr, div_eq_div_iff (by positivity) hq'r.ne']
    push_cast
    simp only [α, β]
    linear_combination ((i : ℝ) * g * q') * huwr
  have hsc : ∀ (i j : ℤ) (b : ℕ), tsc n m A B (j * n' + i * u) (j * m' + i * w) b = ((j : ℝ) + γ b i) / g := by
    intro i j b
    unfold tsc
    have hqc : (q' : ℝ) = n' * A + m' * B := by rw [hq']; push_cast; rfl
    rw [hqqr, div_eq_div_iff (by positivity) hgr.ne']
    have : γ b i * q' = i * ((u : ℝ) * A + w * B) + β b * (A + B) := by
      simp only [γ]
      field_simp
    push_cast
    simp only [β] at this
    linear_combination (-(g : ℝ)) * this - (j : ℝ) * g * hqc
  have hinv : ∀ x y : ℤ, (x * w - y * u) * n' + (n' * y - m' * x) * u = x ∧ (x * w - y * u) * m' + (n' * y - m' * x) * w = y := by
    intro x y
    constructor
    · linear_combination x * huw
    · linear_combination y * huw
  have hcell : ∀ (i j : ℤ) (b : ℕ), TubeCell n m A B (j * n' + i * u) (j * m' + i * w) b ↔
      (b = 1 ∨ b = 2) ∧ (0 ≤ j - ⌈-γ b i⌉ ∧ j - ⌈-γ b i⌉ < g) ∧ 0 ≤ i - ⌈-α b⌉ ∧ i - ⌈-α b⌉ < q' := by
    intro i j b
    have e1 := ceil_window j g (γ b i)
    have e2 := ceil_window i q' (α b)
    unfold TubeCell
    rw [hsa, hsc, ← e1, ← e2]
    rw [div_lt_one hq'r, div_lt_one hgr, div_nonneg_iff, div_nonneg_iff]
    push_cast
    constructor
    · rintro ⟨hb, ⟨h1, h2⟩, h3, h4⟩
      refine ⟨hb, ⟨?_, h2⟩, ?_, h4⟩
      · rcases h1 with h | h
        · exact h.1
        · linarith [h.2]
      · rcases h3 with h | h
        · exact h.1
        · linarith [h.2]
    · rintro ⟨hb, ⟨h1, h2⟩, h3, h4⟩
      exact ⟨hb, ⟨Or.inl ⟨h1, hgr.le⟩, h2⟩, Or.inl ⟨h3, hq'r.le⟩, h4⟩
  let I : Finset (ℕ × ℤ × ℤ) := ({1, 2} : Finset ℕ) ×ˢ (Finset.Ico (0 : ℤ) q') ×ˢ (Finset.Ico (0 : ℤ) g)
  let φ : ℕ × ℤ × ℤ → ℤ × ℤ × ℕ := fun t =>
    let i := t.2.1 + ⌈-α t.1⌉
    let j := t.2.2 + ⌈-γ t.1 i⌉
    (j * n' + i * u, j * m' + i * w, t.1)
  have hφ : Function.Injective φ := by
    rintro ⟨b, i, j⟩ ⟨b', i', j'⟩ he
    simp only [φ, Prod.mk.injEq] at he
    obtain ⟨e1, e2, rfl⟩ := he
    have hi : i + ⌈-α b⌉ = i' + ⌈-α b⌉ := by
      generalize ⌈-γ b (i + ⌈-α b⌉)⌉ = x1 at e1 e2
      generalize ⌈-γ b (i' + ⌈-α b⌉)⌉ = x2 at e1 e2
      generalize ⌈-α b⌉ = x3 at *
      linear_combination n' * e2 - m' * e1 - (i + x3 - (i' + x3)) * huw
    have hi' : i = i' := by omega
    subst hi'
    have hj : j = j' := by
      generalize ⌈-γ b (i + ⌈-α b⌉)⌉ = x1 at e1 e2
      generalize ⌈-α b⌉ = x3 at *
      linear_combination w * e1 - u * e2 - (j - j') * huw
    subst hj
    rfl
  refine ⟨I.image φ, ?_, ?_⟩
  · rw [Finset.card_image_of_injective _ hφ]
    simp only [I, Finset.card_product, Int.card_Ico, sub_zero]
    rw [hqq]
    push_cast
    rw [Int.toNat_of_nonneg hq'0.le]
    simp
    ring
  · intro x y b
    simp only [Finset.mem_image, I, Finset.mem_product, Finset.mem_insert, Finset.mem_singleton, Finset.mem_Ico]
    constructor
    · rintro ⟨⟨b', i, j⟩, ⟨hb, hi, hj⟩, he⟩
      simp only [φ, Prod.mk.injEq] at he
      obtain ⟨rfl, rfl, rfl⟩ := he
      rw [hcell]
      refine ⟨hb, ?_, ?_⟩
      · simpa using hj
      · simpa using hi
    · intro hc
      obtain ⟨e1, e2⟩ := hinv x y
      have hc' := hcell (n' * y - m' * x) (x * w - y * u) b
      rw [e1, e2] at hc'
      obtain ⟨hb, hj, hi⟩ := hc'.1 hc
      refine ⟨(b, (n' * y - m' * x) - ⌈-α b⌉, (x * w - y * u) - ⌈-γ b (n' * y - m' * x)⌉), ⟨hb, hi, hj⟩, ?_⟩
      simp only [φ, sub_add_cancel, e1, e2]

end Hotbit
