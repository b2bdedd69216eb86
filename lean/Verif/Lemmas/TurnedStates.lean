import Verif.Lemmas.TurnedBlocks
import Verif.Lemmas.TotalPath
import Verif.Lemmas.HellmannFeynman
import Verif.Props.Eigen

/-!
# The states of a turned structure
-/

set_option linter.unusedSimpArgs false

namespace Hotbit

open Matrix

/-- Orbital `x` is number `num x` of the `no (at x)` orbitals of atom `at x`. -/
structure OrbLay {n : ℕ} (atom : Fin n → ℕ) (num : Fin n → Fin 9) (no : ℕ → ℕ) (N : ℕ) : Prop where
  lt : ∀ x, atom x < N
  num_lt : ∀ x, (num x).val < no (atom x)
  valid : ∀ i < N, ValidNo (no i)
  inj : ∀ x y, atom x = atom y → num x = num y → x = y
  surj : ∀ i < N, ∀ a : Fin 9, a.val < no i → ∃ x, atom x = i ∧ num x = a

theorem Fits.lay {P : ScfIn} {A : Atoms} {elements : String → Option ElementData}
    (h : Fits P A elements) :
    OrbLay (fun x : Fin P.t.norb => P.t.atomAt x) (fun x => P.t.numAt x) P.no A.positions.length where
  lt x := (h.numAt x).1
  num_lt x := (h.numAt x).2.1
  valid i hi := (h.numbers i hi).2
  inj x y hxy hn := by
    obtain ⟨o, n, h1, h2, h3, -, -, h6⟩ := orb_at h.orbitals x
    obtain ⟨o', n', h1', h2', h3', -, -, h6'⟩ := orb_at h.orbitals y
    rw [hxy] at h1
    rw [h1] at h1'
    cases h1'
    have hx := (h.numAt x)
    have hy := (h.numAt y)
    obtain ⟨h7, h8⟩ := h.numbers _ hy.1
    unfold OrbTables.blocks at h1
    rw [List.getElem?_zip_eq_some, h7] at h1
    have hn9 : n = P.no (P.t.atomAt y) := by simpa using h1.2.symm
    have hv : n ≤ 9 := by rcases h8 with h8 | h8 | h8 <;> omega
    unfold OrbTables.numAt at hn
    rw [h6, h6'] at hn
    have := congrArg Fin.val hn
    simp only [Fin.ofNat] at this
    rw [Nat.mod_eq_of_lt (by omega), Nat.mod_eq_of_lt (by omega)] at this
    ext
    omega
  surj i hi a ha := by
    obtain ⟨h7, h8⟩ := h.numbers _ hi
    have hN : A.symbols.length = A.positions.length := by simp [Atoms.symbols, Atoms.positions]
    have hbl := blocks_length elements A.symbols P.t h.orbitals
    have hb : i < P.t.blocks.length := by omega
    obtain ⟨o, n, hon⟩ : ∃ o n, P.t.blocks[i]? = some (o, n) :=
      ⟨_, _, List.getElem?_eq_getElem hb⟩
    have hend := block_end_le h.orbitals hon
    have hon' := hon
    unfold OrbTables.blocks at hon'
    rw [List.getElem?_zip_eq_some, h7] at hon'
    have hn9 : n = P.no i := by simpa using hon'.2.symm
    have hx : o + a.val < P.t.norb := by omega
    obtain ⟨o', n', h1, h2, h3, h4, -, h6⟩ := orb_at h.orbitals (⟨o + a.val, hx⟩ : Fin P.t.norb)
    have hat := h4 i o n hon (by simp) (by simp; omega)
    refine ⟨⟨o + a.val, hx⟩, hat.symm, ?_⟩
    rw [← hat, hon] at h1
    cases h1
    show Fin.ofNat 9 _ = a
    rw [h6]
    ext
    simp only [Fin.ofNat]
    rw [Nat.mod_eq_of_lt (by have := a.2; omega)]
    simp

/-- All orbitals turned by `R`. -/
noncomputable def bigRep {n : ℕ} (atom : Fin n → ℕ) (num : Fin n → Fin 9) (R : Mat) : CMat n :=
  Matrix.of fun x y => if atom x = atom y then ((orbRep R (num x) (num y) : ℝ) : ℂ) else 0

namespace OrbLay

variable {n : ℕ} {atom : Fin n → ℕ} {num : Fin n → Fin 9} {no : ℕ → ℕ} {N : ℕ}
  (L : OrbLay atom num no N) {R : Mat} (hR : R.transpose * R = 1)
include L

/-- A sum over the orbitals of an atom. -/
theorem sum_atom {i : ℕ} (hi : i < N) (F : Fin 9 → ℂ) (hF : ∀ a : Fin 9, ¬ a.val < no i → F a = 0) :
    (∑ x, if atom x = i then F (num x) else 0) = ∑ a, F a := by
  classical
  rw [← Finset.sum_filter]
  have h2 : ∑ a, F a = ∑ a ∈ Finset.univ.filter (fun a : Fin 9 => a.val < no i), F a := by
    rw [Finset.sum_filter]
    refine Finset.sum_congr rfl fun a _ => ?_
    by_cases ha : a.val < no i
    · rw [if_pos ha]
    · rw [if_neg ha, hF a ha]
  rw [h2]
  refine Finset.sum_bij (fun x _ => num x) ?_ ?_ ?_ ?_
  · intro x hx
    rw [Finset.mem_filter] at hx ⊢
    refine ⟨Finset.mem_univ _, ?_⟩
    rw [← hx.2]
    exact L.num_lt x
  · intro x hx y hy h
    rw [Finset.mem_filter] at hx hy
    exact L.inj x y (hx.2.trans hy.2.symm) h
  · intro a ha
    rw [Finset.mem_filter] at ha
    obtain ⟨x, h1, h2⟩ := L.surj i hi a ha.2
    exact ⟨x, by rw [Finset.mem_filter]; exact ⟨Finset.mem_univ _, h1⟩, h2⟩
  · intro x _
    rfl

theorem sum_rep (x : Fin n) (F : Fin 9 → ℂ) :
    (∑ y, bigRep atom num R x y * F (num y)) = ∑ a, ((orbRep R (num x) a : ℝ) : ℂ) * F a := by
  rw [← L.sum_atom (L.lt x) (fun a => ((orbRep R (num x) a : ℝ) : ℂ) * F a)]
  · refine Finset.sum_congr rfl fun y _ => ?_
    unfold bigRep
    rw [Matrix.of_apply]
    by_cases h : atom x = atom y
    · rw [if_pos h, if_pos h.symm]
    · rw [if_neg h, if_neg (fun e => h e.symm), zero_mul]
  · intro a ha
    rw [orbRep_shell (L.valid _ (L.lt x)) (L.num_lt x) ha]
    simp

/-- The block matrix is the turned one. -/
theorem flat_cov {X' X : BMat} (h : ∀ i < N, ∀ j < N, Cov R (X' i j) (X i j)) :
    (Matrix.of fun x y => X' (atom x) (atom y) (num x) (num y) : CMat n)
      = bigRep atom num R * (Matrix.of fun x y => X (atom x) (atom y) (num x) (num y) : CMat n)
        * (bigRep atom num R)ᴴ := by
  ext x y
  rw [Matrix.of_apply, h _ (L.lt x) _ (L.lt y), Matrix.mul_apply]
  have e1 : ∀ z, (bigRep atom num R * (Matrix.of fun x y => X (atom x) (atom y) (num x) (num y) : CMat n)) x z
      * (bigRep atom num R)ᴴ z y
      = bigRep atom num R y z * ∑ a, ((orbRep R (num x) a : ℝ) : ℂ) * X (atom x) (atom y) a (num z) := by
    intro z
    rw [Matrix.conjTranspose_apply]
    by_cases hz : atom y = atom z
    · rw [Matrix.mul_apply, mul_comm]
      congr 1
      · unfold bigRep
        rw [Matrix.of_apply, if_pos hz]
        exact Complex.conj_ofReal _
      · rw [hz, ← L.sum_rep x fun a => X (atom x) (atom z) a (num z)]
        refine Finset.sum_congr rfl fun w _ => ?_
        rw [Matrix.of_apply]
        unfold bigRep
        rw [Matrix.of_apply]
        by_cases hw : atom x = atom w
        · rw [hw]
        · rw [if_neg hw, zero_mul, zero_mul]
    · unfold bigRep
      rw [Matrix.of_apply, if_neg hz]
      simp
  rw [Finset.sum_congr rfl fun z _ => e1 z, L.sum_rep y fun b =>
    ∑ a, ((orbRep R (num x) a : ℝ) : ℂ) * X (atom x) (atom y) a b, Finset.sum_comm]
  refine Finset.sum_congr rfl fun b _ => ?_
  rw [Finset.mul_sum]
  refine Finset.sum_congr rfl fun a _ => ?_
  push_cast
  ring

include hR in
theorem unitary : bigRep atom num R * (bigRep atom num R)ᴴ = 1 := by
  ext x y
  rw [Matrix.mul_apply, Matrix.one_apply]
  by_cases hxy : atom x = atom y
  · have e : ∀ z, bigRep atom num R x z * (bigRep atom num R)ᴴ z y
        = bigRep atom num R x z * ((orbRep R (num y) (num z) : ℝ) : ℂ) := by
      intro z
      rw [Matrix.conjTranspose_apply]
      unfold bigRep
      rw [Matrix.of_apply, Matrix.of_apply]
      by_cases hz : atom x = atom z
      · rw [if_pos hz, if_pos (hxy.symm.trans hz)]
        congr 1
        exact Complex.conj_ofReal _
      · rw [if_neg hz, zero_mul, zero_mul]
    rw [Finset.sum_congr rfl fun z _ => e z, L.sum_rep x fun a => ((orbRep R (num y) a : ℝ) : ℂ)]
    have h3 := congrFun (congrFun (orbRep_orth R hR) (num x)) (num y)
    rw [Matrix.mul_apply, Matrix.one_apply] at h3
    have h4 : (∑ a, ((orbRep R (num x) a : ℝ) : ℂ) * ((orbRep R (num y) a : ℝ) : ℂ))
        = ((∑ a, orbRep R (num x) a * (orbRep R).transpose a (num y) : ℝ) : ℂ) := by
      push_cast
      rfl
    rw [h4, h3]
    by_cases hn : num x = num y
    · rw [if_pos hn, if_pos (L.inj x y hxy hn)]; simp
    · rw [if_neg hn, if_neg (fun e => hn (by rw [e]))]; simp
  · rw [if_neg (fun e => hxy (by rw [e]))]
    refine Finset.sum_eq_zero fun z _ => ?_
    rw [Matrix.conjTranspose_apply]
    unfold bigRep
    rw [Matrix.of_apply, Matrix.of_apply]
    by_cases hz : atom x = atom z
    · rw [if_neg (c := atom y = atom z) (fun e => hxy (hz.trans e.symm))]
      simp
    · rw [if_neg hz, zero_mul]

include hR in
theorem unitary' : (bigRep atom num R)ᴴ * bigRep atom num R = 1 := mul_eq_one_comm.1 (L.unitary hR)

end OrbLay

section

variable {n : ℕ} {atom : Fin n → ℕ} {num : Fin n → Fin 9} {R : Mat}

theorem bigRep_conj : (bigRep atom num R)ᴴ = (bigRep atom num R)ᵀ := by
  ext x y
  rw [Matrix.conjTranspose_apply, Matrix.transpose_apply]
  unfold bigRep
  rw [Matrix.of_apply]
  by_cases h : atom y = atom x
  · rw [if_pos h]; exact Complex.conj_ofReal _
  · rw [if_neg h]; simp

/-- Multiplying elements by a number that depends only on the atoms. -/
theorem hadamard_rep (h : Fin n → Fin n → ℂ)
    (hh : ∀ x x' y y', atom x = atom x' → atom y = atom y' → h x y = h x' y') (M : CMat n) :
    (Matrix.of fun x y => h x y * (bigRep atom num R * M * (bigRep atom num R)ᴴ) x y : CMat n)
      = bigRep atom num R * (Matrix.of fun x y => h x y * M x y : CMat n) * (bigRep atom num R)ᴴ := by
  ext x y
  rw [Matrix.of_apply]
  simp only [Matrix.mul_apply, Finset.sum_mul, Finset.mul_sum]
  refine Finset.sum_congr rfl fun z _ => Finset.sum_congr rfl fun w _ => ?_
  rw [Matrix.conjTranspose_apply, Matrix.of_apply]
  unfold bigRep
  rw [Matrix.of_apply, Matrix.of_apply]
  by_cases h1 : atom x = atom w
  · by_cases h2 : atom y = atom z
    · rw [hh x w y z h1 h2]; ring
    · rw [if_neg h2]; simp
  · rw [if_neg h1]; simp

/-- The trace over the orbitals of an atom does not change. -/
theorem atom_trace (hU : (bigRep atom num R)ᴴ * bigRep atom num R = 1) (M : CMat n) (a : ℕ) :
    (∑ x, if atom x = a then (bigRep atom num R * M * (bigRep atom num R)ᴴ) x x else 0)
      = ∑ x, if atom x = a then M x x else 0 := by
  have hE : ∀ X : CMat n, (∑ x, if atom x = a then X x x else 0)
      = (diagonal (fun x => if atom x = a then (1 : ℂ) else 0) * X).trace := by
    intro X
    rw [Matrix.trace]
    refine Finset.sum_congr rfl fun x _ => ?_
    rw [Matrix.diag_apply, Matrix.diagonal_mul]
    by_cases h : atom x = a <;> simp [h]
  have hc : diagonal (fun x => if atom x = a then (1 : ℂ) else 0) * bigRep atom num R
      = bigRep atom num R * diagonal (fun x => if atom x = a then (1 : ℂ) else 0) := by
    ext x y
    rw [Matrix.diagonal_mul, Matrix.mul_diagonal]
    unfold bigRep
    rw [Matrix.of_apply]
    by_cases h : atom x = atom y
    · rw [h]; ring
    · rw [if_neg h]; simp
  rw [hE, hE, ← Matrix.mul_assoc, ← Matrix.mul_assoc, hc, Matrix.trace_mul_comm, ← Matrix.mul_assoc,
    ← Matrix.mul_assoc, hU, Matrix.one_mul]

theorem conj_mul_conj {D : CMat n} (hU : Dᴴ * D = 1) (X Y : CMat n) :
    (D * X * Dᴴ) * (D * Y * Dᴴ) = D * (X * Y) * Dᴴ := by
  calc (D * X * Dᴴ) * (D * Y * Dᴴ) = D * X * (Dᴴ * D) * Y * Dᴴ := by simp only [Matrix.mul_assoc]
    _ = _ := by rw [hU, Matrix.mul_one]; simp only [Matrix.mul_assoc]

theorem rowDot_eq (X Y : CMat n) (i : Fin n) : rowDot X Y i = (X * Y) i i := by
  rw [Matrix.mul_apply]
  rfl

/-- The states turn along. -/
theorem areStates_turn {D : CMat n} (hU : Dᴴ * D = 1) {H S : CMat n} {e : Fin n → ℝ} {wf : CMat n}
    (h : AreStates H S e wf) : AreStates (D * H * Dᴴ) (D * S * Dᴴ) e (wf * Dᵀ) := by
  have k := (areStates_iff H S e wfᵀ).1 (by rwa [transpose_transpose])
  have e1 : wf * Dᵀ = (D * wfᵀ)ᵀ := by rw [transpose_mul, transpose_transpose]
  rw [e1, areStates_iff]
  refine ⟨k.1, ?_, ?_⟩
  · rw [conjTranspose_mul]
    calc wfᵀᴴ * Dᴴ * (D * S * Dᴴ) * (D * wfᵀ) = wfᵀᴴ * (Dᴴ * D) * S * (Dᴴ * D) * wfᵀ := by
          simp only [Matrix.mul_assoc]
      _ = 1 := by rw [hU, Matrix.mul_one, Matrix.mul_one]; exact k.2.1
  · calc D * H * Dᴴ * (D * wfᵀ) = D * H * (Dᴴ * D) * wfᵀ := by simp only [Matrix.mul_assoc]
      _ = D * (H * wfᵀ) := by rw [hU, Matrix.mul_one, Matrix.mul_assoc]
      _ = D * (S * wfᵀ * diagonal fun a => (e a : ℂ)) := by rw [k.2.2]
      _ = D * S * (Dᴴ * D) * wfᵀ * diagonal fun a => (e a : ℂ) := by
          rw [hU, Matrix.mul_one]; simp only [Matrix.mul_assoc]
      _ = _ := by simp only [Matrix.mul_assoc]

theorem AreStates.solved_by {H S : CMat n} {e : Fin n → ℝ} {wf : CMat n} (h : AreStates H S e wf) :
    Solutions H S e wf := ⟨h.orthonormal, h.solve⟩

/-- Density matrices turn along. -/
theorem computeRho_turn {D : CMat n} (hD : Dᴴ = Dᵀ) (wf : CMat n) (f : Fin n → ℝ) :
    computeRho (wf * Dᵀ) f = D * computeRho wf f * Dᴴ := by
  unfold computeRho
  rw [transpose_mul, transpose_transpose, Matrix.mul_assoc D, Matrix.mul_assoc D, Matrix.mul_assoc wfᵀ]
  congr 2
  ext a j
  simp only [Matrix.of_apply, Matrix.mul_apply, map_sum, map_mul, Finset.mul_sum]
  refine Finset.sum_congr rfl fun k _ => ?_
  have : Dᴴ k j = (starRingEnd ℂ) (Dᵀ k j) := rfl
  rw [this]
  ring

end

end Hotbit
