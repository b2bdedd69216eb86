import Verif.Model.MultipoleExpansion
import Verif.Props.MatricesContainers
import Mathlib.Algebra.BigOperators.Group.Finset.Sigma
import Mathlib.Data.Pi.Interval
import Mathlib.Data.Int.Interval

/-!
# Boxes of cells: every cell of a large box is in exactly one of the small boxes it is divided into
-/

namespace Hotbit

open Finset

set_option linter.unusedSimpArgs false

/-- The cells with `|z_d| ≤ h_d`. -/
noncomputable def boxF (h : Op) : Finset Op := Finset.Icc (-h) h

theorem mem_boxF (h z : Op) : z ∈ boxF h ↔ ∀ d, -h d ≤ z d ∧ z d ≤ h d := by
  unfold boxF
  rw [Finset.mem_Icc, Pi.le_def, Pi.le_def]
  constructor
  · rintro ⟨a, b⟩ d; exact ⟨a d, b d⟩
  · intro a; exact ⟨fun d => (a d).1, fun d => (a d).2⟩

theorem line_split (a h N z : ℤ) (ha : 0 ≤ a) (hN : a = 0 ∨ N = 2 * h + 1) (hh : 0 ≤ h)
    (h1 : -(h + a * N) ≤ z) (h2 : z ≤ h + a * N) :
    ∃ x y, (-a ≤ x ∧ x ≤ a) ∧ (-h ≤ y ∧ y ≤ h) ∧ z = y + x * N := by
  rcases hN with rfl | rfl
  · exact ⟨0, z, by simp, ⟨by simpa using h1, by simpa using h2⟩, by simp⟩
  · have hp : 0 < 2 * h + 1 := by omega
    have e := Int.mul_ediv_add_emod (z + h) (2 * h + 1)
    have b1 := Int.emod_nonneg (z + h) hp.ne'
    have b2 := Int.emod_lt_of_pos (z + h) hp
    refine ⟨(z + h) / (2 * h + 1), (z + h) % (2 * h + 1) - h, ⟨?_, ?_⟩, ⟨by omega, by omega⟩, by linarith⟩
    · rw [Int.le_ediv_iff_mul_le hp]; linarith
    · rw [← Int.lt_add_one_iff, Int.ediv_lt_iff_lt_mul hp]; linarith

theorem line_unique (a h N x y x' y' : ℤ) (hN : a = 0 ∨ N = 2 * h + 1)
    (hx : -a ≤ x ∧ x ≤ a) (hx' : -a ≤ x' ∧ x' ≤ a) (hy : -h ≤ y ∧ y ≤ h) (hy' : -h ≤ y' ∧ y' ≤ h)
    (e : y + x * N = y' + x' * N) : x = x' ∧ y = y' := by
  rcases hN with rfl | rfl
  · have h1 : x = 0 := by omega
    have h2 : x' = 0 := by omega
    subst h1; subst h2
    simpa using e
  · have key : ∀ x y : ℤ, (-h ≤ y ∧ y ≤ h) → (y + h + x * (2 * h + 1)) / (2 * h + 1) = x := by
      intro x y hy
      rw [Int.add_mul_ediv_right _ _ (by omega), Int.ediv_eq_zero_of_lt (by omega) (by omega), zero_add]
    have hx1 := key x y hy
    have hx2 := key x' y' hy'
    have : y + h + x * (2 * h + 1) = y' + h + x' * (2 * h + 1) := by linarith
    rw [this, hx2] at hx1
    subst hx1
    exact ⟨rfl, by linarith⟩

theorem line_bounds (a h N x y : ℤ) (ha : 0 ≤ a) (hN : a = 0 ∨ N = 2 * h + 1) (hh : 0 ≤ h)
    (hx : -a ≤ x ∧ x ≤ a) (hy : -h ≤ y ∧ y ≤ h) : -(h + a * N) ≤ y + x * N ∧ y + x * N ≤ h + a * N := by
  rcases hN with rfl | rfl
  · have h1 : x = 0 := by omega
    subst h1
    simpa using hy
  · constructor <;> nlinarith [hx.1, hx.2, hy.1, hy.2]

/-- The size of the large box. -/
def bigBox (a h N : Op) : Op := h + mulOp a N

section
variable (a h N : Op) (ha : 0 ≤ a) (hh : 0 ≤ h) (hN : ∀ d, a d = 0 ∨ N d = 2 * h d + 1)
include ha hh hN

/-- The list of the cells of the small boxes is a permutation of the large box. -/
theorem big_perm (ops : List Op) (hn : ops.Nodup) (hm : ∀ x, x ∈ ops ↔ x ∈ boxF a) :
    (ops.flatMap fun x => (boxF h).toList.map fun y => y + mulOp x N).Perm (boxF (bigBox a h N)).toList := by
  rw [List.perm_ext_iff_of_nodup _ (Finset.nodup_toList _)]
  · intro z
    simp only [List.mem_flatMap, List.mem_map, Finset.mem_toList, hm, mem_boxF]
    constructor
    · rintro ⟨x, hx, y, hy, rfl⟩ d
      exact line_bounds (a d) (h d) (N d) (x d) (y d) (ha d) (hN d) (hh d) (hx d) (hy d)
    · intro hz
      have : ∀ d, ∃ x y, (-a d ≤ x ∧ x ≤ a d) ∧ (-h d ≤ y ∧ y ≤ h d) ∧ z d = y + x * N d := fun d =>
        line_split (a d) (h d) (N d) (z d) (ha d) (hN d) (hh d) (hz d).1 (hz d).2
      choose x y hx hy e using this
      exact ⟨x, hx, y, hy, by funext d; rw [e d]; rfl⟩
  · rw [List.nodup_flatMap]
    constructor
    · intro x _
      exact (Finset.nodup_toList _).map (add_left_injective _)
    · refine hn.imp_of_mem ?_
      intro x x' hx hx' hne
      rw [Function.onFun, List.disjoint_left]
      intro z hz hz'
      rw [List.mem_map] at hz hz'
      obtain ⟨y, hy, rfl⟩ := hz
      obtain ⟨y', hy', e⟩ := hz'
      rw [Finset.mem_toList, mem_boxF] at hy hy'
      rw [hm, mem_boxF] at hx hx'
      apply hne
      funext d
      exact (line_unique (a d) (h d) (N d) (x d) (y d) (x' d) (y' d) (hN d) (hx d) (hx' d) (hy d) (hy' d)
        (congrFun e d).symm).1

theorem big_sum {R : Type*} [AddCommMonoid R] (g : Op → R) :
    ∑ x ∈ boxF a, ∑ y ∈ boxF h, g (y + mulOp x N) = ∑ z ∈ boxF (bigBox a h N), g z := by
  have p := big_perm a h N ha hh hN (boxF a).toList (Finset.nodup_toList _) (fun x => Finset.mem_toList)
  have p2 := (p.map g).sum_eq
  rw [List.map_flatMap, Finset.sum_map_toList] at p2
  rw [← p2, List.flatMap_def, List.sum_flatten, List.map_map, Finset.sum_map_toList]
  refine Finset.sum_congr rfl fun x _ => ?_
  simp only [Function.comp_apply, List.map_map]
  rw [Finset.sum_map_toList]
  rfl

end

/-- Membership in the triple loops. -/
theorem mem_cellOps (r : Fin 3 → ℤ × ℤ) (x : Op) : x ∈ cellOps r ↔ ∀ d, (r d).1 ≤ x d ∧ x d < (r d).2 := by
  unfold cellOps productOps
  simp only [List.mem_flatMap, List.mem_map, mem_arange]
  constructor
  · rintro ⟨a, ha, b, hb, c, hc, rfl⟩ d
    fin_cases d
    · exact ha
    · exact hb
    · exact hc
  · intro h
    exact ⟨x 0, h 0, x 1, h 1, x 2, h 2, by ext d; fin_cases d <;> rfl⟩

theorem cellOps_nodup (r : Fin 3 → ℤ × ℤ) : (cellOps r).Nodup := by
  unfold cellOps productOps
  refine List.nodup_flatMap.2 ⟨fun a _ => List.nodup_flatMap.2 ⟨fun b _ => ?_, ?_⟩, ?_⟩
  · refine (arange_nodup _ _).map ?_
    intro c c' h
    have := congrFun h 2
    simpa using this
  · refine (arange_nodup _ _).imp ?_
    intro b b' hne
    rw [Function.onFun, List.disjoint_left]
    intro z hz hz'
    simp only [List.mem_map] at hz hz'
    obtain ⟨c, -, rfl⟩ := hz
    obtain ⟨c', -, e⟩ := hz'
    exact hne (by have := congrFun e 1; simpa using this.symm)
  · refine (arange_nodup _ _).imp ?_
    intro a a' hne
    rw [Function.onFun, List.disjoint_left]
    intro z hz hz'
    simp only [List.mem_flatMap, List.mem_map] at hz hz'
    obtain ⟨b, -, c, -, rfl⟩ := hz
    obtain ⟨b', -, c', -, e⟩ := hz'
    exact hne (by have := congrFun e 0; simpa using this.symm)

/-- Sum over a triple loop that runs over a symmetric box. -/
theorem cellOps_sum {R : Type*} [AddCommMonoid R] (r : Fin 3 → ℤ × ℤ) (h : Op)
    (hr : ∀ d, r d = (-h d, h d + 1)) (f : Op → R) : ((cellOps r).map f).sum = ∑ x ∈ boxF h, f x := by
  classical
  rw [← List.sum_toFinset f (cellOps_nodup r)]
  refine Finset.sum_congr ?_ fun _ _ => rfl
  ext x
  rw [List.mem_toFinset, mem_cellOps, mem_boxF]
  refine forall_congr' fun d => ?_
  rw [hr d]
  simp only
  omega

/-- The mean over a symmetric box. -/
theorem box_neg_sum {R : Type*} [AddCommMonoid R] (h : Op) (f : Op → R) :
    ∑ x ∈ boxF h, f (-x) = ∑ x ∈ boxF h, f x := by
  refine Finset.sum_bij' (fun x _ => -x) (fun x _ => -x) ?_ ?_ ?_ ?_ ?_
  · intro x hx; rw [mem_boxF] at *; intro d; have := hx d; simp only [Pi.neg_apply]; omega
  · intro x hx; rw [mem_boxF] at *; intro d; have := hx d; simp only [Pi.neg_apply]; omega
  · intro x _; simp
  · intro x _; simp
  · intro x _; rfl

end Hotbit
