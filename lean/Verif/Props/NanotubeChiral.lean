import Verif.Lemmas.NanotubeRoll
import Verif.Props.Nanotube
import Verif.Props.Containers
import Verif.Props.ContainerSet

/-!
# C115: nanotubes with helical boundary conditions
-/

namespace Hotbit

open Real

noncomputable def ca1 (R : ℝ) : ℝ × ℝ := (√3 * R, 0)
noncomputable def ca2 (R : ℝ) : ℝ × ℝ := (0.5 * (√3 * R), -1.5 * R)
noncomputable def cshift (R : ℝ) : ℝ × ℝ := (√3 * R / 2, -0.5 * R)

theorem ca_primitive (R : ℝ) : Primitive R (ca1 R) (ca2 R) := by
  have := sq3
  unfold Primitive dot2 ca1 ca2
  refine ⟨?_, ?_, ?_⟩ <;> simp only
  · linear_combination R ^ 2 * this
  · linear_combination R ^ 2 / 4 * this
  · linear_combination R ^ 2 / 2 * this

theorem honey0_mem {R : ℝ} {p : ℝ × ℝ} : p ∈ honey0 R ↔ ∃ i j : ℤ, p = (i : ℝ) • ca1 R + (j : ℝ) • ca2 R ∨
    p = (i : ℝ) • ca1 R + (j : ℝ) • ca2 R + cshift R := by
  unfold ca1 ca2 cshift
  constructor
  · rintro ⟨i, j, rfl | rfl⟩
    · refine ⟨i + j, -j, Or.inl ?_⟩
      ext
      · simp only [Prod.fst_add, Prod.smul_fst, smul_eq_mul]; push_cast; ring
      · simp only [Prod.snd_add, Prod.smul_snd, smul_eq_mul]; push_cast; ring
    · refine ⟨i + j, -j - 1, Or.inr ?_⟩
      ext
      · simp only [Prod.fst_add, Prod.smul_fst, smul_eq_mul]; push_cast; ring
      · simp only [Prod.snd_add, Prod.smul_snd, smul_eq_mul]; push_cast; ring
  · rintro ⟨i, j, rfl | rfl⟩
    · refine ⟨i + j, -j, Or.inl ?_⟩
      ext
      · simp only [Prod.fst_add, Prod.smul_fst, smul_eq_mul]; push_cast; ring
      · simp only [Prod.snd_add, Prod.smul_snd, smul_eq_mul]; push_cast; ring
    · refine ⟨i + j + 1, -j - 1, Or.inr ?_⟩
      ext
      · simp only [Prod.fst_add, Prod.smul_fst, smul_eq_mul]; push_cast; ring
      · simp only [Prod.snd_add, Prod.smul_snd, smul_eq_mul]; push_cast; ring

theorem honey0_shift {R : ℝ} (u w : ℤ) (p : ℝ × ℝ) : p + ((u : ℝ) • ca1 R + (w : ℝ) • ca2 R) ∈ honey0 R ↔ p ∈ honey0 R := by
  have one : ∀ (u w : ℤ) (p : ℝ × ℝ), p ∈ honey0 R → p + ((u : ℝ) • ca1 R + (w : ℝ) • ca2 R) ∈ honey0 R := by
    intro u w p hp
    obtain ⟨i, j, rfl | rfl⟩ := honey0_mem.1 hp
    · exact honey0_mem.2 ⟨i + u, j + w, Or.inl (by push_cast; simp only [add_smul]; abel)⟩
    · exact honey0_mem.2 ⟨i + u, j + w, Or.inr (by push_cast; simp only [add_smul]; abel)⟩
  refine ⟨fun h => ?_, one u w p⟩
  have := one (-u) (-w) _ h
  rwa [show p + ((u : ℝ) • ca1 R + (w : ℝ) • ca2 R) + (((-u : ℤ) : ℝ) • ca1 R + ((-w : ℤ) : ℝ) • ca2 R) = p by
    push_cast; simp only [neg_smul]; abel] at this

/-- Coordinates in the honeycomb are unique. -/
theorem coords {R : ℝ} (hR : 0 < R) {i j i' j' : ℤ} {d d' : ℕ} (hd : d < 2) (hd' : d' < 2)
    (h : (i : ℝ) • ca1 R + (j : ℝ) • ca2 R + (d : ℝ) • cshift R = (i' : ℝ) • ca1 R + (j' : ℝ) • ca2 R + (d' : ℝ) • cshift R) :
    i = i' ∧ j = j' ∧ d = d' := by
  have h3 := sqrt3_pos
  unfold ca1 ca2 cshift at h
  have e1 := congrArg Prod.fst h
  have e2 := congrArg Prod.snd h
  simp only [Prod.fst_add, Prod.snd_add, Prod.smul_fst, Prod.smul_snd, smul_eq_mul] at e1 e2
  have f2 : R * (3 * j + d) = R * (3 * j' + d') := by linarith
  have g2 := mul_left_cancel₀ hR.ne' f2
  have g2' : 3 * j + d = 3 * j' + d' := by exact_mod_cast g2
  have hdd : d = d' := by omega
  have hjj : j = j' := by omega
  subst hdd hjj
  have f1 : (√3 * R) * (i : ℝ) = (√3 * R) * i' := by linarith
  have g1 := mul_left_cancel₀ (by positivity) f1
  exact ⟨by exact_mod_cast g1, rfl, rfl⟩

theorem chiralPoints_eq (n m : ℕ) (R : ℝ) :
    chiralPoints n m R = (List.range (n + m)).flatMap fun s : ℕ => [(s : ℝ) • ca1 R, (s : ℝ) • ca1 R + cshift R] := by
  unfold chiralPoints ca1 cshift
  simp only
  rw [List.range_add, List.flatMap_append]
  congr 1
  rw [List.flatMap_map]
  refine List.flatMap_congr fun j _ => ?_
  have : (((n : ℝ) - 1) • ((√3 * R, 0) : ℝ × ℝ) + ((j : ℝ) + 1) • ((√3 * R, 0) : ℝ × ℝ)) = ((n + j : ℕ) : ℝ) • ((√3 * R, 0) : ℝ × ℝ) := by
    rw [← add_smul]
    congr 1
    push_cast; ring
  simp only [this]

theorem chiralPoints_mem {n m : ℕ} {R : ℝ} {r : ℝ × ℝ} : r ∈ chiralPoints n m R ↔ ∃ s < n + m, ∃ d : ℕ, d < 2 ∧
    r = (s : ℝ) • ca1 R + (d : ℝ) • cshift R := by
  rw [chiralPoints_eq]
  simp only [List.mem_flatMap, List.mem_range, List.mem_cons, List.not_mem_nil, or_false]
  constructor
  · rintro ⟨s, hs, rfl | rfl⟩
    · exact ⟨s, hs, 0, by omega, by simp⟩
    · exact ⟨s, hs, 1, by omega, by simp⟩
  · rintro ⟨s, hs, d, hd, rfl⟩
    obtain rfl | rfl : d = 0 ∨ d = 1 := by omega
    · exact ⟨s, hs, Or.inl (by simp)⟩
    · exact ⟨s, hs, Or.inr (by simp)⟩

theorem chiralPoints_nodup (n m : ℕ) {R : ℝ} (hR : 0 < R) : (chiralPoints n m R).Nodup := by
  rw [chiralPoints_eq, List.nodup_flatMap]
  have key : ∀ s s' d d' : ℕ, d < 2 → d' < 2 → (s : ℝ) • ca1 R + (d : ℝ) • cshift R = (s' : ℝ) • ca1 R + (d' : ℝ) • cshift R →
      s = s' ∧ d = d' := by
    intro s s' d d' hd hd' h
    obtain ⟨a, -, b⟩ := coords hR (i := s) (j := 0) (i' := s') (j' := 0) hd hd' (by simpa using h)
    exact ⟨by exact_mod_cast a, b⟩
  constructor
  · intro s _
    simp only [List.nodup_cons, List.mem_singleton, List.not_mem_nil, not_false_iff, List.nodup_nil, and_true]
    intro h
    have := (key s s 0 1 (by omega) (by omega) (by simpa using h)).2
    omega
  · refine (List.nodup_range (n := n + m)).imp ?_
    intro s s' hss q hq hq'
    simp only [List.mem_cons, List.not_mem_nil, or_false] at hq hq'
    apply hss
    rcases hq with rfl | rfl <;> rcases hq' with h | h
    · exact (key s s' 0 0 (by omega) (by omega) (by simpa using h)).1
    · exact (key s s' 0 1 (by omega) (by omega) (by simpa using h)).1
    · exact (key s s' 1 0 (by omega) (by omega) (by simpa using h)).1
    · exact (key s s' 1 1 (by omega) (by omega) (by simpa using h)).1

theorem chiral_transform {A : Atoms} (hA : A.ctype = .chiral) (r : Vec) (k : Op) (q : Vec) :
    A.transform r k = .ok q ↔ k 0 = 0 ∧ k 1 = 0 ∧ q = (rotZ (k 2 * A.cell 2 0)).mulVec r + ![0, 0, k 2 * A.cell 1 0] := by
  have hL : Legal A k ↔ k 0 = 0 ∧ k 1 = 0 := by
    rw [← legal_iff]
    unfold Atoms.ranges
    rw [hA]
    simp [rangeZero, rangeInf, Bound.leInt, Bound.geInt]
    omega
  have hraw : A.rawTransform r k = (rotZ (k 2 * A.cell 2 0)).mulVec r + ![0, 0, k 2 * A.cell 1 0] := by
    unfold Atoms.rawTransform Atoms.rawRotation
    rw [hA]
  by_cases h : Legal A k
  · rw [(c05_transform_guard A r k).1 h, hraw]
    obtain ⟨h0, h1⟩ := hL.1 h
    simp [h0, h1, eq_comm]
  · rw [(c05_transform_guard A r k).2 h]
    constructor
    · intro e; cases e
    · rintro ⟨h0, h1, -⟩
      exact absurd (hL.2 ⟨h0, h1⟩) h

/-- **C115.** `chiral_nanotube(n,m,R)`: the images of its `2(n+m)` atoms under the screw operations of the container are the endless
`(n,m)` tube, each site being one image of one atom; the data are those of the tube, together with the height and twist of the container. -/
theorem c115_chiral {n m : ℕ} (h : 1 ≤ n + m) {R : ℝ} (hR : 0 < R) (element : String) :
    ∃ A d height twist, chiralNanotube n m R element = .ok (A, d, height, twist) ∧
      A.ctype = .chiral ∧ A.atoms.length = 2 * (n + m) ∧ (∀ a ∈ A.atoms, a.1 = element) ∧
      IsNanotube R n m A.allSites ∧ A.NoOverlap ∧
      nanotubeData n m R = .ok d ∧ 0 < height ∧ A.getPar .height = .ok (.real height) ∧ A.getPar .angle = .ok (.real twist) := by
  obtain ⟨d, hd, -⟩ := tubeData_ok h R
  have hN := norm_pos h
  have hprim := ca_primitive R
  set C := chiralVec (ca1 R) (ca2 R) n m with hC
  have hCdef : (n : ℝ) • ca1 R + (m : ℝ) • ca2 R = C := by rw [hC]; unfold chiralVec; push_cast; rfl
  have hCC : dot2 C C ≠ 0 := by
    rw [hC, dot2_self_chiral hprim]
    positivity
  have hL := len2_pos hCC
  have hT : √(dot2 (C.2, -C.1) (C.2, -C.1)) = len2 C := by
    unfold len2 dot2
    congr 1
    ring
  -- the screw vector
  have hz : ∀ r : ℝ × ℝ, dot2 r ((1 / √(dot2 (C.2, -C.1) (C.2, -C.1))) • ((C.2, -C.1) : ℝ × ℝ)) = (r.1 * C.2 - r.2 * C.1) / len2 C := by
    intro r
    rw [hT]
    unfold dot2
    simp only [Prod.smul_fst, Prod.smul_snd, smul_eq_mul]
    field_simp
    ring
  set v := ca2 R - ca1 R with hv
  have hcross : 0 < (v.1 * C.2 - v.2 * C.1) := by
    have : v.1 * C.2 - v.2 * C.1 = 1.5 * √3 * R ^ 2 * (n + m) := by
      rw [hv, ← hCdef]
      unfold ca1 ca2
      simp only [Prod.fst_add, Prod.snd_add, Prod.fst_sub, Prod.snd_sub, Prod.smul_fst, Prod.smul_snd, smul_eq_mul]
      ring
    rw [this]
    have : (1 : ℝ) ≤ (n : ℝ) + m := by exact_mod_cast h
    have := sqrt3_pos
    positivity
  have hheight : |dot2 (ca1 R - ca2 R) ((1 / √(dot2 (C.2, -C.1) (C.2, -C.1))) • ((C.2, -C.1) : ℝ × ℝ))| = (v.1 * C.2 - v.2 * C.1) / len2 C := by
    rw [hz, show ((ca1 R - ca2 R).1 * C.2 - (ca1 R - ca2 R).2 * C.1) / len2 C = -((v.1 * C.2 - v.2 * C.1) / len2 C) by
      rw [hv]; simp only [Prod.fst_sub, Prod.snd_sub]; ring, abs_neg, abs_of_pos (by positivity)]
  have hangle : -dot2 (ca1 R - ca2 R) C / len2 C ^ 2 * 2 * π = phase2 C v := by
    unfold phase2
    rw [show -dot2 (ca1 R - ca2 R) C = dot2 v C by rw [hv]; unfold dot2; simp only [Prod.fst_sub, Prod.snd_sub]; ring]
  have hplace : ∀ r : ℝ × ℝ, (![len2 C / (2 * π) * cos (dot2 r C / len2 C ^ 2 * 2 * π), len2 C / (2 * π) * sin (dot2 r C / len2 C ^ 2 * 2 * π),
      dot2 r ((1 / √(dot2 (C.2, -C.1) (C.2, -C.1))) • ((C.2, -C.1) : ℝ × ℝ))] : Vec) = rollUp C r := by
    intro r
    rw [rollUp_eq hCC, hz]
    rfl
  set A0 : Atoms := { ctype := .chiral, atoms := (chiralPoints n m R).map fun r => (element, rollUp C r), cell := 0, pbc := ![false, false, true] }
    with hA0
  obtain ⟨A, hset, hp1, -, hp2, -, hat, -, hct⟩ := c106_chiral A0 rfl (some (phase2 C v)) (some ((v.1 * C.2 - v.2 * C.1) / len2 C))
  have hval : chiralNanotube n m R element = .ok (A, d, (v.1 * C.2 - v.2 * C.1) / len2 C, phase2 C v) := by
    unfold chiralNanotube
    simp only
    rw [show ((√3 * R, 0) : ℝ × ℝ) = ca1 R from rfl, show ((0.5 * (√3 * R), -1.5 * R) : ℝ × ℝ) = ca2 R from rfl, hCdef,
      show √(dot2 C C) = len2 C from rfl, hheight, hangle, hd]
    simp only [hplace]
    rw [← hA0, hset]
  have hcell : A.cell 2 0 = phase2 C v ∧ A.cell 1 0 = (v.1 * C.2 - v.2 * C.1) / len2 C := by
    have hct' : A.ctype = .chiral := hct
    have a := hp1
    have b := hp2
    simp [Atoms.getPar, par, hct'] at a b
    exact ⟨a, b⟩
  have hpos : A.positions = (chiralPoints n m R).map fun r => rollUp C r := by
    unfold Atoms.positions
    rw [hat, hA0]
    simp [Function.comp_def]
  have hscrew : ∀ (r : ℝ × ℝ) (k : Op) (q : Vec), A.transform (rollUp C r) k = .ok q ↔ k 0 = 0 ∧ k 1 = 0 ∧ q = rollUp C (r + (k 2 : ℝ) • v) := by
    intro r k q
    rw [chiral_transform (show A.ctype = .chiral from hct), hcell.1, hcell.2, rollUp_screw hCC]
  -- points of the honeycomb and images
  have hpt : ∀ (s : ℤ) (d : ℕ) (k l : ℤ), (s : ℝ) • ca1 R + (d : ℝ) • cshift R + (k : ℝ) • v + (l : ℝ) • C =
      ((s - k + l * n : ℤ) : ℝ) • ca1 R + ((k + l * m : ℤ) : ℝ) • ca2 R + (d : ℝ) • cshift R := by
    intro s d k l
    rw [hv, ← hCdef]
    push_cast
    simp only [smul_sub, smul_add, add_smul, sub_smul, mul_smul]
    abel
  have huniq : ∀ s < n + m, ∀ s' < n + m, ∀ d : ℕ, d < 2 → ∀ d' : ℕ, d' < 2 → ∀ k k' : ℤ,
      rollUp C ((s : ℝ) • ca1 R + (d : ℝ) • cshift R + (k : ℝ) • v) = rollUp C ((s' : ℝ) • ca1 R + (d' : ℝ) • cshift R + (k' : ℝ) • v) →
      s = s' ∧ d = d' ∧ k = k' := by
    intro s hs s' hs' d hd d' hd' k k' he
    obtain ⟨l, hl⟩ := (rollUp_inj hCC _ _).1 he
    have e1 := hpt s d k l
    have e2 := hpt s' d' k' 0
    push_cast at e1 e2
    rw [← hl] at e1
    simp only [zero_smul, add_zero] at e2
    rw [e2] at e1
    obtain ⟨a, b, c⟩ := coords hR (i := (s' - k' + 0 * n : ℤ)) (j := (k' + 0 * m : ℤ)) (i' := (s - k + l * n : ℤ)) (j' := (k + l * m : ℤ)) hd' hd
      (by push_cast; exact e1)
    have hl0 : (s' : ℤ) = s + (n + m : ℕ) * l := by push_cast; linarith
    obtain ⟨f, g⟩ := divmod_unique hs hs' hl0
    subst g
    refine ⟨f.symm, c.symm, ?_⟩
    linarith
  refine ⟨A, d, _, _, hval, hct, ?_, ?_, ?_, ?_, hd, by positivity, hp2, hp1⟩
  · rw [hat, hA0]
    simp only [List.length_map]
    rw [chiralPoints_eq]
    simp [List.length_flatMap]
    ring
  · intro a ha
    rw [hat, hA0] at ha
    obtain ⟨r, -, rfl⟩ := List.mem_map.1 ha
    rfl
  · refine ⟨honey0 R, ca1 R, ca2 R, 0, honey0_honeycomb hR, hprim, ?_, ?_, ?_⟩
    · intro p
      have := honey0_shift (R := R) 1 0 p
      simpa using this
    · intro p
      have := honey0_shift (R := R) 0 1 p
      simpa using this
    · ext q
      unfold Atoms.allSites
      rw [hpos]
      simp only [Set.mem_setOf_eq, Set.mem_image, add_zero]
      constructor
      · rintro ⟨_, hp, k, hk⟩
        obtain ⟨r, hr, rfl⟩ := List.mem_map.1 hp
        obtain ⟨-, -, rfl⟩ := (hscrew r k q).1 hk
        obtain ⟨s, -, d, hd2, rfl⟩ := chiralPoints_mem.1 hr
        refine ⟨_, ?_, rfl⟩
        have e := hpt s d (k 2) 0
        push_cast at e
        simp only [zero_smul, add_zero, zero_mul] at e
        rw [e]
        refine honey0_mem.2 ⟨s - k 2, k 2, ?_⟩
        push_cast
        obtain rfl | rfl : d = 0 ∨ d = 1 := by omega
        · left; simp
        · right; simp
      · rintro ⟨p, hp, rfl⟩
        obtain ⟨i, j, hij⟩ := honey0_mem.1 hp
        obtain ⟨d, hd2, hpd⟩ : ∃ d < 2, p = (i : ℝ) • ca1 R + (j : ℝ) • ca2 R + ((d : ℕ) : ℝ) • cshift R := by
          rcases hij with rfl | rfl
          · exact ⟨0, by omega, by simp⟩
          · exact ⟨1, by omega, by simp⟩
        obtain ⟨s, hs, l, hl⟩ := divmod (i + j) h
        refine ⟨_, List.mem_map.2 ⟨_, chiralPoints_mem.2 ⟨s, hs, d, hd2, rfl⟩, rfl⟩, ![0, 0, j - l * m], (hscrew _ _ _).2 ⟨rfl, rfl, ?_⟩⟩
        apply ((rollUp_inj hCC _ _).2 ⟨l, _⟩).symm
        have e := hpt s d (j - l * m) l
        have hi : (s : ℤ) - (j - l * m) + l * n = i := by push_cast at hl; linarith
        rw [hi, show j - l * m + l * m = j by ring] at e
        rw [hpd, ← e]
        simp
  · constructor
    · rw [hpos]
      refine (chiralPoints_nodup n m hR).map_on ?_
      intro r hr r' hr' he
      obtain ⟨s, hs, d, hd2, rfl⟩ := chiralPoints_mem.1 hr
      obtain ⟨s', hs', d', hd2', rfl⟩ := chiralPoints_mem.1 hr'
      obtain ⟨rfl, rfl, -⟩ := huniq s hs s' hs' d hd2 d' hd2' 0 0 (by simpa using he)
      rfl
    · rw [hpos]
      intro p hp q hq k l r hk hl
      obtain ⟨p, hp', rfl⟩ := List.mem_map.1 hp
      obtain ⟨q, hq', rfl⟩ := List.mem_map.1 hq
      obtain ⟨k0, k1, rfl⟩ := (hscrew p k r).1 hk
      obtain ⟨l0, l1, he⟩ := (hscrew q l _).1 hl
      obtain ⟨s, hs, d, hd2, rfl⟩ := chiralPoints_mem.1 hp'
      obtain ⟨s', hs', d', hd2', rfl⟩ := chiralPoints_mem.1 hq'
      obtain ⟨rfl, rfl, hkl⟩ := huniq s hs s' hs' d hd2 d' hd2' (k 2) (l 2) he
      refine ⟨rfl, ?_⟩
      ext a
      fin_cases a
      · exact k0.trans l0.symm
      · exact k1.trans l1.symm
      · exact hkl

example : ∃ A d z t, chiralNanotube 6 3 1.42 "C" = .ok (A, d, z, t) ∧ A.atoms.length = 18 := by
  obtain ⟨A, d, z, t, h, -, hl, -⟩ := c115_chiral (n := 6) (m := 3) (by norm_num) (R := 1.42) (by norm_num) "C"
  exact ⟨A, d, z, t, h, hl⟩

/-- **C115.** Without a chiral vector there is no tube. -/
theorem c115_none (R : ℝ) (element : String) : chiralNanotube 0 0 R element = .error .zeroDivisionError := by
  have := c114_none R
  unfold chiralNanotube
  simp only [Nat.cast_zero] at this ⊢
  rw [this]

end Hotbit
