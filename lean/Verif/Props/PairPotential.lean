import Verif.Spec.PairPotential
import Verif.Props.Repulsion

/-!
# C32: pair potentials given by the user
-/

set_option linter.unusedSimpArgs false

namespace Hotbit

open Matrix

/-! ### Keys -/

/-- The number written in decimal. -/
def decVal (l : List Char) : ℕ := l.foldl (fun v c => 10 * v + (c.toNat - 48)) 0

theorem decDigit_val {d : ℕ} (h : d < 10) : (decDigit d).toNat - 48 = d := by
  interval_cases d <;> rfl

theorem decVal_append (l : List Char) (c : Char) : decVal (l ++ [c]) = 10 * decVal l + (c.toNat - 48) := by
  unfold decVal
  rw [List.foldl_append]
  rfl

theorem decVal_decStr (n : ℕ) : decVal (decStr n) = n := by
  induction n using Nat.strong_induction_on with
  | _ n ih =>
    rw [decStr]
    split
    · rename_i h
      simp [decVal, decDigit_val h]
    · rename_i h
      rw [decVal_append, ih (n / 10) (by omega), decDigit_val (Nat.mod_lt _ (by norm_num))]
      omega

theorem decStr_length {n k : ℕ} (h : n < 10 ^ (k + 1)) : (decStr n).length ≤ k + 1 := by
  induction k generalizing n with
  | zero =>
    rw [decStr, if_pos (by omega)]
    simp
  | succ k ih =>
    rw [decStr]
    split
    · simp
    · rw [List.length_append]
      have : n / 10 < 10 ^ (k + 1) := by
        rw [Nat.div_lt_iff_lt_mul (by norm_num), ← pow_succ]; exact h
      have := ih this
      simp only [List.length_singleton]
      omega

theorem pad4_length {n : ℕ} (h : n < 10000) : (pad4 n).length = 4 := by
  unfold pad4
  have := decStr_length (n := n) (k := 3) (by omega)
  rw [List.length_append, List.length_replicate]
  omega

theorem decVal_pad4 (n : ℕ) : decVal (pad4 n) = n := by
  unfold pad4 decVal
  rw [List.foldl_append]
  have : ∀ k, (List.replicate k '0').foldl (fun v c => 10 * v + (c.toNat - 48)) 0 = 0 := by
    intro k
    induction k with
    | zero => rfl
    | succ k ih => rw [List.replicate_succ, List.foldl_cons]; exact ih
  rw [this]
  exact decVal_decStr n

/-- Below 10000 different pairs of atoms have different keys. -/
theorem ij2s_inj {i j k l : ℕ} (hi : i < 10000) (hk : k < 10000)
    (h : ij2s i j = ij2s k l) : i = k ∧ j = l := by
  unfold ij2s at h
  obtain ⟨h1, h2⟩ := List.append_inj h (by rw [pad4_length hi, pad4_length hk])
  exact ⟨by rw [← decVal_pad4 i, h1, decVal_pad4], by rw [← decVal_pad4 j, h2, decVal_pad4]⟩

theorem sym_inj {a b c d : String} (ha : ValidSym a) (hb : ValidSym b) (hc : ValidSym c) (hd : ValidSym d)
    (h : a.toList ++ b.toList = c.toList ++ d.toList) : a = c ∧ b = d := by
  obtain ⟨a0, al, ha', -, hau⟩ := ha
  obtain ⟨b0, bl, hb', hb0, -⟩ := hb
  obtain ⟨c0, cl, hc', -, hcu⟩ := hc
  obtain ⟨d0, dl, hd', hd0, -⟩ := hd
  have key : ∀ (x y u v : List Char) (p q : Char), (∀ z ∈ x, z.isUpper = false) →
      (∀ z ∈ y, z.isUpper = false) → p.isUpper = true → q.isUpper = true →
      x ++ p :: u = y ++ q :: v → x = y ∧ p :: u = q :: v := by
    intro x
    induction x with
    | nil =>
      intro y u v p q _ hy hp hq h
      cases y with
      | nil => exact ⟨rfl, h⟩
      | cons z y =>
        simp only [List.nil_append, List.cons_append, List.cons.injEq] at h
        have := hy z (by simp)
        rw [← h.1, hp] at this
        cases this
    | cons w x ih =>
      intro y u v p q hx hy hp hq h
      cases y with
      | nil =>
        simp only [List.nil_append, List.cons_append, List.cons.injEq] at h
        have := hx w (by simp)
        rw [h.1, hq] at this
        cases this
      | cons z y =>
        simp only [List.cons_append, List.cons.injEq] at h
        have := ih y u v p q (fun z hz => hx z (by simp [hz])) (fun z hz => hy z (by simp [hz])) hp hq h.2
        exact ⟨by rw [h.1, this.1], this.2⟩
  rw [ha', hb', hc', hd'] at h
  simp only [List.cons_append, List.cons.injEq] at h
  obtain ⟨h1, h2⟩ := key al cl bl dl b0 d0 hau hcu hb0 hd0 h.2
  exact ⟨String.toList_inj.mp (by rw [ha', hc', h.1, h1]), String.toList_inj.mp (by rw [hb', hd', h2])⟩

/-! ### Histories -/

theorem find_append_one (adds : List PPAdd) (a : PPAdd) (f : PPAdd → Bool) :
    (adds ++ [a]).reverse.find? f = if f a = true then some a else adds.reverse.find? f := by
  rw [List.reverse_append]
  show List.find? f (a :: adds.reverse) = _
  rw [List.find?_cons]
  cases f a <;> rfl

theorem atomv_run (bohr hartree : ℝ) (adds : List PPAdd) (hv : ∀ a ∈ adds, a.Valid) {i j : ℕ}
    (hi : i < 10000) :
    (ppRun bohr hartree adds).atomv (ij2s i j) = (adds.reverse.find? (PPAdd.forAtoms i j)).map
      fun a => (convertPot bohr hartree a.eVA a.p).v := by
  induction adds using List.reverseRecOn with
  | nil => rfl
  | append_singleton adds a ih =>
    have ih := ih fun x hx => hv x (by simp [hx])
    have hva := hv a (by simp)
    rw [find_append_one]
    unfold ppRun at ih ⊢
    rw [List.foldl_append]
    show (addPair bohr hartree _ a.key a.p a.eVA).atomv _ = _
    obtain ⟨key, p, eVA⟩ := a
    cases key with
    | elements x y =>
      rw [if_neg (by simp [PPAdd.forAtoms, PPAdd.forElements])]
      exact ih
    | atoms k l =>
      have hkl : k < 10000 ∧ l < 10000 := hva
      show setKey (setKey _ (ij2s k l) _) (ij2s l k) _ (ij2s i j) = _
      simp only [setKey]
      by_cases h1 : i = l ∧ j = k
      · rw [if_pos (by rw [h1.1, h1.2]), if_pos (by simp [PPAdd.forAtoms, h1.1, h1.2])]
        rfl
      rw [if_neg fun h => h1 (ij2s_inj hi hkl.2 h)]
      by_cases h2 : i = k ∧ j = l
      · rw [if_pos (by rw [h2.1, h2.2]), if_pos (by simp [PPAdd.forAtoms, h2.1, h2.2])]
        rfl
      rw [if_neg fun h => h2 (ij2s_inj hi hkl.1 h), ih, if_neg]
      intro h
      simp only [PPAdd.forAtoms, Bool.or_eq_true, Bool.and_eq_true, beq_iff_eq] at h
      rcases h with h | h
      · exact h2 ⟨h.1.symm, h.2.symm⟩
      · exact h1 ⟨h.2.symm, h.1.symm⟩

theorem elemv_run (bohr hartree : ℝ) (adds : List PPAdd) (hv : ∀ a ∈ adds, a.Valid) {x y : String}
    (hx : ValidSym x) (hy : ValidSym y) :
    (ppRun bohr hartree adds).elemv (x.toList ++ y.toList)
      = (adds.reverse.find? (PPAdd.forElements x y)).map
        fun a => (convertPot bohr hartree a.eVA a.p).v := by
  induction adds using List.reverseRecOn with
  | nil => rfl
  | append_singleton adds a ih =>
    have ih := ih fun x hx => hv x (by simp [hx])
    have hva := hv a (by simp)
    rw [find_append_one]
    unfold ppRun at ih ⊢
    rw [List.foldl_append]
    show (addPair bohr hartree _ a.key a.p a.eVA).elemv _ = _
    obtain ⟨key, p, eVA⟩ := a
    cases key with
    | atoms k l =>
      rw [if_neg (by simp [PPAdd.forAtoms, PPAdd.forElements])]
      exact ih
    | elements k l =>
      have hkl : ValidSym k ∧ ValidSym l := hva
      show setKey (setKey _ (k.toList ++ l.toList) _) (l.toList ++ k.toList) _ (x.toList ++ y.toList) = _
      simp only [setKey]
      by_cases h1 : x = l ∧ y = k
      · rw [if_pos (by rw [h1.1, h1.2]), if_pos (by simp [PPAdd.forElements, h1.1, h1.2])]
        rfl
      rw [if_neg fun h => h1 (sym_inj hx hy hkl.2 hkl.1 h)]
      by_cases h2 : x = k ∧ y = l
      · rw [if_pos (by rw [h2.1, h2.2]), if_pos (by simp [PPAdd.forElements, h2.1, h2.2])]
        rfl
      rw [if_neg fun h => h2 (sym_inj hx hy hkl.1 hkl.2 h), ih, if_neg]
      intro h
      simp only [PPAdd.forElements, Bool.or_eq_true, Bool.and_eq_true, beq_iff_eq] at h
      rcases h with h | h
      · exact h2 ⟨h.1.symm, h.2.symm⟩
      · exact h1 ⟨h.2.symm, h.1.symm⟩

/-- **C32 (which pairs are affected).** After any history of calls, for fewer than 10000 atoms, the
potential between two atoms is the sum of the last one given for these atoms (in either order) and the
last one given for their elements (in either order).  Calls for other atoms or elements have no effect
on it. -/
theorem c32_history (bohr hartree : ℝ) (adds : List PPAdd) (hv : ∀ a ∈ adds, a.Valid) (sym : ℕ → String)
    {i j : ℕ} (hi : i < 10000) (hj : j < 10000) (hsi : ValidSym (sym i)) (hsj : ValidSym (sym j))
    (der : ℕ) (r : ℝ) :
    fullV (ppRun bohr hartree adds) sym i j der r
      = lastPot bohr hartree adds (PPAdd.forAtoms i j) der r
        + lastPot bohr hartree adds (PPAdd.forElements (sym i) (sym j)) der r := by
  unfold fullV lastPot
  rw [atomv_run bohr hartree adds hv hi, elemv_run bohr hartree adds hv hsi hsj]
  cases adds.reverse.find? (PPAdd.forAtoms i j) <;>
    cases adds.reverse.find? (PPAdd.forElements (sym i) (sym j)) <;> simp

/-- The range is the largest one given, and potentials exist when some call was made. -/
theorem c32_range (bohr hartree : ℝ) (adds : List PPAdd) :
    (∀ a ∈ adds, (convertPot bohr hartree a.eVA a.p).range ≤ (ppRun bohr hartree adds).rcut) ∧
    (adds = [] → (ppRun bohr hartree adds).ex = false) ∧ (adds ≠ [] → (ppRun bohr hartree adds).ex = true) ∧
    ((ppRun bohr hartree adds).rcut = 0 ∨
      ∃ a ∈ adds, (ppRun bohr hartree adds).rcut = (convertPot bohr hartree a.eVA a.p).range) := by
  induction adds using List.reverseRecOn with
  | nil => exact ⟨by simp, fun _ => rfl, fun h => absurd rfl h, Or.inl rfl⟩
  | append_singleton adds a ih =>
    have hr : (ppRun bohr hartree (adds ++ [a])).rcut
        = max (ppRun bohr hartree adds).rcut (convertPot bohr hartree a.eVA a.p).range := by
      unfold ppRun
      rw [List.foldl_append]
      show (addPair bohr hartree _ a.key a.p a.eVA).rcut = _
      cases h : a.key <;> rfl
    have he : (ppRun bohr hartree (adds ++ [a])).ex = true := by
      unfold ppRun
      rw [List.foldl_append]
      show (addPair bohr hartree _ a.key a.p a.eVA).ex = _
      cases h : a.key <;> rfl
    rw [hr]
    refine ⟨fun x hx => ?_, by simp, fun _ => he, ?_⟩
    · rcases List.mem_append.mp hx with hx | hx
      · exact (ih.1 x hx).trans (le_max_left _ _)
      · rw [List.mem_singleton.mp hx]; exact le_max_right _ _
    · rcases max_cases (ppRun bohr hartree adds).rcut (convertPot bohr hartree a.eVA a.p).range with h | h
      · rw [h.1]
        exact ih.2.2.2.imp id fun ⟨x, hx, h⟩ => ⟨x, by simp [hx], h⟩
      · exact Or.inr ⟨a, by simp, h.1⟩

theorem forAtoms_comm (i j : ℕ) : PPAdd.forAtoms i j = PPAdd.forAtoms j i := by
  funext a
  unfold PPAdd.forAtoms
  split
  · exact Bool.or_comm _ _
  · rfl

theorem forElements_comm (i j : String) : PPAdd.forElements i j = PPAdd.forElements j i := by
  funext a
  unfold PPAdd.forElements
  split
  · rfl
  · exact Bool.or_comm _ _

/-- The atoms of the system can be named in keys. -/
def NamedAtoms (G : Geom) : Prop := G.N ≤ 10000 ∧ ∀ i < G.N, ValidSym (G.sym i)

/-- **C32 (order of the pair).** The potential between `i` and `j` is the one between `j` and `i`. -/
theorem c32_symmetric (bohr hartree : ℝ) (adds : List PPAdd) (hv : ∀ a ∈ adds, a.Valid) {G : Geom}
    (hG : NamedAtoms G) {i j : ℕ} (hi : i < G.N) (hj : j < G.N) :
    fullV (ppRun bohr hartree adds) G.sym i j = fullV (ppRun bohr hartree adds) G.sym j i := by
  funext der r
  rw [c32_history bohr hartree adds hv G.sym (hi.trans_le hG.1) (hj.trans_le hG.1) (hG.2 i hi) (hG.2 j hj),
    c32_history bohr hartree adds hv G.sym (hj.trans_le hG.1) (hi.trans_le hG.1) (hG.2 j hj) (hG.2 i hi),
    forAtoms_comm, forElements_comm]

/-- **C32 (a call for atoms `i`, `j`).** It replaces the potential given earlier for these two atoms and
leaves the potential of every other pair as it was. -/
theorem c32_atoms (bohr hartree : ℝ) (adds : List PPAdd) (hv : ∀ a ∈ adds, a.Valid) (sym : ℕ → String)
    {i j k l : ℕ} (hi : i < 10000) (hj : j < 10000) (hk : k < 10000) (hl : l < 10000)
    (hsk : ValidSym (sym k)) (hsl : ValidSym (sym l)) (p : UserPot) (eVA : Bool) :
    (¬ ((k = i ∧ l = j) ∨ (k = j ∧ l = i)) →
      fullV (ppRun bohr hartree (adds ++ [⟨.atoms i j, p, eVA⟩])) sym k l
        = fullV (ppRun bohr hartree adds) sym k l) ∧
    (((k = i ∧ l = j) ∨ (k = j ∧ l = i)) → ∀ der r,
      fullV (ppRun bohr hartree (adds ++ [⟨.atoms i j, p, eVA⟩])) sym k l der r
        = (convertPot bohr hartree eVA p).v der r
          + lastPot bohr hartree adds (PPAdd.forElements (sym k) (sym l)) der r) := by
  have hv' : ∀ a ∈ adds ++ [⟨.atoms i j, p, eVA⟩], a.Valid := by
    intro a ha
    rcases List.mem_append.mp ha with ha | ha
    · exact hv a ha
    · rw [List.mem_singleton.mp ha]; exact ⟨hi, hj⟩
  have hE : ∀ der r, lastPot bohr hartree (adds ++ [⟨.atoms i j, p, eVA⟩])
      (PPAdd.forElements (sym k) (sym l)) der r
      = lastPot bohr hartree adds (PPAdd.forElements (sym k) (sym l)) der r := by
    intro der r
    unfold lastPot
    rw [find_append_one, if_neg (by simp [PPAdd.forElements])]
  constructor
  · intro h
    funext der r
    rw [c32_history bohr hartree _ hv' sym hk hl hsk hsl, c32_history bohr hartree _ hv sym hk hl hsk hsl, hE]
    congr 1
    unfold lastPot
    rw [find_append_one, if_neg]
    simp only [PPAdd.forAtoms, Bool.or_eq_true, Bool.and_eq_true, beq_iff_eq]
    intro h'
    exact h (h'.imp (fun h => ⟨h.1.symm, h.2.symm⟩) (fun h => ⟨h.2.symm, h.1.symm⟩))
  · intro h der r
    rw [c32_history bohr hartree _ hv' sym hk hl hsk hsl, hE]
    congr 1
    unfold lastPot
    rw [find_append_one, if_pos]
    simp only [PPAdd.forAtoms, Bool.or_eq_true, Bool.and_eq_true, beq_iff_eq]
    exact h.imp (fun h => ⟨h.1.symm, h.2.symm⟩) (fun h => ⟨h.2.symm, h.1.symm⟩)

/-! ### Energies and forces -/

variable {G : Geom} {σ : Op → Op}

open Classical in
/-- The potential between two atoms, cut at the common range. -/
noncomputable def ppCut (st : PPState) (sym : ℕ → String) (i j : ℕ) (d : ℝ) : ℝ :=
  if d ≤ st.rcut then fullV st sym i j 0 d else 0

theorem ppStep_term (st : PPState) (i j : ℕ) (e : ℝ) (im : Op × ℕ) : open Classical in
    ppStep G st i j e im = e + if i = j then (if i = j ∧ im.2 = 0 then 0 else
        1 / 2 * ppCut st G.sym i j (norm3 (G.rij im.1 i j)))
      else ppCut st G.sym i j (norm3 (G.rij im.1 i j)) := by
  classical
  unfold ppStep ppCut
  by_cases h1 : i = j ∧ im.2 = 0
  · simp [h1.1, h1.2]
  rw [if_neg h1]
  dsimp only
  by_cases h2 : norm3 (G.rij im.1 i j) > st.rcut
  · rw [if_pos h2, if_neg (not_le.mpr h2)]
    simp
  · rw [if_neg h2, if_pos (not_lt.mp h2)]
    by_cases h4 : i = j
    · rw [if_pos h4, if_pos h4, if_neg h1]; norm_num
    · rw [if_neg h4, if_neg h4]

/-- **C32 (energy).** After any history, the energy counts each pair once: it is the energy per cell of
the potentials of `c32_history`, cut at the common range. -/
theorem c32_energy (h : G.Inverse σ) (hG : NamedAtoms G) (bohr hartree : ℝ) (adds : List PPAdd)
    (hv : ∀ a ∈ adds, a.Valid) :
    ppEnergy G (ppRun bohr hartree adds) hartree
      = cellEnergy G (ppCut (ppRun bohr hartree adds) G.sym) * hartree := by
  classical
  unfold ppEnergy
  obtain ⟨-, h1, h2, -⟩ := c32_range bohr hartree adds
  by_cases hn : adds = []
  · have hex := h1 hn
    rw [if_pos (by rw [hex]; rfl)]
    have : cellEnergy G (ppCut (ppRun bohr hartree adds) G.sym) = 0 := by
      unfold cellEnergy
      rw [Finset.sum_eq_zero, mul_zero]
      intro i _
      refine Finset.sum_eq_zero fun j _ => List.sum_eq_zero ?_
      intro x hx
      obtain ⟨n, -, rfl⟩ := List.mem_map.mp hx
      split
      · rfl
      · unfold ppCut
        split
        · subst hn; rfl
        · rfl
    rw [this, zero_mul]
  · rw [if_neg (by rw [h2 hn]; simp)]
    congr 1
    rw [foldl_add _ fun i => ((List.range' i (G.N - i)).map fun j =>
        (G.ntuples.zipIdx.map fun im => if i = j then (if i = j ∧ im.2 = 0 then 0 else
          1 / 2 * ppCut (ppRun bohr hartree adds) G.sym i j (norm3 (G.rij im.1 i j)))
          else ppCut (ppRun bohr hartree adds) G.sym i j (norm3 (G.rij im.1 i j))).sum).sum]
    · rw [zero_add]
      refine triangle_cell h fun i hi j hj => ?_
      funext d
      unfold ppCut
      rw [c32_symmetric bohr hartree adds hv hG hi hj]
    · intro e i _
      refine foldl_add _ _ _ (fun e j _ => ?_) _
      exact foldl_add _ _ _ (fun e im _ => ppStep_term _ i j e im) _

theorem ppPairEnergy_eq (st : PPState) (i j : ℕ) : open Classical in ppPairEnergy G st i j
    = (G.ntuples.zipIdx.map fun im => if i = j then (if i = j ∧ im.2 = 0 then 0 else
        1 / 2 * ppCut st G.sym i j (norm3 (G.rij im.1 i j)))
      else ppCut st G.sym i j (norm3 (G.rij im.1 i j))).sum := by
  classical
  unfold ppPairEnergy
  rw [foldl_add _ _ _ (fun e im _ => ppStep_term st i j e im), zero_add]

/-- **C32 (pair energies).** After any history, the pair energies are symmetric and add up, over pairs
`i ≤ j`, to the total energy. -/
theorem c32_pair_energies (h : G.Inverse σ) (hG : NamedAtoms G) (bohr hartree : ℝ) (adds : List PPAdd)
    (hv : ∀ a ∈ adds, a.Valid) :
    (∀ i < G.N, ∀ j < G.N, ppPairEnergy G (ppRun bohr hartree adds) i j = ppPairEnergy G (ppRun bohr hartree adds) j i) ∧
    ppEnergy G (ppRun bohr hartree adds) hartree =
      (∑ i ∈ Finset.range G.N, ∑ j ∈ Finset.Ico i G.N, ppPairEnergy G (ppRun bohr hartree adds) i j) * hartree := by
  classical
  have hW : ∀ i < G.N, ∀ j < G.N, ppCut (ppRun bohr hartree adds) G.sym i j
      = ppCut (ppRun bohr hartree adds) G.sym j i := by
    intro i hi j hj
    funext d
    unfold ppCut
    rw [c32_symmetric bohr hartree adds hv hG hi hj]
  constructor
  · intro i hi j hj
    rw [ppPairEnergy_eq, ppPairEnergy_eq, pair_zipIdx h.idFirst, pair_zipIdx h.idFirst,
      image_sum_swap h hi hj fun d => by rw [hW i hi j hj]]
    simp only [eq_comm (a := j) (b := i)]
  · rw [c32_energy h hG bohr hartree adds hv, ← triangle_cell h hW, list_range_sum]
    simp only [range'_sum, ppPairEnergy_eq]

/-- No distance equals the common range and at those below it the given derivative is the derivative. -/
def SmoothPP (G : Geom) (st : PPState) : Prop :=
  ∀ i < G.N, ∀ j < G.N, ∀ n ∈ G.ntuples, ¬ (i = j ∧ n = 0) →
    G.rij n i j ≠ 0 ∧ norm3 (G.rij n i j) ≠ st.rcut ∧ (norm3 (G.rij n i j) < st.rcut →
      HasDerivAt (fullV st G.sym i j 0) (fullV st G.sym i j 1 (norm3 (G.rij n i j))) (norm3 (G.rij n i j)))

/-- **C32 (forces).** The forces are minus the derivatives of the energy, after any history. -/
theorem c32_gradient (h : G.Inverse σ) (hG : NamedAtoms G) (bohr hartree : ℝ) (adds : List PPAdd)
    (hv : ∀ a ∈ adds, a.Valid) (hs : SmoothPP G (ppRun bohr hartree adds)) {a : ℕ} (ha : a < G.N) (v : Vec) :
    HasDerivAt (fun t : ℝ => ppEnergy (G.displace a (t • v)) (ppRun bohr hartree adds) hartree)
      (-(ppForces G (ppRun bohr hartree adds) a ⬝ᵥ v) * hartree) 0 := by
  classical
  have hW : ∀ i < G.N, ∀ j < G.N, ppCut (ppRun bohr hartree adds) G.sym i j
      = ppCut (ppRun bohr hartree adds) G.sym j i := by
    intro i hi j hj
    funext d
    unfold ppCut
    rw [c32_symmetric bohr hartree adds hv hG hi hj]
  have hf : ppForces G (ppRun bohr hartree adds) a = centralForce G (fun i j d =>
      if d < (ppRun bohr hartree adds).rcut then fullV (ppRun bohr hartree adds) G.sym i j 1 d else 0) a :=
    forces_eq h.idFirst (fun i j => fullV (ppRun bohr hartree adds) G.sym i j) a
  have hsm : SmoothAt G (ppCut (ppRun bohr hartree adds) G.sym) (fun i j d =>
      if d < (ppRun bohr hartree adds).rcut then fullV (ppRun bohr hartree adds) G.sym i j 1 d else 0) := by
    intro i hi j hj n hn hc
    obtain ⟨h1, h2, h3⟩ := hs i hi j hj n hn hc
    exact ⟨h1, cut_hasDerivAt h2 h3⟩
  rw [hf]
  have hg := (cellEnergy_gradient h hW hsm ha v).mul_const hartree
  refine hg.congr_of_eventuallyEq (Filter.Eventually.of_forall fun t => ?_)
  exact c32_energy (displace_inverse h a (t • v)) hG bohr hartree adds hv

/-- **C32 (units, `Ha,Bohr`).** Potentials given in atomic units are used as they are. -/
theorem c32_atomic_units (bohr hartree : ℝ) (p : UserPot) : convertPot bohr hartree false p = p := rfl

/-! ### Violations -/

/-- **C32 (more than 10000 atoms, violated).** A potential for atoms `1000` and `10000` also acts between
atoms `10001` and `0`: both have the key `100010000`. -/
theorem c32_collision_fails : ∃ (p : UserPot) (sym : ℕ → String),
    fullV (ppRun 1 1 [⟨.atoms 1000 10000, p, false⟩]) sym 10001 0 0 1 ≠ 0 := by
  refine ⟨⟨fun _ _ => 1, 3⟩, fun _ => "H", ?_⟩
  have h : ij2s 10001 0 = ij2s 1000 10000 := by
    simp [ij2s, pad4, decStr, decDigit]
  have : (ppRun 1 1 [⟨.atoms 1000 10000, ⟨fun _ _ => 1, 3⟩, false⟩]).atomv (ij2s 10001 0)
      = some fun _ _ => 1 := by
    show setKey (setKey _ (ij2s 1000 10000) _) (ij2s 10000 1000) _ (ij2s 10001 0) = _
    simp only [setKey]
    by_cases h' : ij2s 10001 0 = ij2s 10000 1000
    · rw [if_pos h']; rfl
    · rw [if_neg h', if_pos h]; rfl
  unfold fullV
  rw [this]
  show (1 : ℝ) ≠ 0
  norm_num

/-- **C32 (units, violated).** With units eV and Å the value used at `r` Bohr is the given one at
`r/Bohr` Å, not at `r·Bohr` Å. -/
theorem c32_units_fails (bohr hartree : ℝ) (hb : 0 < bohr) (hb1 : bohr ≠ 1) (hh : 0 < hartree) :
    ∃ (p : UserPot) (r : ℝ), 0 < r ∧ (convertPot bohr hartree true p).v 0 r
      ≠ toAtomicUnits bohr hartree (p.v 0) r := by
  refine ⟨⟨fun _ r => r, 3⟩, 1, one_pos, ?_⟩
  show 1 / bohr / hartree ≠ 1 * bohr / hartree
  intro h
  have h1 : 1 / bohr = 1 * bohr := by
    rwa [div_left_inj' hh.ne'] at h
  rw [one_mul, div_eq_iff hb.ne'] at h1
  have : (bohr - 1) * (bohr + 1) = 0 := by linarith
  rcases mul_eq_zero.mp this with h | h
  · exact hb1 (by linarith)
  · linarith

/-- **C32 (force of a potential in eV and Å, violated).** The derivative used in the forces is not the
derivative of the energy: energy and forces are inconsistent. -/
theorem c32_derivative_fails (bohr hartree : ℝ) (hb : 0 < bohr) (hb1 : bohr ≠ 1) (hh : 0 < hartree) :
    ∃ p : UserPot, (∀ r, HasDerivAt (p.v 0) (p.v 1 r) r) ∧ ∀ r,
      ¬ HasDerivAt ((convertPot bohr hartree true p).v 0) ((convertPot bohr hartree true p).v 1 r) r := by
  refine ⟨⟨fun der r => if der = 0 then r else 1, 3⟩, fun r => hasDerivAt_id r, fun r h => ?_⟩
  have h1 : HasDerivAt (fun r : ℝ => r / bohr / hartree) (1 * bohr / hartree) r := h
  have h2 := ((hasDerivAt_id r).div_const bohr).div_const hartree
  have h3 := h1.unique h2
  rw [div_left_inj' hh.ne', one_mul, eq_div_iff hb.ne'] at h3
  have : (bohr - 1) * (bohr + 1) = 0 := by linarith
  rcases mul_eq_zero.mp this with h | h
  · exact hb1 (by linarith)
  · linarith

/-- **C32 (common range, violated).** All potentials share the largest range: adding a potential for
atoms `0` and `2` changes the energy between atoms `0` and `1`, whose own range is `1`. -/
theorem c32_shared_range_fails : ∃ (a b : PPAdd) (i j : ℕ) (d : ℝ), a.Valid ∧ b.Valid ∧
    b.forAtoms i j = false ∧ ppCut (ppRun 1 1 [a]) (fun _ => "H") i j d = 0 ∧
    ppCut (ppRun 1 1 [a, b]) (fun _ => "H") i j d = 1 := by
  have hH : ValidSym "H" := ⟨'H', [], rfl, rfl, by simp⟩
  let a : PPAdd := ⟨.atoms 0 1, ⟨fun _ _ => 1, 1⟩, false⟩
  let b : PPAdd := ⟨.atoms 0 2, ⟨fun _ _ => 1, 5⟩, false⟩
  have ha : a.Valid := by show 0 < 10000 ∧ 1 < 10000; omega
  have hb : b.Valid := by show 0 < 10000 ∧ 2 < 10000; omega
  refine ⟨a, b, 0, 1, 2, ha, hb, rfl, ?_, ?_⟩
  · unfold ppCut
    rw [if_neg]
    show ¬ (2 : ℝ) ≤ max 0 1
    norm_num
  · unfold ppCut
    rw [if_pos, c32_history 1 1 [a, b] (by simp [ha, hb]) _ (by omega) (by omega) hH hH]
    · unfold lastPot
      have h1 : [a, b].reverse.find? (PPAdd.forAtoms 0 1) = some a := rfl
      have h2 : [a, b].reverse.find? (PPAdd.forElements "H" "H") = none := rfl
      rw [h1]
      simp only [h2]
      show (1 : ℝ) + 0 = 1
      norm_num
    · show (2 : ℝ) ≤ max (max 0 1) 5
      norm_num

/-- **C32 (potentials that vanish beyond their range).** If every given potential vanishes beyond its
own range, the common range changes nothing. -/
theorem c32_shared_range (bohr hartree : ℝ) (adds : List PPAdd) (hv : ∀ a ∈ adds, a.Valid)
    (hz : ∀ a ∈ adds, ∀ d > (convertPot bohr hartree a.eVA a.p).range, (convertPot bohr hartree a.eVA a.p).v 0 d = 0)
    {G : Geom} (hG : NamedAtoms G) {i j : ℕ} (hi : i < G.N) (hj : j < G.N) (d : ℝ) :
    ppCut (ppRun bohr hartree adds) G.sym i j d = lastPot bohr hartree adds (PPAdd.forAtoms i j) 0 d
        + lastPot bohr hartree adds (PPAdd.forElements (G.sym i) (G.sym j)) 0 d := by
  unfold ppCut
  split
  · exact c32_history bohr hartree adds hv G.sym (hi.trans_le hG.1) (hj.trans_le hG.1) (hG.2 i hi) (hG.2 j hj) 0 d
  · rename_i h
    have h0 : ∀ f, lastPot bohr hartree adds f 0 d = 0 := by
      intro f
      unfold lastPot
      cases hf : adds.reverse.find? f with
      | none => rfl
      | some a =>
        have ha : a ∈ adds := List.mem_reverse.mp (List.mem_of_find?_eq_some hf)
        exact hz a ha d (lt_of_le_of_lt ((c32_range bohr hartree adds).1 a ha) (not_le.mp h))
    rw [h0, h0, add_zero]

/-- Two atoms one Bohr apart with the potential `(2-r)²` given for the pair in atomic units and another
one for their elements: the hypotheses hold, and the energy is the sum. -/
example : ∃ (G : Geom) (adds : List PPAdd), G.Inverse id ∧ NamedAtoms G ∧ (∀ a ∈ adds, a.Valid) ∧
    adds.length = 2 ∧ fullV (ppRun 0.5 27 adds) G.sym 0 1 0 1 = 5 := by
  have hH : ValidSym "H" := ⟨'H', [], rfl, rfl, by simp⟩
  have hC : ValidSym "Cl" := ⟨'C', ['l'], rfl, rfl, by simp⟩
  let G : Geom := { N := 2, sym := fun i => if i = 0 then "H" else "Cl", ntuples := [0],
                    rot := fun _ => 1, pos := fun _ j => ![(j : ℝ), 0, 0] }
  let a : PPAdd := ⟨.atoms 1 0, ⟨fun _ r => (2 - r) ^ 2, 2⟩, false⟩
  let b : PPAdd := ⟨.elements "Cl" "H", ⟨fun _ _ => 4, 2⟩, false⟩
  have ha : a.Valid := by show 1 < 10000 ∧ 0 < 10000; omega
  have hb : b.Valid := ⟨hC, hH⟩
  refine ⟨G, [a, b], ?_, ⟨by show 2 ≤ 10000; omega, fun i hi => ?_⟩, by simp [ha, hb], rfl, ?_⟩
  · exact { idFirst := ⟨[], rfl, by simp⟩, nodup := by simp [G], mem := fun n h => h,
            invol := fun _ _ => rfl, zero := rfl, orth := fun _ _ => by simp [G],
            rot := fun _ _ => by simp [G], rot_zero := rfl,
            pos := fun n hn i _ j _ => by simp [G, Geom.rij] }
  · show ValidSym (if i = 0 then "H" else "Cl")
    split
    · exact hH
    · exact hC
  · rw [c32_history 0.5 27 [a, b] (by simp [ha, hb]) _ (by omega) (by omega) hH hC]
    unfold lastPot
    have h1 : [a, b].reverse.find? (PPAdd.forAtoms 0 1) = some a := rfl
    have h2 : [a, b].reverse.find? (PPAdd.forElements (G.sym 0) (G.sym 1)) = some b := rfl
    rw [h1]
    simp only [h2]
    show ((2 : ℝ) - 1) ^ 2 + 4 = 5
    norm_num

end Hotbit
