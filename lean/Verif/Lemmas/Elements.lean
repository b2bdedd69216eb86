import Verif.Model.Elements
import Verif.Lemmas.Atoms
import Mathlib.Algebra.BigOperators.Group.List.Basic

/-! Helper lemmas about orbital tables. -/

namespace Hotbit

theorem atomOrbs_spec (i : ℕ) (s : String) : ∀ (l : List (String × ℝ)) (norb k : ℕ) out,
    atomOrbs i s norb k l = .ok out → out.length = l.length ∧
      ∀ j r, out[j]? = some r → r.atom = i ∧ r.symbol = s ∧ r.index = norb + j ∧
        r.atomindex = k + j ∧ angmomOf r.orbital = .ok r.angmom ∧
        l[j]? = some (r.orbital, r.energy) := by
  intro l
  induction l with
  | nil =>
    intro norb k out h
    simp only [atomOrbs, Except.ok.injEq] at h
    subst h
    simp
  | cons a l ih =>
    intro norb k out h
    obtain ⟨ao, e⟩ := a
    simp only [atomOrbs, bind, Except.bind] at h
    cases hl : angmomOf ao with
    | error x => simp [hl] at h
    | ok am =>
      simp only [hl] at h
      cases ht : atomOrbs i s (norb + 1) (k + 1) l with
      | error x => simp [ht] at h
      | ok tl =>
        simp only [ht, Except.ok.injEq] at h
        subst h
        obtain ⟨h1, h2⟩ := ih _ _ _ ht
        refine ⟨by simp [h1], ?_⟩
        intro j r hr
        cases j with
        | zero =>
          simp only [List.getElem?_cons_zero, Option.some.injEq] at hr
          subst hr
          exact ⟨rfl, rfl, rfl, rfl, hl, rfl⟩
        | succ j =>
          simp only [List.getElem?_cons_succ] at hr
          obtain ⟨a, b, c, d, e', f⟩ := h2 j r hr
          exact ⟨a, b, by omega, by omega, e', by simpa using f⟩

/-- Start of block `a` when the blocks have the given sizes. -/
def blockStart (ns : List ℕ) (a : ℕ) : ℕ := (ns.take a).sum

theorem blockStart_succ (ns : List ℕ) (a n : ℕ) (h : ns[a]? = some n) :
    blockStart ns (a + 1) = blockStart ns a + n := by
  obtain ⟨ha, hn⟩ := List.getElem?_eq_some_iff.1 h
  unfold blockStart
  rw [List.take_add_one, h]
  simp

theorem blockStart_mono (ns : List ℕ) {a b : ℕ} (h : a ≤ b) : blockStart ns a ≤ blockStart ns b := by
  unfold blockStart
  induction h with
  | refl => exact le_rfl
  | step _ ih => 
    refine ih.trans ?_
    rw [List.take_add_one, List.sum_append]
    omega

theorem block_exists : ∀ (ns : List ℕ) (i : ℕ), i < ns.sum →
    ∃ a n, ns[a]? = some n ∧ blockStart ns a ≤ i ∧ i < blockStart ns a + n := by
  intro ns
  induction ns with
  | nil => intro i h; simp at h
  | cons m ns ih =>
    intro i h
    by_cases hi : i < m
    · exact ⟨0, m, by simp, by simp [blockStart], by simpa [blockStart] using hi⟩
    · obtain ⟨a, n, h1, h2, h3⟩ := ih (i - m) (by simp at h; omega)
      refine ⟨a + 1, n, by simpa using h1, ?_, ?_⟩
      · simp only [blockStart, List.take_succ_cons, List.sum_cons] at *; omega
      · simp only [blockStart, List.take_succ_cons, List.sum_cons] at *; omega

theorem block_unique (ns : List ℕ) (i a b n m : ℕ) (ha : ns[a]? = some n) (hb : ns[b]? = some m)
    (ha1 : blockStart ns a ≤ i) (ha2 : i < blockStart ns a + n)
    (hb1 : blockStart ns b ≤ i) (hb2 : i < blockStart ns b + m) : a = b := by
  rw [← blockStart_succ ns a n ha] at ha2
  rw [← blockStart_succ ns b m hb] at hb2
  by_contra hne
  rcases Nat.lt_or_gt_of_ne hne with h | h
  · have := blockStart_mono ns (show a + 1 ≤ b by omega); omega
  · have := blockStart_mono ns (show b + 1 ≤ a by omega); omega

theorem flatten_block {α : Type} : ∀ (L : List (List α)) (a j : ℕ) (l : List α), L[a]? = some l →
    j < l.length → L.flatten[blockStart (L.map List.length) a + j]? = l[j]? := by
  intro L
  induction L with
  | nil => intro a j l h; simp at h
  | cons m L ih =>
    intro a j l h hj
    cases a with
    | zero =>
      simp only [List.getElem?_cons_zero, Option.some.injEq] at h
      subst h
      simp [blockStart, List.getElem?_append_left hj]
    | succ a =>
      simp only [List.getElem?_cons_succ] at h
      have := ih a j l h hj
      simp only [blockStart, List.map_cons, List.take_succ_cons, List.sum_cons,
        List.flatten_cons] at *
      rw [List.getElem?_append_right (by omega), ← this]
      congr 1
      omega

/-- Invariant of the loop that builds the orbital tables, after the atoms `done`. -/
structure OrbInv (t : OrbTables) (done : List (String × ElementData)) : Prop where
  len : t.atomorb.length = done.length
  orb : t.orb = t.atomorb.flatten
  nr : t.nrOrbitals = t.atomorb.map List.length
  norb : t.norb = t.nrOrbitals.sum
  atoms : t.orbitalAtoms = t.orb.map OrbRec.atom
  flen : t.firstOrbitals.length = done.length
  first : ∀ a < done.length, t.firstOrbitals[a]? = some (blockStart t.nrOrbitals a)
  recs : ∀ a l, t.atomorb[a]? = some l → ∃ s el, done[a]? = some (s, el) ∧
    l.length = (el.orbitals.zip el.energies).length ∧
    ∀ j r, l[j]? = some r → r.atom = a ∧ r.symbol = s ∧ r.index = blockStart t.nrOrbitals a + j ∧
      r.atomindex = j ∧ angmomOf r.orbital = .ok r.angmom ∧
      (el.orbitals.zip el.energies)[j]? = some (r.orbital, r.energy)

theorem blockStart_append (ns ms : List ℕ) (a : ℕ) (h : a ≤ ns.length) :
    blockStart (ns ++ ms) a = blockStart ns a := by
  unfold blockStart
  rw [List.take_append_of_le_length h]

theorem orbStep_inv (t t' : OrbTables) (done : List (String × ElementData)) (s : String)
    (el : ElementData) (h : OrbInv t done) (hs : orbStep t done.length s el = .ok t') :
    OrbInv t' (done ++ [(s, el)]) := by
  simp only [orbStep, bind, Except.bind] at hs
  cases ha : atomOrbs done.length s t.norb 0 (el.orbitals.zip el.energies) with
  | error x => simp [ha] at hs
  | ok ao =>
    simp only [ha, Except.ok.injEq] at hs
    subst hs
    obtain ⟨hl, hr⟩ := atomOrbs_spec _ _ _ _ _ _ ha
    have hnl : t.nrOrbitals.length = done.length := by rw [h.nr, List.length_map, h.len]
    have hbs : ∀ a ≤ done.length, blockStart (t.nrOrbitals ++ [ao.length]) a
        = blockStart t.nrOrbitals a := fun a ha => blockStart_append _ _ _ (by omega)
    have hlast : blockStart t.nrOrbitals done.length = t.norb := by
      unfold blockStart
      rw [List.take_of_length_le (by omega), h.norb]
    refine ⟨by simp [h.len], by simp [h.orb], by simp [h.nr], by simp [h.norb], ?_, by simp [h.flen],
      ?_, ?_⟩
    · simp only [List.map_append, h.atoms]
      congr 1
      symm
      rw [List.eq_replicate_iff]
      refine ⟨by simp, ?_⟩
      intro b hb
      obtain ⟨r, hrm, rfl⟩ := List.mem_map.1 hb
      obtain ⟨j, hj⟩ := List.getElem?_of_mem hrm
      exact (hr j r hj).1
    · intro a ha'
      simp only [List.length_append, List.length_singleton] at ha'
      rcases Nat.lt_or_ge a done.length with hlt | hge
      · rw [List.getElem?_append_left (by rw [h.flen]; exact hlt), h.first a hlt, hbs a hlt.le]
      · have : a = done.length := by omega
        subst this
        rw [List.getElem?_append_right (by rw [h.flen]), h.flen, hbs _ le_rfl, hlast]
        simp
    · intro a l hal
      rcases Nat.lt_or_ge a done.length with hlt | hge
      · rw [List.getElem?_append_left (by rw [h.len]; exact hlt)] at hal
        obtain ⟨s', el', h1, h2, h3⟩ := h.recs a l hal
        refine ⟨s', el', by rw [List.getElem?_append_left hlt]; exact h1, h2, ?_⟩
        intro j r hj
        rw [hbs a hlt.le]
        exact h3 j r hj
      · have : a = done.length := by
          have := (List.getElem?_eq_some_iff.1 hal).1
          simp only [List.length_append, h.len, List.length_singleton] at this
          omega
        subst this
        rw [List.getElem?_append_right (by rw [h.len]), h.len, Nat.sub_self] at hal
        simp only [List.getElem?_cons_zero, Option.some.injEq] at hal
        subst hal
        refine ⟨s, el, by simp, hl, ?_⟩
        intro j r hj
        obtain ⟨a1, a2, a3, a4, a5⟩ := hr j r hj
        rw [hbs _ le_rfl, hlast]
        exact ⟨a1, a2, a3, by omega, a5⟩

theorem orbLoop_inv : ∀ (rest done : List (String × ElementData)) (t t' : OrbTables),
    OrbInv t done → orbLoop t done.length rest = .ok t' → OrbInv t' (done ++ rest) := by
  intro rest
  induction rest with
  | nil =>
    intro done t t' h hs
    simp only [orbLoop, Except.ok.injEq] at hs
    subst hs
    simpa using h
  | cons a rest ih =>
    intro done t t' h hs
    obtain ⟨s, el⟩ := a
    simp only [orbLoop, bind, Except.bind] at hs
    cases h1 : orbStep t done.length s el with
    | error x => simp [h1] at hs
    | ok t1 =>
      simp only [h1] at hs
      have := ih (done ++ [(s, el)]) t1 t' (orbStep_inv t t1 done s el h h1) (by simpa using hs)
      simpa using this

theorem mapM_ok_spec {α β : Type} (f : α → Except Exn β) : ∀ (l : List α) (out : List β),
    l.mapM f = .ok out → List.Forall₂ (fun a b => f a = .ok b) l out := by
  intro l
  induction l with
  | nil =>
    intro out h
    simp only [List.mapM_nil, pure, Except.pure, Except.ok.injEq] at h
    subst h; exact .nil
  | cons a l ih =>
    intro out h
    rw [List.mapM_cons] at h
    simp only [bind, Except.bind, pure, Except.pure] at h
    cases ha : f a with
    | error x => simp [ha] at h
    | ok b =>
      simp only [ha] at h
      cases hl : l.mapM f with
      | error x => simp [hl] at h
      | ok bs =>
        simp only [hl, Except.ok.injEq] at h
        subst h
        exact .cons ha (ih _ hl)

theorem orbInit_inv (elements : String → Option ElementData) (symbols : List String)
    (t : OrbTables) (h : orbInit elements symbols = .ok t) :
    ∃ atoms : List (String × ElementData), OrbInv t atoms ∧ (∀ n ∈ t.nrOrbitals, n ≤ 9) ∧
      List.Forall₂ (fun s a => a.1 = s ∧ elements s = some a.2) symbols atoms := by
  simp only [orbInit, bind, Except.bind] at h
  split at h
  · simp at h
  · rename_i atoms hm
    split at h
    · simp at h
    · rename_i t1 hl
      split at h
      · rename_i h9
        simp only [Except.ok.injEq] at h
        subst h
        refine ⟨atoms, ?_, by simpa using h9, ?_⟩
        · have := orbLoop_inv atoms [] {} t1 (by
            constructor <;> simp) (by simpa using hl)
          simpa using this
        · have := mapM_ok_spec _ _ _ hm
          refine this.imp ?_
          intro s a hsa
          split at hsa
          · rename_i e he
            simp only [Except.ok.injEq] at hsa
            subst hsa
            exact ⟨rfl, he⟩
          · simp at hsa
      · simp at h

end Hotbit
