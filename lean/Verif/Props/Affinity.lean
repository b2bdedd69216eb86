import Verif.Model.Affinity

/-! # C127: ionisation potential and electron affinity -/

namespace Hotbit

/-- The occupations with `x` more electrons in the orbital `k`. -/
noncomputable def withElectrons (d : Occupancy) (k : String) (x : ℝ) : Occupancy :=
  d.map fun p => if p.1 = k then (p.1, p.2 + x) else p

/-- The keywords `IP_EA` can pass on. -/
def passedOn : List String :=
  ["valence", "confinement", "xc", "convergence", "scalarrel", "rmax", "nodegpts", "mix", "itmax", "timing", "verbose"]

theorem occuUpdate_nil (d : Occupancy) : occuUpdate d [] = d := by
  simp [occuUpdate]

theorem lookup_withElectrons {d : Occupancy} (hd : (d.map Prod.fst).Nodup) (k : String) (x : ℝ) {p : String × ℝ}
    (hp : p ∈ d) : (withElectrons d k x).lookup p.1 = some (if p.1 = k then p.2 + x else p.2) := by
  obtain ⟨p1, p2⟩ := p
  induction d with
  | nil => simp at hp
  | cons q d ih =>
    obtain ⟨q1, q2⟩ := q
    rw [List.map_cons, List.nodup_cons] at hd
    simp only at hd
    rcases List.mem_cons.mp hp with e | h
    · obtain ⟨rfl, rfl⟩ := Prod.mk.inj e
      by_cases hk : p1 = k <;> simp [withElectrons, hk, List.lookup_cons]
    · have hne : (p1 == q1) = false := by
        rw [beq_eq_false_iff_ne]
        exact fun e => hd.1 (e ▸ List.mem_map_of_mem (f := Prod.fst) h)
      have := ih hd.2 h
      unfold withElectrons at this ⊢
      by_cases hk : q1 = k
      · simp only [List.map_cons, if_pos hk, List.lookup_cons, hne]
        exact this
      · simp only [List.map_cons, if_neg hk, List.lookup_cons, hne]
        exact this

theorem occuUpdate_withElectrons {d : Occupancy} (hd : (d.map Prod.fst).Nodup) (k : String) (x : ℝ) :
    occuUpdate d (withElectrons d k x) = withElectrons d k x := by
  have h1 : (withElectrons d k x).filter (fun p => p.1 ∉ d.map Prod.fst) = [] := by
    rw [List.filter_eq_nil_iff]
    intro p hp
    simp only [withElectrons, List.mem_map] at hp
    obtain ⟨q, hq, rfl⟩ := hp
    have := List.mem_map_of_mem (f := Prod.fst) hq
    by_cases h : q.1 = k <;> simp_all
  rw [occuUpdate, h1, List.append_nil]
  conv_rhs => rw [withElectrons]
  refine List.map_congr_left fun p hp => ?_
  rw [lookup_withElectrons hd k x hp]
  by_cases h : p.1 = k <;> simp [h]

theorem passedOn_known {k : String} (h : k ∈ passedOn) : k ∈ ["configuration", "valence", "confinement", "xc",
    "convergence", "scalarrel", "rmax", "nodegpts", "mix", "itmax", "timing", "verbose", "txt", "restart", "write"] := by
  have : ∀ k ∈ passedOn, k ∈ ["configuration", "valence", "confinement", "xc", "convergence", "scalarrel", "rmax",
    "nodegpts", "mix", "itmax", "timing", "verbose", "txt", "restart", "write"] := by decide
  exact this k h

theorem ksMake_ok (base c : Occupancy) {given args : List String} (ha : ∀ k ∈ args, k ∈ passedOn)
    (hg : ∀ k ∈ given, k ∈ ["configuration", "txt", "restart", "write"]) :
    ksMake base c given args = .ok (occuUpdate base c) := by
  have e1 : ¬ ∃ k ∈ args, k ∈ given ∨ k ∉ ["configuration", "valence", "confinement", "xc", "convergence", "scalarrel",
      "rmax", "nodegpts", "mix", "itmax", "timing", "verbose", "txt", "restart", "write"] := by
    rintro ⟨k, hk, h | h⟩
    · have : ∀ k ∈ passedOn, k ∉ ["configuration", "txt", "restart", "write"] := by decide
      exact this k (ha k hk) (hg k h)
    · exact h (passedOn_known (ha k hk))
  have e2 : ¬ ∃ k ∈ given, k ∉ ["configuration", "valence", "confinement", "xc", "convergence", "scalarrel",
      "rmax", "nodegpts", "mix", "itmax", "timing", "verbose", "txt", "restart", "write"] := by
    rintro ⟨k, hk, h⟩
    have : ∀ k ∈ ["configuration", "txt", "restart", "write"], k ∈ ["configuration", "valence", "confinement", "xc",
      "convergence", "scalarrel", "rmax", "nodegpts", "mix", "itmax", "timing", "verbose", "txt", "restart", "write"] := by
      decide
    exact h (this k (hg k hk))
  simp only [ksMake, if_neg e1, if_neg e2]

/-- The calculation in closed form: three atoms, with the electrons added, unchanged and removed. -/
theorem ipEaCall_value (base : Occupancy) (hd : (base.map Prod.fst).Nodup) (energy : Occupancy → Except Exn ℝ)
    (rOrb aOrb : String) (hr : rOrb ∈ base.map Prod.fst) (ha : aOrb ∈ base.map Prod.fst) (r a : ℝ) (args : List String)
    (hargs : ∀ k ∈ args, k ∈ passedOn) (ep e0 en : ℝ) (hp : energy (withElectrons base rOrb (-r)) = .ok ep)
    (h0 : energy base = .ok e0) (hn : energy (withElectrons base aOrb a) = .ok en) :
    ipEaCall base energy rOrb aOrb r a args =
      let c2 := ((en - e0) + (ep - e0) * a / r) / (a * (r + a))
      let c1 := (c2 * r ^ 2 - (ep - e0)) / r
      .ok (-c1 + c2, -(c1 + c2)) := by
  have o1 : occuAdd base aOrb a = .ok (withElectrons base aOrb a) := by rw [occuAdd, if_pos ha]; rfl
  have o2 : occuAdd base rOrb (-r) = .ok (withElectrons base rOrb (-r)) := by rw [occuAdd, if_pos hr]; rfl
  simp only [ipEaCall, Bind.bind, Except.bind, pure, Except.pure]
  rw [ksMake_ok base [] hargs (by decide), occuUpdate_nil]
  simp only [o1]
  rw [ksMake_ok base _ hargs (by decide), occuUpdate_withElectrons hd]
  simp only [hn]
  rw [ksMake_ok base [] hargs (by decide), occuUpdate_nil]
  simp only [h0, o2]
  rw [ksMake_ok base _ hargs (by decide), occuUpdate_withElectrons hd]
  simp only [hp]

/-- If the energies of the atom with `a` more, the same and `r` fewer electrons lie on a parabola in the number
of extra electrons, the results are the energies to remove and gained by adding one whole electron. -/
theorem c127_extrapolation (base : Occupancy) (hd : (base.map Prod.fst).Nodup) (energy : Occupancy → Except Exn ℝ)
    (rOrb aOrb : String) (hr : rOrb ∈ base.map Prod.fst) (ha : aOrb ∈ base.map Prod.fst) (r a : ℝ) (hr0 : 0 < r)
    (ha0 : 0 < a) (args : List String) (hargs : ∀ k ∈ args, k ∈ passedOn) (E : ℝ → ℝ)
    (hE : ∃ c0 c1 c2 : ℝ, ∀ x, E x = c0 + c1 * x + c2 * x ^ 2)
    (hp : energy (withElectrons base rOrb (-r)) = .ok (E (-r))) (h0 : energy base = .ok (E 0))
    (hn : energy (withElectrons base aOrb a) = .ok (E a)) :
    ipEaCall base energy rOrb aOrb r a args = .ok (E (-1) - E 0, E 0 - E 1) := by
  obtain ⟨c0, c1, c2, hE⟩ := hE
  rw [ipEaCall_value base hd energy rOrb aOrb hr ha r a args hargs _ _ _ hp h0 hn]
  have hra : r + a ≠ 0 := by positivity
  have k2 : ((E a - E 0) + (E (-r) - E 0) * a / r) / (a * (r + a)) = c2 := by
    simp only [hE]
    field_simp
    ring
  have k1 : (c2 * r ^ 2 - (E (-r) - E 0)) / r = c1 := by
    simp only [hE]
    field_simp
    ring
  simp only [k2, k1]
  congr 2
  · simp only [hE]; ring
  · simp only [hE]; ring

/-- With one whole electron added and removed the results are the energy differences themselves, whatever the
energies. -/
theorem c127_whole (base : Occupancy) (hd : (base.map Prod.fst).Nodup) (energy : Occupancy → Except Exn ℝ)
    (rOrb aOrb : String) (hr : rOrb ∈ base.map Prod.fst) (ha : aOrb ∈ base.map Prod.fst) (args : List String)
    (hargs : ∀ k ∈ args, k ∈ passedOn) (ep e0 en : ℝ) (hp : energy (withElectrons base rOrb (-1)) = .ok ep)
    (h0 : energy base = .ok e0) (hn : energy (withElectrons base aOrb 1) = .ok en) :
    ipEaCall base energy rOrb aOrb 1 1 args = .ok (ep - e0, e0 - en) := by
  rw [ipEaCall_value base hd energy rOrb aOrb hr ha 1 1 args hargs _ _ _ hp h0 hn]
  simp only
  congr 2
  · ring
  · ring

/-- The electrons are counted: the calculations have `a` more and `r` fewer electrons than the atom. -/
theorem c127_electrons (base : Occupancy) (hd : (base.map Prod.fst).Nodup) (k : String)
    (hk : k ∈ base.map Prod.fst) (x : ℝ) :
    ((withElectrons base k x).map Prod.snd).sum = (base.map Prod.snd).sum + x := by
  induction base with
  | nil => simp at hk
  | cons q d ih =>
    rw [List.map_cons, List.nodup_cons] at hd
    by_cases h : q.1 = k
    · have hrest : withElectrons d k x = d := by
        rw [withElectrons]
        conv_rhs => rw [← List.map_id d]
        refine List.map_congr_left fun p hp => ?_
        have : p.1 ≠ k := fun e => hd.1 (by rw [h, ← e]; exact List.mem_map_of_mem hp)
        simp [this]
      unfold withElectrons at hrest ⊢
      simp only [List.map_cons, if_pos h, List.sum_cons, hrest]
      ring
    · have hk' : k ∈ d.map Prod.fst := by
        rcases List.mem_cons.mp hk with e | e
        · exact absurd e.symm h
        · exact e
      have := ih hd.2 hk'
      unfold withElectrons at this ⊢
      simp only [List.map_cons, if_neg h, List.sum_cons, this]
      ring

/-- An orbital that the configuration does not list is a `KeyError`, for removing as for adding. -/
theorem c127_missing (base : Occupancy) (energy : Occupancy → Except Exn ℝ) (rOrb aOrb : String) (r a : ℝ)
    (args : List String) (hargs : ∀ k ∈ args, k ∈ passedOn) :
    (aOrb ∉ base.map Prod.fst → ipEaCall base energy rOrb aOrb r a args = .error .keyError) ∧
    (∀ v, rOrb ∉ base.map Prod.fst → ipEaCall base energy rOrb aOrb r a args ≠ .ok v) := by
  constructor
  · intro h
    simp only [ipEaCall, Bind.bind, Except.bind]
    rw [ksMake_ok base [] hargs (by decide), occuUpdate_nil]
    simp only [occuAdd, if_neg h]
  · intro v h hv
    simp only [ipEaCall, Bind.bind, Except.bind, pure, Except.pure] at hv
    rw [ksMake_ok base [] hargs (by decide), occuUpdate_nil] at hv
    simp only at hv
    cases h1 : occuAdd base aOrb a with
    | error e => simp [h1] at hv
    | ok d =>
      simp only [h1] at hv
      rw [ksMake_ok base d hargs (by decide)] at hv
      simp only at hv
      cases h2 : energy (occuUpdate base d) with
      | error e => simp [h2] at hv
      | ok x =>
        simp only [h2] at hv
        rw [ksMake_ok base [] hargs (by decide), occuUpdate_nil] at hv
        simp only at hv
        cases h3 : energy base with
        | error e => simp [h3] at hv
        | ok y => simp [h3, occuAdd, if_neg h] at hv

/-- An output file, a configuration or restart files cannot be passed on: `TypeError` for every atom. -/
theorem c127_arguments_fails (base : Occupancy) (energy : Occupancy → Except Exn ℝ) (rOrb aOrb : String) (r a : ℝ) :
    ipEaCall base energy rOrb aOrb r a ["txt"] = .error .typeError ∧
    ∀ k ∈ ["configuration", "restart", "write"], ∀ v, ipEaCall base energy rOrb aOrb r a [k] ≠ .ok v := by
  constructor
  · simp only [ipEaCall, Bind.bind, Except.bind, ksMake]
    rw [if_pos ⟨"txt", by simp, by simp⟩]
  · intro k hk v hv
    simp only [ipEaCall, Bind.bind, Except.bind, pure, Except.pure] at hv
    cases h1 : ksMake base [] ["txt"] [k] with
    | error e => simp [h1] at hv
    | ok d =>
      simp only [h1] at hv
      cases h2 : occuAdd d aOrb a with
      | error e => simp [h2] at hv
      | ok d' =>
        simp only [h2] at hv
        have : ksMake base d' ["configuration", "restart", "write"] [k] = .error .typeError := by
          rw [ksMake, if_pos ⟨k, by simp, Or.inl hk⟩]
        simp [this] at hv

/-- The two separate functions cannot be used at all: the table they import does not exist. -/
theorem c127_separate_fails (base : Occupancy) (energy : Occupancy → Except Exn ℝ) (orb : String) (x : ℝ) :
    ionizationPotential base energy orb x = .error .exception ∧
    electronAffinity base energy orb x = .error .exception := by
  have h : importFromBoxData "atom_occupations" = .error .exception := by
    rw [importFromBoxData, if_neg (by decide)]
  simp only [ionizationPotential, electronAffinity, h, Bind.bind, Except.bind, and_self]

/-- Carbon. -/
noncomputable def exCarbon : Occupancy := [("1s", 2), ("2s", 2), ("2p", 2)]

/-- A model of the atom: the energy depends on the number of electrons as a parabola. -/
noncomputable def exAtomEnergy (d : Occupancy) : Except Exn ℝ :=
  .ok ((d.map Prod.snd).sum ^ 2 / 5 - 3 * (d.map Prod.snd).sum)

example : (exCarbon.map Prod.fst).Nodup ∧ "2p" ∈ exCarbon.map Prod.fst ∧ (∀ k ∈ ["xc", "scalarrel"], k ∈ passedOn) ∧
    (let E : ℝ → ℝ := fun x => (6 + x) ^ 2 / 5 - 3 * (6 + x)
     (∃ c0 c1 c2 : ℝ, ∀ x, E x = c0 + c1 * x + c2 * x ^ 2) ∧
      exAtomEnergy (withElectrons exCarbon "2p" (-(1 / 4))) = .ok (E (-(1 / 4))) ∧
      exAtomEnergy exCarbon = .ok (E 0) ∧ exAtomEnergy (withElectrons exCarbon "2p" (1 / 4)) = .ok (E (1 / 4))) := by
  have hd : (exCarbon.map Prod.fst).Nodup := by
    show (["1s", "2s", "2p"] : List String).Nodup
    decide
  have hk : "2p" ∈ exCarbon.map Prod.fst := by simp [exCarbon]
  have hs : (exCarbon.map Prod.snd).sum = 6 := by norm_num [exCarbon]
  refine ⟨hd, hk, by decide, ⟨36 / 5 - 18, 12 / 5 - 3, 1 / 5, fun x => by ring⟩, ?_, ?_, ?_⟩
  · simp only [exAtomEnergy, c127_electrons _ hd _ hk, hs]
  · simp only [exAtomEnergy, hs, add_zero]
  · simp only [exAtomEnergy, c127_electrons _ hd _ hk, hs]

end Hotbit
