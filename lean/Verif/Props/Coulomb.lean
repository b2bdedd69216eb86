import Verif.Lemmas.Coulomb
import Verif.Props.Neighbors

/-!
# C43, C67: direct Coulomb summation

`Fresh cut A q s` says that `s` is the object after it computed structure `A` with charges `q`
without raising; `displace A a v t` is `A` with atom `a` moved by `t*v` (`Lemmas/PairSum.lean`).
-/

namespace Hotbit

open Real Matrix Filter Topology

set_option linter.unusedSimpArgs false

/-- The object has just evaluated `A` with charges `q`. -/
def Fresh (cut : Option ℝ) (A : Atoms) (q : List ℝ) (s : DC) : Prop :=
  dcUpdate { cutoff := cut } A q = (s, .ok ())

theorem fresh_iff (cut : Option ℝ) (A : Atoms) (q : List ℝ) (s : DC) :
    Fresh cut A q s ↔ dcCompute { cutoff := cut } A q = (s, .ok ()) := by
  simp [Fresh, dcUpdate]

theorem compute_cut (cut : Option ℝ) (A : Atoms) (q : List ℝ) (s0 s : DC) (hcut : s0.cutoff = cut)
    (h : dcCompute s0 A q = (s, .ok ())) : cut.isSome ∨ A.isCluster = true := by
  by_contra hcon
  rw [not_or] at hcon
  have h1 : cut = none := by simpa using hcon.1
  unfold dcCompute at h
  rw [hcut, h1, c34_periodic_needs_cutoff A (by simpa using hcon.2)] at h
  simp at h

theorem fresh_eq (cut : Option ℝ) (A : Atoms) (q : List ℝ) (s : DC) (h : Fresh cut A q s) :
    (cut.isSome ∨ A.isCluster = true) ∧
    s = ⟨cut, some A.positions, some q, some A,
      some ((List.range A.positions.length).map fun i =>
        (((nbList A cut).filter fun e => e.i == i).map fun e => chg q e.j * coulPot cut e.d).sum),
      some ((List.range A.positions.length).map fun i =>
        (((nbList A cut).filter fun e => e.i == i).map fun e =>
          (chg q e.j * coulField cut e.d) • e.n).sum)⟩ := by
  rw [fresh_iff] at h
  have hc := compute_cut cut A q _ s rfl h
  refine ⟨hc, ?_⟩
  rw [dcCompute_ok _ A q hc] at h
  exact (Prod.mk.inj h).1.symm

theorem fresh_exists (cut : Option ℝ) (A : Atoms) (q : List ℝ)
    (hc : cut.isSome ∨ A.isCluster = true) : ∃ s, Fresh cut A q s :=
  ⟨_, (fresh_iff _ _ _ _).2 (dcCompute_ok _ A q hc)⟩

/-- C43: the potential is the gamma matrix applied to the charges; if no gamma matrix is returned
all potentials are zero. -/
theorem c43_potential (cut : Option ℝ) (A : Atoms) (q : List ℝ) (s : DC) (h : Fresh cut A q s) :
    ∃ phi g, dcPotential s = .ok phi ∧ dcGamma s = .ok g ∧ phi.length = A.positions.length ∧
      ∀ i < A.positions.length,
        phi[i]? = some (match g with
          | some G => ∑ j ∈ Finset.range A.positions.length, G i j * chg q j
          | none => 0) := by
  obtain ⟨hc, rfl⟩ := fresh_eq cut A q s h
  refine ⟨_, (if (nbList A cut).isEmpty then none else some (nbList A cut)).map (gammaEntry cut),
    rfl, ?_, by simp, ?_⟩
  · simp only [dcGamma]
    rw [getNeighbors_eq A cut hc]; rfl
  · intro i hi
    simp only [List.getElem?_map, List.getElem?_range hi, Option.map_some, Option.some.injEq]
    by_cases he : (nbList A cut).isEmpty = true
    · rw [if_pos he]
      have : nbList A cut = [] := by simpa using he
      simp [this]
    · rw [if_neg he]
      simp only [Option.map_some, gammaEntry]
      rw [← sum_filter_range2 A.positions.length (nbList A cut) _ i
        fun e he => (nbList_i A cut e he).2]
      refine Finset.sum_congr rfl fun j _ => ?_
      rw [mul_comm, ← list_sum_mul]
      congr 1
      refine List.map_congr_left fun e he => ?_
      have : e.j = j := by
        have := (List.mem_filter.1 he).2
        simp at this; exact this.2
      rw [this]

/-- C43: the energy is half the charge-potential product and half the sum of the pair energies
over the neighbour list. -/
theorem c43_energy (cut : Option ℝ) (A : Atoms) (q : List ℝ) (s : DC) (h : Fresh cut A q s)
    (hq : q.length = A.positions.length) :
    ∃ phi, dcPotential s = .ok phi ∧
      dcEnergy s = .ok ((∑ i ∈ Finset.range A.positions.length, chg q i * phi.getD i 0) / 2) ∧
      dcEnergy s = .ok (pairEnergy A cut fun i j d => chg q i * chg q j * coulPot cut d) := by
  obtain ⟨hc, rfl⟩ := fresh_eq cut A q s h
  refine ⟨_, rfl, ?_, ?_⟩
  · simp only [dcEnergy]
    rw [zipWith_range q _ hq, list_range_sum]
    congr 2
    refine Finset.sum_congr rfl fun i hi => ?_
    rw [Finset.mem_range] at hi
    simp [List.getD_eq_getElem?_getD, hi]
  · simp only [dcEnergy]
    rw [zipWith_range q _ hq, list_range_sum]
    congr 1
    rw [pairEnergy, ← sum_filter_range A.positions.length (nbList A cut) _
      fun e he => (nbList_i A cut e he).1]
    congr 1
    refine Finset.sum_congr rfl fun i _ => ?_
    rw [← list_sum_mul]
    congr 1
    refine List.map_congr_left fun e he => ?_
    have : e.i = i := by simpa using (List.mem_filter.1 he).2
    rw [this]; ring

/-- C43: gamma is symmetric (containers whose scanned operations have scanned inverses). -/
theorem c43_gamma_symmetric (cut : Option ℝ) (A : Atoms) (hA : InversionClosed A) (q : List ℝ)
    (s : DC) (h : Fresh cut A q s) (G : ℕ → ℕ → ℝ) (hg : dcGamma s = .ok (some G)) (i j : ℕ) :
    G i j = G j i := by
  obtain ⟨hc, rfl⟩ := fresh_eq cut A q s h
  simp only [dcGamma] at hg
  rw [getNeighbors_eq A cut hc] at hg
  have hG : G = gammaEntry cut (nbList A cut) := by
    simp only [Bind.bind, Except.bind, Pure.pure, Except.pure, Except.ok.injEq] at hg
    split at hg
    · simp at hg
    · simp at hg; exact hg.symm
  rw [hG]
  unfold gammaEntry
  have := ((swap_perm A hA cut).filter fun e => e.i == i && e.j == j).map fun e => coulPot cut e.d
  rw [← this.sum_eq, List.filter_map, List.map_map]
  congr 1
  have hf : ((fun e : Nb => e.i == i && e.j == j) ∘ swapNb A) = fun e => e.i == j && e.j == i := by
    funext e; simp [swapNb, Bool.and_comm]
  rw [hf]
  rfl

/-- C43: the forces add up to zero in clusters and in Bravais crystals. -/
theorem c43_forces_sum (cut : Option ℝ) (A : Atoms) (hA : A.ctype = .bravais) (q : List ℝ)
    (s : DC) (h : Fresh cut A q s) (hq : q.length = A.positions.length) :
    ∃ F, dcForces s = .ok F ∧ F.length = A.positions.length ∧ F.sum = 0 := by
  obtain ⟨hc, rfl⟩ := fresh_eq cut A q s h
  refine ⟨_, rfl, by simp [hq], ?_⟩
  rw [zipWith_range q _ hq, list_range_sum]
  have h1 : ∀ i, chg q i • (((nbList A cut).filter fun e => e.i == i).map fun e =>
      (chg q e.j * coulField cut e.d) • e.n).sum =
      (((nbList A cut).filter fun e => e.i == i).map fun e =>
        (chg q e.i * chg q e.j * coulField cut e.d) • e.n).sum := by
    intro i
    rw [← list_sum_smul]
    congr 1
    refine List.map_congr_left fun e he => ?_
    have : e.i = i := by simpa using (List.mem_filter.1 he).2
    rw [this, smul_smul, mul_assoc]
  simp only [h1]
  rw [sum_filter_range A.positions.length (nbList A cut) _ fun e he => (nbList_i A cut e he).1]
  have hinv : InversionClosed A := Or.inl hA
  have hs : ((nbList A cut).map fun e => (chg q e.i * chg q e.j * coulField cut e.d) • e.n).sum =
      -((nbList A cut).map fun e => (chg q e.i * chg q e.j * coulField cut e.d) • e.n).sum := by
    conv_lhs => rw [← ((swap_perm A hinv cut).map _).sum_eq, List.map_map]
    rw [← list_sum_neg]
    congr 1
    refine List.map_congr_left fun e he => ?_
    have hA2 := hinv.commuting.ne_tat
    obtain ⟨-, -, hsc, -, hd, hn⟩ := (mem_nbList A hA2 cut e).1 he
    have hn' : (swapNb A e).n = -e.n := by
      show (e.d)⁻¹ • _ = _
      rw [hn, hd, ← smul_neg]
      congr 1
      have e1 := rawTransform_affine A hA2 _ (invOp_cases A hinv _ hsc).1.1
        (A.rawTransform (A.pos e.j) e.op) (A.pos e.i)
      rw [invOp_right A hinv _ hsc] at e1
      rw [e1]
      simp [Atoms.rawRotation, hA]
    show (chg q e.j * chg q e.i * coulField cut e.d) • (swapNb A e).n = _
    rw [hn', smul_neg, mul_comm (chg q e.j)]
  have : (2 : ℝ) • ((nbList A cut).map fun e =>
      (chg q e.i * chg q e.j * coulField cut e.d) • e.n).sum = 0 := by
    rw [two_smul]; nth_rewrite 2 [hs]; simp
  exact (smul_eq_zero.1 this).resolve_left (by norm_num)

/-- C43: the force on an atom is minus the gradient of the energy with respect to its position
(the images move along), for every structure without coinciding images and without a pair
exactly at the cutoff. -/
theorem c43_force_gradient (cut : Option ℝ) (hcut : ∀ c, cut = some c → c ≠ 0) (A : Atoms)
    (hA : InversionClosed A) (hreg : RegularPairs A cut) (q : List ℝ) (s : DC)
    (h : Fresh cut A q s) (hq : q.length = A.positions.length) :
    ∃ F, dcForces s = .ok F ∧ ∀ a < A.positions.length, ∀ v : Vec, ∃ E : ℝ → ℝ,
      (∀ t, ∃ st, Fresh cut (displace A a v t) q st ∧ dcEnergy st = .ok (E t)) ∧
      HasDerivAt E (-((F.getD a 0) ⬝ᵥ v)) 0 := by
  obtain ⟨hc, hs⟩ := fresh_eq cut A q s h
  subst hs
  refine ⟨_, rfl, fun a ha v => ?_⟩
  refine ⟨fun t => pairEnergy (displace A a v t) cut fun i j d => chg q i * chg q j * coulPot cut d,
    fun t => ?_, ?_⟩
  · obtain ⟨st, hst⟩ := fresh_exists cut (displace A a v t) q
      (by rw [displace_isCluster]; exact hc)
    obtain ⟨-, -, -, he⟩ := c43_energy cut _ q st hst (by rw [displace_length]; exact hq)
    exact ⟨st, hst, he⟩
  · have := pairEnergy_gradient A hA cut (fun i j d => chg q i * chg q j * coulPot cut d)
      (fun i j d => chg q i * chg q j * (-coulField cut d)) (fun i j d => by ring)
      (fun i j d hd _ => (coulPot_hasDerivAt cut hcut d hd.ne').const_mul _) hreg a v
    refine this.congr_deriv ?_
    rw [zipWith_range q _ hq, ← neg_dotProduct]
    congr 1
    rw [List.getD_eq_getElem?_getD, List.getElem?_map, List.getElem?_range ha]
    simp only [Option.map_some, Option.getD_some]
    rw [← list_sum_smul, ← list_sum_neg]
    congr 1
    refine List.map_congr_left fun e he => ?_
    have : e.i = a := by simpa using (List.mem_filter.1 he).2
    rw [this, smul_smul, ← neg_smul]
    congr 1; ring

/-! ### The cache -/

/-- The two structures use the same container. -/
def SameGeometryKind (A B : Atoms) : Prop :=
  A.ctype = B.ctype ∧ A.cell = B.cell ∧ A.pbc = B.pbc ∧ A.slabX = B.slabX

theorem nbList_congr (A B : Atoms) (h : SameGeometryKind A B) (hp : A.positions = B.positions)
    (cut : Option ℝ) : nbList A cut = nbList B cut ∧ A.isCluster = B.isCluster := by
  obtain ⟨ct, at1, ce, pb, sx⟩ := A
  obtain ⟨ct', at2, ce', pb', sx'⟩ := B
  obtain ⟨h1, h2, h3, h4⟩ := h
  simp only at h1 h2 h3 h4
  subst h1 h2 h3 h4
  have hR : ∀ x, (Atoms.mk ct at1 ce pb sx).rawRotation x = (Atoms.mk ct at2 ce pb sx).rawRotation x := by
    intro x; unfold Atoms.rawRotation; cases ct <;> rfl
  have hT : ∀ r x, (Atoms.mk ct at1 ce pb sx).rawTransform r x =
      (Atoms.mk ct at2 ce pb sx).rawTransform r x := by
    intro r x
    unfold Atoms.rawTransform
    have ht : (Atoms.mk ct at1 ce pb sx).tatR = (Atoms.mk ct at2 ce pb sx).tatR := by
      simp only [Atoms.tatR, hp]
    cases ct <;> simp only [hR, ht] <;> rfl
  refine ⟨?_, rfl⟩
  unfold nbList
  have hscan : scanOps (Atoms.mk ct at1 ce pb sx) = scanOps (Atoms.mk ct at2 ce pb sx) := rfl
  rw [hscan]
  congr 1
  funext x
  have hd : ∀ i j, drOf (Atoms.mk ct at1 ce pb sx) ((Atoms.mk ct at1 ce pb sx).rawTransform 0 x)
      ((Atoms.mk ct at1 ce pb sx).rawRotation x) i j =
      drOf (Atoms.mk ct at2 ce pb sx) ((Atoms.mk ct at2 ce pb sx).rawTransform 0 x)
      ((Atoms.mk ct at2 ce pb sx).rawRotation x) i j := by
    intro i j; simp only [drOf, Atoms.pos, hp, hR, hT]
  unfold nbBlock
  rw [hp]
  congr 1
  funext i
  congr 1
  funext j
  dsimp only
  rw [hd i j]

/-- The state belongs to the evaluation of `A` with `q`. -/
def Holds (s : DC) (A : Atoms) (q : List ℝ) : Prop :=
  ∃ f, Fresh s.cutoff A q f ∧ dcPotential s = dcPotential f ∧ dcGetField s = dcGetField f ∧
    dcEnergy s = dcEnergy f ∧ dcForces s = dcForces f

/-- A history of updates on structures with one and the same container, none of which raised. -/
inductive Reach (cut : Option ℝ) (C : Atoms) : DC → Prop
  | start : Reach cut C { cutoff := cut }
  | step (s s' : DC) (A : Atoms) (q : List ℝ) (hs : Reach cut C s) (hA : SameGeometryKind A C)
      (h : dcUpdate s A q = (s', .ok ())) : Reach cut C s'

theorem reach_inv (cut : Option ℝ) (C : Atoms) (s : DC) (h : Reach cut C s) :
    s.cutoff = cut ∧ (s = { cutoff := cut } ∨
      ∃ A q, SameGeometryKind A C ∧ Fresh cut A q s) := by
  induction h with
  | start => exact ⟨rfl, Or.inl rfl⟩
  | step s s' A q hs hA h ih =>
    obtain ⟨hcut, ih⟩ := ih
    have hcomp : dcCompute s A q = (s', .ok ()) → s'.cutoff = cut ∧ Fresh cut A q s' := by
      intro hc
      have hcc := compute_cut cut A q s s' hcut hc
      have e1 := dcCompute_ok s A q (by rw [hcut]; exact hcc)
      rw [hc] at e1
      have e2 := dcCompute_ok { cutoff := cut } A q hcc
      have hs' : s' = _ := (Prod.mk.inj e1).1
      constructor
      · rw [hs', hcut]
      · rw [fresh_iff, e2, hs', hcut]
    unfold dcUpdate at h
    split at h
    · obtain ⟨a, b⟩ := hcomp h; exact ⟨a, Or.inr ⟨A, q, hA, b⟩⟩
    · split at h
      · obtain ⟨a, b⟩ := hcomp h; exact ⟨a, Or.inr ⟨A, q, hA, b⟩⟩
      · have hss : s = s' := (Prod.mk.inj h).1
        subst hss
        exact ⟨hcut, ih⟩

/-- C43: in every history of updates that did not raise and never changed the container, the
results belong to the structure and charges of the last update. -/
theorem c43_cache_partial (cut : Option ℝ) (C : Atoms) (s s' : DC) (h : Reach cut C s) (A : Atoms)
    (hA : SameGeometryKind A C) (q : List ℝ) (hu : dcUpdate s A q = (s', .ok ())) : Holds s' A q := by
  have hr := Reach.step s s' A q h hA hu
  obtain ⟨hcut', hinv'⟩ := reach_inv cut C s' hr
  obtain ⟨hcut, hinv⟩ := reach_inv cut C s h
  have fin : ∀ f, Fresh cut A q f → s'.phi = f.phi → s'.E = f.E → s'.q = f.q → Holds s' A q := by
    intro f hf h1 h2 h3
    refine ⟨f, by rw [hcut']; exact hf, ?_, ?_, ?_, ?_⟩ <;>
      simp only [dcPotential, dcGetField, dcEnergy, dcForces, h1, h2, h3]
  have hcomp : dcCompute s A q = (s', .ok ()) → Holds s' A q := by
    intro hc
    have hcc := compute_cut cut A q s s' hcut hc
    obtain ⟨f, hf⟩ := fresh_exists cut A q hcc
    have e1 := dcCompute_ok s A q (by rw [hcut]; exact hcc)
    rw [hc] at e1
    have hs' := (Prod.mk.inj e1).1
    have hf' := (fresh_eq cut A q f hf).2
    refine fin f hf ?_ ?_ ?_ <;> rw [hs', hf', hcut]
  unfold dcUpdate at hu
  split at hu
  · exact hcomp hu
  · rename_i h0
    split at hu
    · exact hcomp hu
    · rename_i h1
      have hss : s = s' := (Prod.mk.inj hu).1
      rw [not_or, not_not, not_not] at h1
      rcases hinv with hst | ⟨B, q', hB, hf⟩
      · rw [hst] at h0; simp at h0
      · obtain ⟨hcc, hs⟩ := fresh_eq cut B q' s hf
        have hp : A.positions = B.positions := by
          have := h1.1; rw [hs] at this; simp at this; exact this.symm
        have hqq : q = q' := by
          have := h1.2; rw [hs] at this; simp at this; exact this.symm
        obtain ⟨hl, hcl⟩ := nbList_congr A B ⟨hA.1.trans hB.1.symm, hA.2.1.trans hB.2.1.symm,
          hA.2.2.1.trans hB.2.2.1.symm, hA.2.2.2.trans hB.2.2.2.symm⟩ hp cut
        obtain ⟨f, hff⟩ := fresh_exists cut A q (by rw [hcl]; exact hcc)
        obtain ⟨-, hfe⟩ := fresh_eq cut A q f hff
        refine fin f hff ?_ ?_ ?_ <;> rw [← hss, hs, hfe] <;> simp only [hl, hp, hqq]

/-! ### Examples and refutations -/

/-- Two atoms at distance `d` along x. -/
noncomputable def exDimer (d : ℝ) : Atoms where
  ctype := .bravais
  atoms := [("C", ![0, 0, 0]), ("C", ![d, 0, 0])]
  cell := 1
  pbc := ![false, false, false]

theorem exDimer_cluster (d : ℝ) : (exDimer d).isCluster = true := by
  simp [Atoms.isCluster, Atoms.ranges, exDimer, rangeZero]

theorem exDimer_scan (d : ℝ) : scanOps (exDimer d) = [0] := by
  have h : ∀ k, (exDimer d).ranges k = rangeZero := by
    intro k; fin_cases k <;> simp [Atoms.ranges, exDimer]
  simp only [scanOps, h]
  simp [nFromRange, rangeZero, arange]

theorem exDimer_len (d : ℝ) : (exDimer d).positions.length = 2 := rfl

/-- Energy of two unit charges. -/
theorem exDimer_energy (c d : ℝ) (hd : 0 < d) :
    pairEnergy (exDimer d) (some c) (fun i j x => chg [1, 1] i * chg [1, 1] j * coulPot (some c) x) =
      if d < c then coulPot (some c) d else 0 := by
  classical
  have hdr : ∀ i j, drOf (exDimer d) ((exDimer d).rawTransform 0 0) ((exDimer d).rawRotation 0) i j =
      (exDimer d).pos i - (exDimer d).pos j := by
    intro i j
    rw [drOf, rawTransform_zero _ (by simp [exDimer, Commuting])]
    simp [Atoms.rawRotation, exDimer]
  have p0 : (exDimer d).pos 0 = ![0, 0, 0] := rfl
  have p1 : (exDimer d).pos 1 = ![d, 0, 0] := rfl
  have n01 : norm3 (![0, 0, 0] - ![d, 0, 0]) = d := by
    have : (![0, 0, 0] - ![d, 0, 0] : Vec) = ![-d, 0, 0] := by
      ext k; fin_cases k <;> simp
    rw [this, norm3_x, abs_neg, abs_of_pos hd]
  have n10 : norm3 (![d, 0, 0] - ![0, 0, 0]) = d := by
    have : (![d, 0, 0] - ![0, 0, 0] : Vec) = ![d, 0, 0] := by
      ext k; fin_cases k <;> simp
    rw [this, norm3_x, abs_of_pos hd]
  rw [pairEnergy, nbList_sum, exDimer_scan, exDimer_len]
  have hr : List.range 2 = [0, 1] := rfl
  simp only [hr, List.map_cons, List.map_nil, List.sum_cons, List.sum_nil, add_zero, hdr, p0, p1,
    maskOf, n01, n10]
  by_cases h : d < c
  · simp [h, chg]
  · simp [h]

theorem exDimer_regular (cut : Option ℝ) (hcut : ∀ c, cut = some c → (1 : ℝ) ≠ c) :
    RegularPairs (exDimer 1) cut := by
  intro i hi j hj x hx hself
  have h0 : x = 0 := by
    have := (mem_scanOps (exDimer 1) x).2 hx
    rw [exDimer_scan] at this; simpa using this
  subst h0
  have hij : i ≠ j := fun e => hself ⟨rfl, e⟩
  rw [exDimer_len] at hi hj
  rw [rawTransform_zero _ (by simp [exDimer, Commuting])]
  have p0 : (exDimer 1).pos 0 = ![0, 0, 0] := rfl
  have p1 : (exDimer 1).pos 1 = ![1, 0, 0] := rfl
  have n01 : norm3 (![0, 0, 0] - ![1, 0, 0]) = 1 := by
    have : (![0, 0, 0] - ![1, 0, 0] : Vec) = ![-1, 0, 0] := by
      ext k; fin_cases k <;> simp
    rw [this, norm3_x]; norm_num
  have n10 : norm3 (![1, 0, 0] - ![0, 0, 0]) = 1 := by
    have : (![1, 0, 0] - ![0, 0, 0] : Vec) = ![1, 0, 0] := by
      ext k; fin_cases k <;> simp
    rw [this, norm3_x]; norm_num
  have hc : (i = 0 ∧ j = 1) ∨ (i = 1 ∧ j = 0) := by omega
  rcases hc with ⟨rfl, rfl⟩ | ⟨rfl, rfl⟩
  · rw [p0, p1]
    exact ⟨fun e => by simpa using congrFun e 0, fun c hc => by rw [n01]; exact hcut c hc⟩
  · rw [p0, p1]
    exact ⟨fun e => by simpa using congrFun e 0, fun c hc => by rw [n10]; exact hcut c hc⟩

/-- Non-vacuity of the C43 statements: a dimer with a smooth cutoff, away from the cutoff. -/
example : InversionClosed (exDimer 1) ∧ RegularPairs (exDimer 1) (some 3) ∧
    (∃ s, Fresh (some 3) (exDimer 1) [1, -1] s) ∧
    ([1, -1] : List ℝ).length = (exDimer 1).positions.length :=
  ⟨Or.inl rfl, exDimer_regular _ (by intro c hc; simp at hc; rw [← hc]; norm_num),
    fresh_exists _ _ _ (Or.inl rfl), rfl⟩

/-- Non-vacuity of the history statement: two successful updates with different charges. -/
example : ∃ s s', Reach none (exDimer 1) s ∧ dcUpdate s (exDimer 1) [1, 2] = (s', .ok ()) := by
  obtain ⟨s, hs⟩ := fresh_exists none (exDimer 1) [1, -1] (Or.inr (exDimer_cluster 1))
  refine ⟨s, (dcUpdate s (exDimer 1) [1, 2]).1,
    Reach.step _ s (exDimer 1) [1, -1] .start ⟨rfl, rfl, rfl, rfl⟩ hs, ?_⟩
  · obtain ⟨-, he⟩ := fresh_eq _ _ _ _ hs
    have : dcUpdate s (exDimer 1) [1, 2] = dcCompute s (exDimer 1) [1, 2] := by
      unfold dcUpdate
      rw [if_neg (by rw [he]; simp), if_pos (by rw [he]; right; norm_num)]
    rw [this, dcCompute_ok _ _ _ (Or.inr (exDimer_cluster 1))]

/-- The chain with period 1 has two neighbours within 1.5, the one with period 2 none. -/
theorem exChain_phi_pos (s : DC) (h : Fresh (some 1.5) (exChain 1) [1] s) :
    ∃ p, dcPotential s = .ok [p] ∧ 0 < p := by
  obtain ⟨hc, hs⟩ := fresh_eq _ _ _ s h
  have hlen : (exChain 1).positions.length = 1 := rfl
  refine ⟨_, by rw [hs]; simp only [dcPotential, hlen]; rfl, ?_⟩
  have hnb := exChain_neighbour 1 1.5 1 (by norm_num) (by norm_num)
  have hn : norm3 ((exChain 1).pos 0 - ![((1 : ℤ) : ℝ) * 1, 0, 0]) = 1 := by
    have : (exChain 1).pos 0 - ![((1 : ℤ) : ℝ) * 1, 0, 0] = ![-1, 0, 0] := by
      ext i; fin_cases i <;> simp [Atoms.pos, exChain, Atoms.positions]
    rw [this, norm3_x]; norm_num
  obtain ⟨res, hr, -, hmem⟩ := c34_exact (exChain 1) (by simp [exChain]) (some 1.5) (Or.inl rfl)
  have key := (hmem ⟨0, 0, 1, (1 : ℝ)⁻¹ • ((exChain 1).pos 0 - ![((1 : ℤ) : ℝ) * 1, 0, 0]),
      ![1, 0, 0]⟩).2 ⟨⟨exChain_legal 1 1, by intro k _; fin_cases k <;> simp⟩, _, hnb, hn.symm,
        by rw [hn]⟩
  have hres : res.getD [] = nbList (exChain 1) (some 1.5) := by
    rw [getNeighbors_eq _ _ (Or.inl rfl)] at hr
    simp only [Except.ok.injEq] at hr
    rw [← hr, getD_nb]
  rw [hres] at key
  have hpos : ∀ e ∈ nbList (exChain 1) (some 1.5), 0 ≤ chg [1] e.j * coulPot (some 1.5) e.d := by
    intro e he
    have hd : 0 ≤ e.d := by
      rw [((mem_nbList _ (by simp [exChain]) _ e).1 he).2.2.2.2.1]; exact norm3_nonneg _
    have hj : e.j = 0 := by have := (nbList_i _ _ e he).2; rw [hlen] at this; omega
    rw [hj]
    simp only [chg, coulPot]
    have := erfc_pos (e.d / 1.5)
    simp; positivity
  have hmem0 : (⟨0, 0, 1, (1 : ℝ)⁻¹ • ((exChain 1).pos 0 - ![((1 : ℤ) : ℝ) * 1, 0, 0]),
      ![1, 0, 0]⟩ : Nb) ∈ (nbList (exChain 1) (some 1.5)).filter fun e => e.i == 0 :=
    List.mem_filter.2 ⟨key, rfl⟩
  have hle := List.single_le_sum (l := ((nbList (exChain 1) (some 1.5)).filter fun e => e.i == 0).map
    fun e => chg [1] e.j * coulPot (some 1.5) e.d) (by
      intro x hx
      obtain ⟨e, he, rfl⟩ := List.mem_map.1 hx
      exact hpos e (List.mem_filter.1 he).1) _ (List.mem_map.2 ⟨_, hmem0, rfl⟩)
  refine lt_of_lt_of_le ?_ hle
  simp only [chg, coulPot]
  have := erfc_pos (1 / 1.5)
  simpa using this

theorem exChain2_phi (s : DC) (h : Fresh (some 1.5) (exChain 2) [1] s) :
    dcPotential s = .ok [0] := by
  obtain ⟨hc, hs⟩ := fresh_eq _ _ _ s h
  have hlen : (exChain 2).positions.length = 1 := rfl
  have hnil : nbList (exChain 2) (some 1.5) = [] := by
    rw [List.eq_nil_iff_forall_not_mem]
    intro e he
    obtain ⟨hi, hj, hsc, hm, -⟩ := (mem_nbList _ (by simp [exChain]) _ e).1 he
    rw [hlen] at hi hj
    have hi0 : e.i = 0 := by omega
    have hj0 : e.j = 0 := by omega
    rw [hi0, hj0] at hm
    have hx : e.op = ![e.op 0, 0, 0] := by
      have hl := (legal_iff _ _).2 hsc.1
      simp [exChain, Atoms.ranges, rangeInf, rangeZero, Bound.leInt, Bound.geInt] at hl
      ext k; fin_cases k <;> simp <;> omega
    have ht := exChain_image 2 ((exChain 2).pos 0) (e.op 0)
    rw [← hx, (c05_transform_guard _ _ _).1 hsc.1] at ht
    simp only [Except.ok.injEq] at ht
    rw [ht] at hm
    have hv : (exChain 2).pos 0 - ((exChain 2).pos 0 + ![(e.op 0 : ℝ) * 2, 0, 0]) =
        ![-((e.op 0 : ℝ) * 2), 0, 0] := by
      rw [sub_add_cancel_left]
      ext k; fin_cases k <;> simp
    rw [hv] at hm
    have hne : e.op 0 ≠ 0 := by
      intro h0
      apply hm.2
      refine ⟨?_, rfl⟩
      rw [hx, h0]; ext k; fin_cases k <;> rfl
    have hlt : norm3 ![-((e.op 0 : ℝ) * 2), 0, 0] < 1.5 := hm.1
    rw [norm3_x, abs_neg, abs_mul] at hlt
    have : (1 : ℝ) ≤ |(e.op 0 : ℝ)| := by
      have := Int.one_le_abs hne
      exact_mod_cast this
    norm_num at hlt
    linarith
  rw [hs, hnil]
  simp [dcPotential, hlen]

/-- C43 fails: after a change of the cell (same positions and charges) `update` keeps the old
result. -/
theorem c43_cell_change_fails :
    ∃ (A B : Atoms) (q : List ℝ) (cut : Option ℝ) (s s' : DC), Fresh cut A q s ∧
      dcUpdate s B q = (s', .ok ()) ∧ ¬ Holds s' B q := by
  obtain ⟨s, hs⟩ := fresh_exists (some 1.5) (exChain 1) [1] (Or.inl rfl)
  obtain ⟨-, he⟩ := fresh_eq _ _ _ _ hs
  refine ⟨exChain 1, exChain 2, [1], some 1.5, s, s, hs, ?_, ?_⟩
  · unfold dcUpdate
    rw [if_neg (by rw [he]; simp), if_neg]
    rw [he]
    simp [exChain, Atoms.positions]
  · rintro ⟨f, hf, hp, -⟩
    have hcut : s.cutoff = some 1.5 := by rw [he]
    rw [hcut] at hf
    obtain ⟨p, h1, hpos⟩ := exChain_phi_pos s hs
    rw [h1, exChain2_phi f hf] at hp
    simp only [Except.ok.injEq, List.cons.injEq, and_true] at hp
    linarith

/-- C43 fails: an update that raised leaves the object claiming to hold results for the structure
it could not evaluate; repeating the call succeeds and returns the values of the earlier one. -/
theorem c43_failed_update_fails :
    ∃ (A B : Atoms) (q : List ℝ) (s s1 s2 : DC), Fresh none A q s ∧
      dcUpdate s B q = (s1, .error .runtimeError) ∧ dcUpdate s1 B q = (s2, .ok ()) ∧
      dcPotential s2 = dcPotential s ∧ ∀ f, ¬ Fresh none B q f := by
  let A : Atoms := exDimer 1
  let B : Atoms := exChain 1
  have hB : B.isCluster = false := by
    simp [B, Atoms.isCluster, Atoms.ranges, exChain, rangeInf]
  obtain ⟨s, hs⟩ := fresh_exists none A [1, 1] (Or.inr (exDimer_cluster 1))
  obtain ⟨-, he⟩ := fresh_eq _ _ _ _ hs
  have hgn := c34_periodic_needs_cutoff B hB
  refine ⟨A, B, [1, 1], s, { s with r := some B.positions, q := some [1, 1], a := some B },
    { s with r := some B.positions, q := some [1, 1], a := some B }, hs, ?_, ?_, rfl, ?_⟩
  · unfold dcUpdate
    have hr : s.r ≠ some B.positions := by
      rw [he]; simp [A, B, exDimer, exChain, Atoms.positions]
    rw [if_neg (by rw [he]; simp), if_pos (Or.inl hr)]
    unfold dcCompute
    have : s.cutoff = none := by rw [he]
    rw [this, hgn]
  · unfold dcUpdate
    simp
  · intro f hf
    rw [fresh_iff] at hf
    unfold dcCompute at hf
    rw [hgn] at hf
    simp at hf

/-! ## C67: the interaction with a cutoff -/

/-- C67: inside the cutoff the interaction is the bare one times a factor between 0 and 1 that
decreases with distance. -/
theorem c67_screening (c d : ℝ) (hc : 0 < c) (hd : 0 < d) :
    ∃ f, coulPot (some c) d = f * coulPot none d ∧ 0 < f ∧ f < 1 ∧
      ∀ d', d < d' → erfc (d' / c) < f := by
  refine ⟨erfc (d / c), by simp [coulPot, div_eq_mul_inv], erfc_pos _, ?_, ?_⟩
  · rw [← erfc_zero]; exact erfc_strictAnti (by positivity)
  · intro d' h; exact erfc_strictAnti (by gcongr)

/-- C67 fails: the interaction is not "smoothly forced to zero at this distance": the energy of two
unit charges jumps when their distance crosses the cutoff. -/
theorem c67_cutoff_jump_fails :
    ∃ E : ℝ → ℝ, (∀ d, 0 < d → ∃ s, Fresh (some 1) (exDimer d) [1, 1] s ∧ dcEnergy s = .ok (E d)) ∧
      ¬ ContinuousAt E 1 := by
  refine ⟨fun d => if d < 1 then coulPot (some 1) d else 0, fun d hd => ?_, ?_⟩
  · obtain ⟨s, hs⟩ := fresh_exists (some 1) (exDimer d) [1, 1] (Or.inl rfl)
    obtain ⟨-, -, -, he⟩ := c43_energy _ _ _ s hs rfl
    exact ⟨s, hs, by rw [he, exDimer_energy 1 d hd]⟩
  · intro hcont
    have h0 : (if (1 : ℝ) < 1 then coulPot (some 1) 1 else 0) = 0 := by simp
    have h1 : Tendsto (fun d : ℝ => if d < 1 then coulPot (some 1) d else 0) (𝓝[<] 1) (𝓝 0) := by
      have := hcont.tendsto.mono_left (nhdsWithin_le_nhds (s := Set.Iio 1))
      simpa using this
    have h2 : Tendsto (coulPot (some 1)) (𝓝[<] (1 : ℝ)) (𝓝 (coulPot (some 1) 1)) :=
      ((coulPot_hasDerivAt (some 1) (by rintro c h; simp at h; rw [← h]; norm_num) 1
        one_ne_zero).continuousAt.tendsto).mono_left nhdsWithin_le_nhds
    have h3 : Tendsto (coulPot (some 1)) (𝓝[<] (1 : ℝ)) (𝓝 0) := by
      refine h1.congr' ?_
      filter_upwards [self_mem_nhdsWithin] with d hd
      rw [if_pos (show d < 1 from hd)]
    have := tendsto_nhds_unique h2 h3
    have hp := erfc_pos (1 / 1)
    simp only [coulPot] at this
    simp at this hp
    linarith

end Hotbit
