import Verif.Lemmas.Atoms
import Verif.Props.Containers
import Mathlib.Tactic.IntervalCases
import Mathlib.Analysis.Real.Pi.Bounds

/-!
# Properties C06–C09: copies, the container marker, container parameters
-/

set_option linter.unusedSimpArgs false

namespace Hotbit

open Real Matrix

/-! ## C06: `extended_copy` -/

/-- The images of the atoms are listed operation after operation: entry `p*N+a` is atom `a` moved
by operation `p` (with the guarded public `transform`). -/
def ListsImages (A : Atoms) (ops : List Op) (out : List (String × Vec)) : Prop :=
  out.length = ops.length * A.atoms.length ∧
  ∀ (p : ℕ) (n : Op) (a : ℕ) (s : String) (r : Vec), ops[p]? = some n → A.atoms[a]? = some (s, r) →
    ∃ x, A.transform r n = .ok x ∧ out[p * A.atoms.length + a]? = some (s, x)

noncomputable def imageOf (A : Atoms) (n : Op) : List (String × Vec) :=
  A.atoms.map fun p => (p.1, A.rawTransform p.2 n)

theorem image_ok (A : Atoms) (n : Op) (h : Legal A n) :
    (A.atoms.mapM fun p => do
      let r ← A.transform p.2 n
      return (p.1, r)) = Except.ok (imageOf A n) := by
  apply mapM_ok_of_forall
  intro p _
  rw [(c05_transform_guard A p.2 n).1 h]
  rfl

theorem checkOp_legal (A : Atoms) (n : Op) (h : Legal A n) : A.checkOp n = .ok () := by
  rw [checkOp_cases, if_pos ((legal_iff A n).2 h)]

theorem checkOp_illegal (A : Atoms) (n : Op) (h : ¬ Legal A n) :
    A.checkOp n = .error .valueError := by
  rw [checkOp_cases, if_neg (fun e => h ((legal_iff A n).1 e))]

theorem extendLoop_some (A : Atoms) (ops : List Op) (l : List (String × Vec))
    (h : ∀ n ∈ ops, Legal A n) :
    extendLoop A ops (some l) = .ok (some (l ++ ops.flatMap (imageOf A))) := by
  induction ops generalizing l with
  | nil => simp [extendLoop]
  | cons n ns ih =>
    have h1 := h n (by simp)
    rw [extendLoop, checkOp_legal A n h1, image_ok A n h1]
    show extendLoop A ns (some (l ++ imageOf A n)) = _
    rw [ih _ (fun m hm => h m (by simp [hm]))]
    simp

theorem extendLoop_bad (A : Atoms) (ops : List Op) (acc : Option (List (String × Vec)))
    (h : ¬ ∀ n ∈ ops, Legal A n) : extendLoop A ops acc = .error .valueError := by
  induction ops generalizing acc with
  | nil => exact absurd (by simp) h
  | cons n ns ih =>
    by_cases hn : Legal A n
    · rw [extendLoop, checkOp_legal A n hn, image_ok A n hn]
      refine ih _ ?_
      intro h'; apply h; intro m hm
      rcases List.mem_cons.1 hm with rfl | hm
      · exact hn
      · exact h' m hm
    · rw [extendLoop, checkOp_illegal A n hn]; rfl

theorem extendLoop_none (A : Atoms) (n : Op) (ops : List Op) (h : ∀ m ∈ n :: ops, Legal A m) :
    extendLoop A (n :: ops) none = .ok (some ((n :: ops).flatMap (imageOf A))) := by
  have h1 := h n (by simp)
  rw [extendLoop, checkOp_legal A n h1, image_ok A n h1]
  show extendLoop A ops (some (imageOf A n)) = _
  rw [extendLoop_some _ _ _ (fun m hm => h m (by simp [hm]))]
  simp

theorem getElem?_flatMap_const {α β : Type} (f : α → List β) (N : ℕ) (hf : ∀ a, (f a).length = N)
    (l : List α) (p a : ℕ) (x : α) (hx : l[p]? = some x) (ha : a < N) :
    (l.flatMap f)[p * N + a]? = (f x)[a]? := by
  induction l generalizing p with
  | nil => simp at hx
  | cons y l ih =>
    rw [List.flatMap_cons]
    cases p with
    | zero =>
      simp at hx; subst hx
      rw [Nat.zero_mul, Nat.zero_add, List.getElem?_append_left (by rw [hf]; exact ha)]
    | succ p =>
      simp at hx
      rw [List.getElem?_append_right (by rw [hf, Nat.succ_mul]; omega), hf]
      have : (p + 1) * N + a - N = p * N + a := by rw [Nat.succ_mul]; omega
      rw [this]
      exact ih p hx

theorem listsImages_flatMap (A : Atoms) (ops : List Op) (h : ∀ n ∈ ops, Legal A n) :
    ListsImages A ops (ops.flatMap (imageOf A)) := by
  have hlen : ∀ n, (imageOf A n).length = A.atoms.length := by intro n; simp [imageOf]
  constructor
  · simp [List.length_flatMap, hlen]
  · intro p n a s r hp ha
    have hn : n ∈ ops := List.mem_of_getElem? hp
    refine ⟨A.rawTransform r n, (c05_transform_guard A r n).1 (h n hn), ?_⟩
    have halt : a < A.atoms.length := by
      by_contra hc
      rw [List.getElem?_eq_none (by omega)] at ha
      cases ha
    rw [getElem?_flatMap_const _ _ hlen ops p a n hp halt]
    simp [imageOf, ha]

/-- C06, explicit list of operations: the images are returned in order iff all operations are
legal, `ValueError` otherwise. -/
theorem c06_list (A : Atoms) (ops : List Op) (hne : ops ≠ []) :
    ((∀ n ∈ ops, Legal A n) → ∃ out, A.extendedCopy (.list ops) = .ok out ∧ ListsImages A ops out) ∧
    ((∃ n ∈ ops, ¬ Legal A n) → A.extendedCopy (.list ops) = .error .valueError) := by
  constructor
  · intro h
    refine ⟨_, ?_, listsImages_flatMap A ops h⟩
    obtain ⟨n, ns, rfl⟩ := List.exists_cons_of_ne_nil hne
    unfold Atoms.extendedCopy requestOps
    simp only [bind, Except.bind]
    rw [extendLoop_none A n ns h]
    rfl
  · rintro ⟨n, hn, hl⟩
    unfold Atoms.extendedCopy requestOps
    simp only [bind, Except.bind]
    rw [extendLoop_bad A ops none (fun h => hl (h n hn))]

/-- What one component of a tuple request asks for, given the lower end of the allowed range. -/
def Asked (lo : Bound) (z : ℤ) : Extent → Prop
  | .span a b => a ≤ z ∧ z ≤ b
  | .count n => match lo with
      | .negInf => 0 ≤ z ∧ z < n
      | .fin l => max l (-n / 2) ≤ z ∧ z < max l (-n / 2) + n
      | .posInf => False
  | .other => False

/-- The component is a positive count or a pair of ints. -/
def Extent.Valid : Extent → Prop
  | .span _ _ => True
  | .count n => 0 < n
  | .other => False

/-- Lexicographic order of operations. -/
def lexLt (n m : Op) : Prop :=
  n 0 < m 0 ∨ (n 0 = m 0 ∧ (n 1 < m 1 ∨ (n 1 = m 1 ∧ n 2 < m 2)))

theorem lo_ne_posInf (A : Atoms) (i : Fin 3) : (A.ranges i).1 ≠ .posInf := by
  unfold Atoms.ranges
  cases A.ctype <;> fin_cases i <;> simp [rangeOf, rangeZero, rangeInf] <;>
    split <;> simp

theorem extentOps_spec (lo : Bound) (hlo : lo ≠ .posInf) (e : Extent) (he : e.Valid) :
    ∃ l, extentOps lo e = .ok (some l) ∧ l.Pairwise (· < ·) ∧ ∀ z, z ∈ l ↔ Asked lo z e := by
  cases e with
  | span a b =>
    refine ⟨_, rfl, arange_sorted _ _, ?_⟩
    intro z; rw [mem_arange]; simp only [Asked]; omega
  | count n =>
    simp only [Extent.Valid] at he
    cases lo with
    | negInf =>
      refine ⟨arange 0 n, ?_, arange_sorted _ _, ?_⟩
      · simp [extentOps, not_le.2 he]
      · intro z; rw [mem_arange]; simp [Asked]
    | fin l =>
      refine ⟨arange (max l (-n / 2)) (max l (-n / 2) + n), ?_, arange_sorted _ _, ?_⟩
      · simp [extentOps, not_le.2 he]
      · intro z; rw [mem_arange]; simp [Asked]
    | posInf => exact absurd rfl hlo
  | other => exact absurd he (by simp [Extent.Valid])

theorem mem_productOps (a b c : List ℤ) (n : Op) :
    n ∈ productOps a b c ↔ n 0 ∈ a ∧ n 1 ∈ b ∧ n 2 ∈ c := by
  simp only [productOps, List.mem_flatMap, List.mem_map]
  constructor
  · rintro ⟨x, hx, y, hy, z, hz, rfl⟩; simp [hx, hy, hz]
  · rintro ⟨h0, h1, h2⟩
    exact ⟨n 0, h0, n 1, h1, n 2, h2, by ext i; fin_cases i <;> rfl⟩

theorem productOps_sorted (a b c : List ℤ) (ha : a.Pairwise (· < ·)) (hb : b.Pairwise (· < ·))
    (hc : c.Pairwise (· < ·)) : (productOps a b c).Pairwise lexLt := by
  unfold productOps
  rw [List.pairwise_flatMap]
  refine ⟨?_, ?_⟩
  · intro x _
    rw [List.pairwise_flatMap]
    refine ⟨?_, ?_⟩
    · intro y _
      rw [List.pairwise_map]
      exact hc.imp (by intro p q h; right; simp [h])
    · refine hb.imp ?_
      intro y1 y2 h p hp q hq
      simp only [List.mem_map] at hp hq
      obtain ⟨_, _, rfl⟩ := hp; obtain ⟨_, _, rfl⟩ := hq
      right; simp [h]
  · refine ha.imp ?_
    intro x1 x2 h p hp q hq
    simp only [List.mem_flatMap, List.mem_map] at hp hq
    obtain ⟨_, _, _, _, rfl⟩ := hp; obtain ⟨_, _, _, _, rfl⟩ := hq
    left; simp [h]

/-- C06, tuple request: there is a duplicate-free, lexicographically ordered list of exactly the
operations asked for, and the call behaves as with that explicit list. -/
theorem c06_tuple (A : Atoms) (e : Fin 3 → Extent) (he : ∀ i, (e i).Valid) :
    ∃ ops : List Op, ops.Pairwise lexLt ∧
      (∀ n, n ∈ ops ↔ ∀ i, Asked (A.ranges i).1 (n i) (e i)) ∧
      A.extendedCopy (.tuple e) = A.extendedCopy (.list ops) := by
  obtain ⟨a, ha, has, ham⟩ := extentOps_spec _ (lo_ne_posInf A 0) (e 0) (he 0)
  obtain ⟨b, hb, hbs, hbm⟩ := extentOps_spec _ (lo_ne_posInf A 1) (e 1) (he 1)
  obtain ⟨c, hc, hcs, hcm⟩ := extentOps_spec _ (lo_ne_posInf A 2) (e 2) (he 2)
  refine ⟨productOps a b c, productOps_sorted a b c has hbs hcs, ?_, ?_⟩
  · intro n
    rw [mem_productOps, ham, hbm, hcm]
    constructor
    · rintro ⟨h0, h1, h2⟩ i; fin_cases i
      exacts [h0, h1, h2]
    · intro h; exact ⟨h 0, h 1, h 2⟩
  · unfold Atoms.extendedCopy requestOps
    simp only [ha, hb, hc]
    rfl

/-- A zero or negative count in the first component is refused with `AssertionError`. -/
theorem c06_bad_count (A : Atoms) (e : Fin 3 → Extent) (n : ℤ) (h : e 0 = .count n) (hn : n ≤ 0) :
    A.extendedCopy (.tuple e) = .error .assertionError := by
  unfold Atoms.extendedCopy requestOps
  simp only [h, extentOps, hn, if_true]
  rfl

/-- Finite ranges of all containers have the form of an interval around zero (`[0,0]`, `[0,1]` or
the angular range), provided the angle describes at least one wedge. -/
theorem finite_lo (A : Atoms) (i : Fin 3) (a b : ℤ) (h : A.ranges i = (.fin a, .fin b))
    (hab : a ≤ b) : -(b - a + 1) / 2 ≤ a ∧ 0 ≤ b ∧ a ≤ 0 ∧ b ≤ -a + 1 := by
  have key : ∀ M : ℤ, rangeOf (angularRange M) = (.fin a, .fin b) →
      -(b - a + 1) / 2 ≤ a ∧ 0 ≤ b ∧ a ≤ 0 ∧ b ≤ -a + 1 := by
    intro M hM
    simp only [rangeOf, angularRange] at hM
    split at hM <;> simp only [Prod.mk.injEq, Bound.fin.injEq] at hM <;> omega
  have kz : rangeZero = (.fin a, .fin b) → -(b - a + 1) / 2 ≤ a ∧ 0 ≤ b ∧ a ≤ 0 ∧ b ≤ -a + 1 := by
    intro h; simp only [rangeZero, Prod.mk.injEq, Bound.fin.injEq] at h
    obtain ⟨rfl, rfl⟩ := h; decide
  have ko : ((.fin 0, .fin 1) : Bound × Bound) = (.fin a, .fin b) →
      -(b - a + 1) / 2 ≤ a ∧ 0 ≤ b ∧ a ≤ 0 ∧ b ≤ -a + 1 := by
    intro h; simp only [Prod.mk.injEq, Bound.fin.injEq] at h
    obtain ⟨rfl, rfl⟩ := h; decide
  have ki : rangeInf = (.fin a, .fin b) → -(b - a + 1) / 2 ≤ a ∧ 0 ≤ b ∧ a ≤ 0 ∧ b ≤ -a + 1 := by
    intro h; simp [rangeInf] at h
  have kif : ∀ c : Bool, (if c then rangeInf else rangeZero) = (.fin a, .fin b) →
      -(b - a + 1) / 2 ≤ a ∧ 0 ≤ b ∧ a ≤ 0 ∧ b ≤ -a + 1 := by
    intro c; cases c
    · simpa using kz
    · simpa using ki
  unfold Atoms.ranges at h
  cases hc : A.ctype <;> simp only [hc] at h <;> fin_cases i <;>
    first | exact key _ h | exact kz h | exact ko h | exact ki h | exact kif _ h

/-- C06: asking for the full count of a finite direction asks for each allowed operation. -/
theorem c06_full_count (A : Atoms) (i : Fin 3) (a b : ℤ) (h : A.ranges i = (.fin a, .fin b))
    (hab : a ≤ b) (z : ℤ) :
    Asked (A.ranges i).1 z (.count (b - a + 1)) ↔ a ≤ z ∧ z ≤ b := by
  have := finite_lo A i a b h hab
  simp only [h, Asked]
  rw [max_eq_left this.1]; omega

/-- C06: no count up to the number of allowed operations is refused. -/
theorem c06_count_legal (A : Atoms) (i : Fin 3) (a b n : ℤ) (h : A.ranges i = (.fin a, .fin b))
    (hab : a ≤ b) (hn : n ≤ b - a + 1) (z : ℤ) (hz : Asked (A.ranges i).1 z (.count n)) :
    a ≤ z ∧ z ≤ b := by
  have := finite_lo A i a b h hab
  simp only [h, Asked] at hz
  omega

/-- C06: a count larger than the number of allowed operations asks for an illegal one. -/
theorem c06_count_too_large (A : Atoms) (i : Fin 3) (a b n : ℤ)
    (h : A.ranges i = (.fin a, .fin b)) (hab : a ≤ b) (hn : b - a + 1 < n) :
    ∃ z, Asked (A.ranges i).1 z (.count n) ∧ ¬ (a ≤ z ∧ z ≤ b) := by
  have := finite_lo A i a b h hab
  refine ⟨max a (-n / 2) + n - 1, ?_, ?_⟩
  · simp only [h, Asked]; omega
  · omega

theorem ranges_simple (A : Atoms)
    (hc : A.ctype ≠ .wedge ∧ A.ctype ≠ .chiralWedge ∧ A.ctype ≠ .wedgeYAxis) (i : Fin 3) :
    A.ranges i = rangeZero ∨ A.ranges i = rangeInf ∨ A.ranges i = (.fin 0, .fin 1) := by
  obtain ⟨h1, h2, h3⟩ := hc
  unfold Atoms.ranges
  cases h : A.ctype <;> rw [h] at h1 h2 h3 <;>
    first
    | exact absurd rfl h1
    | exact absurd rfl h2
    | exact absurd rfl h3
    | (cases hp : A.pbc i <;> simp [hp]; done)
    | (fin_cases i <;> simp)

/-- The "one copy" clause of C06, as stated by the user-facing property. -/
def OneCopyIsOriginal (A : Atoms) : Prop :=
  A.extendedCopy (.tuple fun _ => .count 1) = .ok A.atoms

/-- C06, last clause, proved for the containers without an angular range (for the wedge types see
`c06_one_copy_fails`; missing: those with at least three operations). -/
theorem c06_one_copy_partial (A : Atoms)
    (hc : A.ctype ≠ .wedge ∧ A.ctype ≠ .chiralWedge ∧ A.ctype ≠ .wedgeYAxis)
    : OneCopyIsOriginal A := by
  unfold OneCopyIsOriginal
  have hr : ∀ i, extentOps (A.ranges i).1 (.count 1) = .ok (some [0]) := by
    intro i
    rcases ranges_simple A hc i with h | h | h <;> rw [h] <;> decide
  have h0 : Legal A 0 := by
    intro i
    rcases ranges_simple A hc i with h | h | h <;> rw [h] <;>
      simp [rangeZero, rangeInf, Bound.toEReal]
  have hz : (![0, 0, 0] : Op) = 0 := by ext i; fin_cases i <;> rfl
  unfold Atoms.extendedCopy requestOps
  simp only [hr]
  show (do
    match ← extendLoop A (productOps [0] [0] [0]) none with
      | none => throw Exn.attributeError
      | some l => return l) = _
  have hp : productOps [0] [0] [0] = [0] := by rw [← hz]; rfl
  rw [hp, extendLoop_none A 0 [] (by simpa using h0)]
  simp only [List.flatMap_cons, List.flatMap_nil, List.append_nil]
  show Except.ok (imageOf A 0) = _
  congr 1
  unfold imageOf
  conv_rhs => rw [← List.map_id A.atoms]
  apply List.map_congr_left
  intro p _
  have := c01_identity A p.2 h0
  rw [(c05_transform_guard A p.2 0).1 h0] at this
  injection this with this
  rw [this]; rfl

/-- The last clause of C06 is violated: one copy of a wedge of angle `2π/5` is the image under
operation -1, not the original. -/
theorem c06_one_copy_fails : ¬ OneCopyIsOriginal exWedge5 := by
  unfold OneCopyIsOriginal
  intro h
  obtain ⟨ops, _, hm, he⟩ := c06_tuple exWedge5 (fun _ => .count 1) (by intro i; simp [Extent.Valid])
  have hmem : (![-1, 0, 0] : Op) ∈ ops := by
    rw [hm]
    intro i
    rw [exWedge5_ranges]
    fin_cases i <;> simp [Asked]
  have hall : ∀ n ∈ ops, n = ![-1, 0, 0] := by
    intro n hn
    rw [hm] at hn
    have h0 := hn 0; have h1 := hn 1; have h2 := hn 2
    rw [exWedge5_ranges] at h0 h1 h2
    simp [Asked] at h0 h1 h2
    ext i; fin_cases i <;> simp <;> omega
  have hleg : Legal exWedge5 ![-1, 0, 0] := by rw [← legal_iff, exWedge5_ranges]; decide
  have hne : ops ≠ [] := List.ne_nil_of_mem hmem
  obtain ⟨out, ho, hl, hi⟩ := (c06_list exWedge5 ops hne).1
    (by intro n hn; rw [hall n hn]; exact hleg)
  rw [he, ho] at h
  injection h with h
  obtain ⟨n, ns, rfl⟩ := List.exists_cons_of_ne_nil hne
  have hn : n = ![-1, 0, 0] := hall n (by simp)
  obtain ⟨x, hx, hx2⟩ := hi 0 n 0 "C" ![1, 0, 0] (by simp) (by simp [exWedge5])
  rw [h] at hx2
  rw [hn, (c05_transform_guard _ _ _).1 hleg] at hx
  injection hx with hx
  simp [exWedge5] at hx2
  have h1 := congrFun (hx.trans hx2.symm) 1
  simp [Atoms.rawTransform, Atoms.rawRotation, exWedge5, rotZ, Atoms.wedgeAngle, Atoms.wedgePbcz,
    Matrix.mulVec, dotProduct, Fin.sum_univ_three] at h1
  have hpos : 0 < sin (2 * π / 5) := by
    apply sin_pos_of_pos_of_lt_pi
    · positivity
    · have := pi_pos; linarith
  linarith

/-- The hypotheses are met: a two-fold request of the five-fold wedge is legal and has two images. -/
example : ∃ out, exWedge5.extendedCopy (.list [![0, 0, 0], ![2, 0, 1]]) = .ok out ∧ out.length = 2 := by
  have h : ∀ n ∈ ([![0, 0, 0], ![2, 0, 1]] : List Op), Legal exWedge5 n := by
    intro n hn
    simp at hn
    rcases hn with rfl | rfl <;> rw [← legal_iff, exWedge5_ranges] <;> decide
  obtain ⟨out, h1, h2, _⟩ := (c06_list exWedge5 _ (by simp)).1 h
  exact ⟨out, h1, by simpa [exWedge5] using h2⟩

/-! ## C07: the container marker in the cell -/

theorem magic_ne : magic ≠ 0 := by unfold magic; norm_num

theorem readMagic_mul (cell : Mat) (k : ℤ) (h : cell 0 0 = k * magic) (hk : k ≠ 0) :
    readMagic cell = pyIndex magicList (k - 1) := by
  unfold readMagic
  have hx : cell 0 0 / magic = (k : ℝ) := by rw [h]; field_simp [magic_ne]
  have h1 : (1e-10 : ℝ) < |(k : ℝ)| := by
    have : (1 : ℝ) ≤ |(k : ℝ)| := by exact_mod_cast Int.one_le_abs hk
    norm_num; linarith
  have h2 : pyInt ((k : ℝ) - 1) = k - 1 := by
    have := pyInt_intCast (k - 1)
    push_cast at this; exact this
  simp only [hx, pyRound_intCast, sub_self, abs_zero, h2]
  rw [if_pos ⟨h1, by norm_num⟩]

/-- C07: reading the type from the cell returns the type that was written. -/
theorem c07_roundtrip (c : CType) (hc : c ≠ .bravais) (cell : Mat) :
    readMagic (writeMagic cell c) = .ok c := by
  have h : writeMagic cell c 0 0 = ((magicNumber c : ℤ) : ℝ) * magic := by
    simp [writeMagic, hc, setEntry]
  have hk : (magicNumber c : ℤ) ≠ 0 := by cases c <;> simp [magicNumber] at hc ⊢
  rw [readMagic_mul _ _ h hk]
  cases c <;> first | exact absurd rfl hc | rfl

/-- C07 for newly created atoms of any non-Bravais container. -/
theorem c07_construct (c : CType) (hc : c ≠ .bravais) (l : List (String × Vec)) (cell : Mat)
    (pbc : Fin 3 → Bool) : readMagic (construct c l cell pbc).cell = .ok c :=
  c07_roundtrip c hc cell

/-- C07: a cell whose first entry is away from all multiples of the marker is read as Bravais. -/
theorem c07_bravais (cell : Mat) (h : ∀ k : ℤ, k ≠ 0 → 1e-10 * |magic| ≤ |cell 0 0 - k * magic|) :
    readMagic cell = .ok .bravais := by
  unfold readMagic
  have hm : 0 < |magic| := abs_pos.2 magic_ne
  rw [if_neg]
  rintro ⟨h1, h2⟩
  set x := cell 0 0 / magic with hx
  have hc : cell 0 0 = x * magic := by rw [hx]; field_simp [magic_ne]
  have hk : pyRound x ≠ 0 := by
    intro h0
    rw [h0] at h2
    simp at h2
    linarith
  have := h (pyRound x) hk
  rw [hc, ← sub_mul, abs_mul, abs_sub_comm] at this
  have := le_of_mul_le_mul_right this hm
  linarith

/-- A 4 Å cell is read as Bravais: it is not close to a multiple of the marker. -/
example : readMagic !![4, 0, 0; 0, 4, 0; 0, 0, 4] = .ok .bravais := by
  apply c07_bravais
  intro k _
  have hm : |magic| = 0.0123454321 := by unfold magic; rw [abs_of_neg] <;> norm_num
  have h4 : (4 : ℝ) - k * magic = (40000000000 + 123454321 * k : ℤ) / 10 ^ 10 := by
    unfold magic; push_cast; norm_num; ring
  have hk : (40000000000 + 123454321 * k : ℤ) ≠ 0 := by omega
  have h5 : (1 : ℝ) ≤ |((40000000000 + 123454321 * k : ℤ) : ℝ)| := by
    exact_mod_cast Int.one_le_abs hk
  simp only [Matrix.of_apply, Matrix.cons_val_zero, Matrix.cons_val]
  rw [h4, abs_div, hm, le_div_iff₀ (by positivity)]
  rw [abs_of_pos (by positivity : (0:ℝ) < 10 ^ 10)]
  norm_num at h5 ⊢
  linarith

/-- The type survives: what a plain `ase.Atoms` copy of the object is turned into by the
calculator has the original container type. -/
theorem c07_fromAse (c : CType) (hc : c ≠ .bravais) (l : List (String × Vec)) (cell : Mat)
    (pbc : Fin 3 → Bool) : ∃ B, fromAse l (construct c l cell pbc).cell (construct c l cell pbc).pbc
      = .ok B ∧ B.ctype = c := by
  unfold fromAse
  rw [c07_construct c hc]
  exact ⟨_, rfl, rfl⟩

/-! ## C62: plain cells are not mistaken for containers -/

/-- C62 is violated: an orthorhombic cell of edge 12.3454321 Å cannot be used, reading its type
raises `IndexError`. -/
theorem c62_bravais_cell_fails (cell : Mat) (h : cell 0 0 = 12.3454321) :
    readMagic cell = .error .indexError := by
  have : cell 0 0 = ((-1000 : ℤ) : ℝ) * magic := by rw [h]; unfold magic; norm_num
  rw [readMagic_mul cell (-1000) this (by norm_num)]
  rfl

/-- C62 is violated: a cell edge of 0.0123454321 Å is taken for the TwistAndTurn container. -/
theorem c62_bravais_cell_misread (cell : Mat) (h : cell 0 0 = 0.0123454321) :
    readMagic cell = .ok .twistAndTurn := by
  have : cell 0 0 = ((-1 : ℤ) : ℝ) * magic := by rw [h]; unfold magic; norm_num
  rw [readMagic_mul cell (-1) this (by norm_num)]
  rfl

/-- What the code does for every non-zero multiple `k` of the marker: types for `k = 1..9` and
(shifted by two) for `k = -8..-1`, `IndexError` for all others. -/
theorem c62_all_multiples (cell : Mat) (k : ℤ) (hk : k ≠ 0) (h : cell 0 0 = k * magic) :
    (∃ c, readMagic cell = .ok c) ↔ -8 ≤ k ∧ k ≤ 9 := by
  rw [readMagic_mul cell k h hk]
  have hl : magicList.length = 9 := rfl
  constructor
  · rintro ⟨c, hc⟩
    by_contra hcon
    rcases (by omega : k ≤ -9 ∨ 10 ≤ k) with h1 | h1
    · have e1 : (k - 1 < 0) := by omega
      have e2 : (k - 1 + ((9 : ℕ) : ℤ) < 0) := by omega
      simp only [pyIndex, hl, if_pos e1, if_pos e2] at hc
      cases hc
    · have e1 : ¬ (k - 1 < 0) := by omega
      have e3 : magicList[(k - 1).toNat]? = none := by
        apply List.getElem?_eq_none; rw [hl]; omega
      simp only [pyIndex, hl, if_neg e1, e3] at hc
      cases hc
  · rintro ⟨h1, h2⟩
    interval_cases k <;> first | exact absurd rfl hk | exact ⟨_, rfl⟩

/-! ## C61: creating atoms keeps the lattice vectors -/

/-- The user-facing statement: creating the object with the given cell makes operation `(1,0,0)`
the translation by the first lattice vector. -/
def KeepsFirstVector (c : CType) (cell : Mat) : Prop :=
  ∀ l pbc r, (construct c l cell pbc).rawTransform r ![1, 0, 0] = r + cell 0

/-- C61 holds for Bravais lattices. -/
theorem c61_bravais (cell : Mat) : KeepsFirstVector .bravais cell := by
  intro l pbc r
  ext i; simp [construct, writeMagic, Atoms.rawTransform]

/-- C61 holds for a Slab exactly when the x-component of the first vector happens to be the marker
value -0.0617271605. -/
theorem c61_slab_iff (cell : Mat) : KeepsFirstVector .slab cell ↔ cell 0 0 = 5 * magic := by
  constructor
  · intro h
    have := congrFun (h [] (fun _ => true) 0) 0
    simp [construct, writeMagic, Atoms.rawTransform, slabTransform, setEntry, magicNumber] at this
    exact this.symm
  · intro h l pbc r
    ext i
    simp only [construct, writeMagic, Atoms.rawTransform, slabTransform, magicNumber]
    fin_cases i <;> simp [setEntry, h]

/-- C61 is violated for Slab: the x-component of the first lattice vector is overwritten by the
type marker, so with a 4 Å lattice the translation is wrong. -/
theorem c61_slab_fails : ¬ KeepsFirstVector .slab !![4, 0, 0; 0, 4, 0; 0, 0, 10] := by
  rw [c61_slab_iff]
  simp [magic]; norm_num

/-! ## C08: container parameters -/

/-- The value `get` should return after `set` of the number `v`. -/
noncomputable def expected (k : Key) (v : ℝ) : Val :=
  open Classical in
  match k with
  | .pbcz | .pbc => .bool (decide (v ≠ 0))
  | .physical => .bool (decide (pyRound v ≠ 0))
  | .mode => .int (pyInt v)
  | _ => .real v

theorem par_inj : ∀ (c : CType) (k k' : Key) (p : Fin 3 × Fin 3),
    par c k = some p → par c k' = some p → k = k' := by
  intro c k k' p
  cases c <;> cases k <;> simp only [par, reduceCtorEq, false_implies, Option.some.injEq] <;>
    rintro rfl <;> cases k' <;> simp [par]

theorem par_ne_zero : ∀ (c : CType) (k : Key) (p : Fin 3 × Fin 3),
    par c k = some p → ¬ (p.1 = 0 ∧ p.2 = 0) := by
  intro c k p
  cases c <;> cases k <;> simp only [par, reduceCtorEq, false_implies, Option.some.injEq] <;>
    rintro rfl <;> simp

theorem setPar_cases (A A' : Atoms) (k : Key) (v : ℝ) (h : A.setPar k v = .ok A') :
    A'.ctype = A.ctype ∧ A'.atoms = A.atoms ∧ A'.slabX = A.slabX ∧
    ((A.ctype = .wedge ∧ k = .pbcz ∧ A'.cell = A.cell ∧
        A'.pbc = ![true, false, open Classical in decide (v ≠ 0)]) ∨
     (A.ctype = .wedgeYAxis ∧ k = .pbc ∧ A'.cell = A.cell ∧
        A'.pbc = ![true, open Classical in decide (v ≠ 0), false]) ∨
     (¬ (A.ctype = .wedge ∧ k = .pbcz) ∧ ¬ (A.ctype = .wedgeYAxis ∧ k = .pbc) ∧
      ∃ p, par A.ctype k = some p ∧ A'.cell = setEntry A.cell p.1 p.2 v ∧ A'.pbc = A.pbc)) := by
  unfold Atoms.setPar at h
  split_ifs at h with h1 h2
  · injection h with h; subst h
    exact ⟨rfl, rfl, rfl, Or.inl ⟨h1.1, h1.2, rfl, rfl⟩⟩
  · injection h with h; subst h
    exact ⟨rfl, rfl, rfl, Or.inr (Or.inl ⟨h2.1, h2.2, rfl, rfl⟩)⟩
  · split at h
    · cases h
    · rename_i i j hp
      injection h with h; subst h
      exact ⟨rfl, rfl, rfl, Or.inr (Or.inr ⟨h1, h2, _, hp, rfl, rfl⟩)⟩

/-- C08: after a successful set, the parameter reads back as the value (for the TwistAndTurn radius
only non-zero values are stored literally). -/
theorem c08_get_set (A A' : Atoms) (k : Key) (v : ℝ) (h : A.setPar k v = .ok A')
    (hR : k = .R → 1e-16 ≤ |v|) : A'.getPar k = .ok (expected k v) := by
  obtain ⟨hc, _, _, h⟩ := setPar_cases A A' k v h
  rcases h with ⟨h1, rfl, _, hp⟩ | ⟨h1, rfl, _, hp⟩ | ⟨n1, n2, p, hp, hcell, _⟩
  · simp [Atoms.getPar, hc, h1, par, hp, expected]
  · simp [Atoms.getPar, hc, h1, par, hp, expected]
  · have hpp : A'.cell p.1 p.2 = v := by rw [hcell, setEntry_same]
    unfold Atoms.getPar
    rw [hc, hp]
    simp only [if_neg n1, if_neg n2, hpp]
    by_cases hk : k = .R
    · have hp' := hp
      subst hk
      have hct : A.ctype = .twistAndTurn := by
        revert hp; cases A.ctype <;> simp [par]
      rw [hct] at hp'; simp [par] at hp'; subst hp'
      have : A'.tatR = v := by
        simp only [Atoms.tatR]
        simp only at hpp
        rw [hpp, if_neg (not_lt.2 (hR rfl))]
      simp [hct, this, expected]
    · cases k <;> simp [expected] at hk n1 n2 ⊢
      · revert hp n1; cases A.ctype <;> simp [par]
      · revert hp n2; cases A.ctype <;> simp [par]

/-- C08: a set changes no other parameter. -/
theorem c08_other (A A' : Atoms) (k k' : Key) (v : ℝ) (h : A.setPar k v = .ok A') (hk : k' ≠ k) :
    A'.getPar k' = A.getPar k' := by
  obtain ⟨hc, hat, _, h⟩ := setPar_cases A A' k v h
  have hpos : A'.positions = A.positions := by simp [Atoms.positions, hat]
  rcases h with ⟨h1, rfl, hcell, hp⟩ | ⟨h1, rfl, hcell, hp⟩ | ⟨n1, n2, p, hp, hcell, hpbc⟩
  · have : A'.tatR = A.tatR := by simp [Atoms.tatR, hcell, hpos]
    unfold Atoms.getPar
    rw [hc, hcell, h1, this]
    simp [hk]
  · have : A'.tatR = A.tatR := by simp [Atoms.tatR, hcell, hpos]
    unfold Atoms.getPar
    rw [hc, hcell, h1, this]
    simp [hk]
  · unfold Atoms.getPar
    rw [hc, hpbc]
    cases hq : par A.ctype k' with
    | none => rfl
    | some q =>
      have hne : ¬ (q.1 = p.1 ∧ q.2 = p.2) := by
        rintro ⟨e1, e2⟩
        have : q = p := Prod.ext e1 e2
        subst this
        exact hk (par_inj _ _ _ _ hq hp)
      have hcq : A'.cell q.1 q.2 = A.cell q.1 q.2 := by
        rw [hcell, setEntry_other _ _ _ _ _ _ hne]
      have htat : A.ctype = .twistAndTurn ∧ k' = .R → A'.tatR = A.tatR := by
        rintro ⟨e1, rfl⟩
        rw [e1] at hq; simp [par] at hq; subst hq
        simp only [Atoms.tatR, hpos]
        simp only at hcq
        rw [hcq]
      simp only [hcq]
      by_cases ht : A.ctype = .twistAndTurn ∧ k' = .R
      · simp only [if_pos ht, htat ht]
      · simp only [if_neg ht]

/-- C08: a set never touches the type marker, the atoms or the type. -/
theorem c08_marker (A A' : Atoms) (k : Key) (v : ℝ) (h : A.setPar k v = .ok A') :
    A'.cell 0 0 = A.cell 0 0 ∧ A'.atoms = A.atoms ∧ A'.ctype = A.ctype := by
  obtain ⟨hc, hat, _, h⟩ := setPar_cases A A' k v h
  refine ⟨?_, hat, hc⟩
  rcases h with ⟨_, _, hcell, _⟩ | ⟨_, _, hcell, _⟩ | ⟨_, _, p, hp, hcell, _⟩
  · rw [hcell]
  · rw [hcell]
  · rw [hcell, setEntry_other]
    intro h
    exact par_ne_zero _ _ _ hp ⟨h.1.symm, h.2.symm⟩

/-- Setting the height of a wedge is such a case. -/
example : ∃ A', exWedge5.setPar .height 7 = .ok A' ∧ A'.getPar .height = .ok (.real 7) ∧
    A'.getPar .angle = exWedge5.getPar .angle := by
  refine ⟨_, rfl, ?_, ?_⟩
  · exact c08_get_set exWedge5 _ .height 7 rfl (by simp)
  · exact c08_other exWedge5 _ .height .angle 7 rfl (by simp)

/-- `Wedge.set(M=M)` for `M ≥ 2` (and below the numerical limit) makes a physical wedge of angle
`2π/M` and changes nothing else. -/
theorem c08_wedge_set_M (A : Atoms) (M : ℤ) (hM : 2 ≤ M) (hM2 : (M : ℝ) ≤ 2 * π * 10 ^ 6) :
    ∃ A', wedgeSet A { M := some M } = (A', none) ∧ A'.wedgeAngle = 2 * π / M ∧
      A'.wedgeHeight = A.wedgeHeight ∧ A'.atoms = A.atoms ∧ A'.pbc = A.pbc ∧
      A'.ctype = A.ctype ∧ A'.cell 0 0 = A.cell 0 0 ∧ A'.cell 1 1 = 1 := by
  have hMR : (2 : ℝ) ≤ M := by exact_mod_cast hM
  have hpi := pi_pos
  have h1 : ¬ (2 * π / (M : ℝ) < 1e-6) := by
    rw [not_lt, le_div_iff₀ (by linarith)]; norm_num at hM2 ⊢; linarith
  have h2 : ¬ (2 * π / (M : ℝ) > π) := by
    rw [gt_iff_lt, not_lt, div_le_iff₀ (by linarith)]; nlinarith
  have h3 : (M : ℝ) - 2 * π / (2 * π / M) = 0 := by
    field_simp; ring
  have hM0 : M ≠ 0 := by omega
  have ha : ∀ B : Atoms, (wedgeWrite (wedgeWrite B 2 0 (2 * π / M)) 1 1 (boolFloat true)).wedgeAngle
      = 2 * π / M := by
    intro B; simp [Atoms.wedgeAngle, wedgeWrite, setEntry]
  refine ⟨wedgeWrite (wedgeWrite A 2 0 (2 * π / M)) 1 1 (boolFloat true), ?_, ha A, ?_, rfl, rfl,
    rfl, ?_, ?_⟩
  · simp only [wedgeSet, wedgeSetAngle, wedgeStep, wedgeCheck, wedgeSetHeight, Option.isSome_none, Option.isSome_some,
      if_neg hM0, ha, h1, h2, h3, abs_zero, or_true, if_true, false_and, if_false,
      Bool.false_eq_true]
    norm_num
  · simp [Atoms.wedgeHeight, wedgeWrite, setEntry]
  · simp [wedgeWrite, setEntry]
  · simp [wedgeWrite, setEntry, boolFloat]

/-- Whenever `Wedge.set` with an angle or `M` returns normally, the stored angle is acceptable and,
if declared physical, an integer fraction of the full turn up to 1e-12. -/
theorem c08_wedge_set_ok (A A' : Atoms) (a : WedgeArgs) (ha : a.angle.isSome ∨ a.M.isSome)
    (h : wedgeSet A a = (A', none)) :
    1e-6 ≤ A'.wedgeAngle ∧ A'.wedgeAngle ≤ π ∧
      (a.physical = true → ∃ M : ℤ, |(M : ℝ) - 2 * π / A'.wedgeAngle| ≤ 1e-12) := by
  -- height and pbc steps do not touch the angle
  have hstep : ∀ B : Atoms, (wedgeSetHeight B a).wedgeAngle = B.wedgeAngle := by
    intro B
    unfold wedgeSetHeight
    cases a.height <;> simp [Atoms.wedgeAngle, wedgeWrite, setEntry]
    split <;> rfl
  have hang : ∀ B : Atoms, wedgeSetAngle A a = (B, none) →
      1e-6 ≤ B.wedgeAngle ∧ B.wedgeAngle ≤ π ∧
      (a.physical = true → ∃ M : ℤ, |(M : ℝ) - 2 * π / B.wedgeAngle| ≤ 1e-12) := by
    intro B hB
    unfold wedgeSetAngle at hB
    split_ifs at hB with hc
    · simp at hB
    · cases hst : wedgeStep A a with
      | error e => rw [hst] at hB; simp at hB
      | ok q =>
        obtain ⟨M, A1⟩ := q
        rw [hst] at hB
        simp only at hB
        generalize hA2 : wedgeWrite A1 1 1 (boolFloat a.physical) = A2 at hB
        have hphys : a.physical = true → pyRound (A2.cell 1 1) ≠ 0 := by
          intro hp
          have : A2.cell 1 1 = ((1 : ℤ) : ℝ) := by
            rw [← hA2]; simp [wedgeWrite, setEntry, boolFloat, hp]
          rw [this, pyRound_intCast]; decide
        have fin : ∀ C : Atoms, C.wedgeAngle = A2.wedgeAngle → ¬ A2.wedgeAngle < 1e-6 →
            ¬ A2.wedgeAngle > π →
            ¬ (|(M : ℝ) - 2 * π / A2.wedgeAngle| > 1e-12 ∧ pyRound (A2.cell 1 1) ≠ 0) →
            1e-6 ≤ C.wedgeAngle ∧ C.wedgeAngle ≤ π ∧
            (a.physical = true → ∃ M : ℤ, |(M : ℝ) - 2 * π / C.wedgeAngle| ≤ 1e-12) := by
          intro C hC g1 g2 g3
          rw [hC]
          refine ⟨not_lt.1 g1, not_lt.1 g2, fun hp => ⟨M, ?_⟩⟩
          by_contra hcon
          exact g3 ⟨not_le.1 hcon, hphys hp⟩
        unfold wedgeCheck at hB
        split_ifs at hB with g1 g2 g3 g4 g5
        · simp at hB
        · simp at hB
        · simp at hB
        · simp at hB
        · split at hB
          · simp at hB
          · simp only [Prod.mk.injEq, and_true] at hB
            rw [← hB]
            exact fin _ rfl g1 g2 g3
        · simp only [Prod.mk.injEq, and_true] at hB
          rw [← hB]
          exact fin _ rfl g1 g2 g3
  unfold wedgeSet at h
  simp only [if_pos ha] at h
  cases hA : wedgeSetAngle A a with
  | mk A1 e =>
    rw [hA] at h
    cases e with
    | some e => simp at h
    | none =>
      have := hang A1 hA
      simp only at h
      have hA' : A'.wedgeAngle = A1.wedgeAngle := by
        rw [← hstep A1]
        cases hb : a.pbcz with
        | none => rw [hb] at h; simp only [Prod.mk.injEq, and_true] at h; rw [← h]
        | some b => rw [hb] at h; simp only [Prod.mk.injEq, and_true] at h; rw [← h]; rfl
      rw [hA']; exact this

/-- The last clause of C08 as a user would state it: a call that raises changes nothing. -/
def SetIsAtomic (A : Atoms) (a : WedgeArgs) : Prop :=
  ∀ A' e, wedgeSet A a = (A', some e) → A' = A

/-- C08 atomicity is violated: `set(angle=4)` raises `AssertionError` and yet leaves the angle at 4,
so a later calculation would use it. -/
theorem c08_atomic_fails : wedgeSet exWedge5 { angle := some 4 } =
      ((wedgeSet exWedge5 { angle := some 4 }).1, some .assertionError) ∧
    (wedgeSet exWedge5 { angle := some 4 }).1.wedgeAngle = 4 ∧
    ¬ SetIsAtomic exWedge5 { angle := some 4 } := by
  have h4 : (4 : ℝ) > π := by have := pi_lt_d2; norm_num at this ⊢; linarith
  have ha : ∀ B : Atoms, (wedgeWrite (wedgeWrite B 2 0 4) 1 1 (boolFloat true)).wedgeAngle = 4 := by
    intro B; simp [Atoms.wedgeAngle, wedgeWrite, setEntry]
  have hset : wedgeSet exWedge5 { angle := some 4 } =
      (wedgeWrite (wedgeWrite exWedge5 2 0 4) 1 1 (boolFloat true), some .assertionError) := by
    simp only [wedgeSet, wedgeSetAngle, wedgeStep, wedgeCheck, Option.isSome_none, Option.isSome_some, true_or, if_true,
      and_false, if_false, Bool.false_eq_true, ha, if_pos h4,
      if_neg (by norm_num : ¬ ((4 : ℝ) < 1e-6)), if_neg (by norm_num : ¬ ((4 : ℝ) = 0))]
  refine ⟨by rw [hset], by rw [hset]; exact ha _, ?_⟩
  intro hat
  have := hat _ _ hset
  have h2 := ha exWedge5
  rw [this] at h2
  have : exWedge5.wedgeAngle = 2 * π / 5 := by simp [Atoms.wedgeAngle, exWedge5]
  rw [this] at h2
  linarith

/-- C08 atomicity, the proved part: calls without an angle or `M`, and calls with both. -/
theorem c08_atomic_partial (A : Atoms) (a : WedgeArgs)
    (h : (a.angle = none ∧ a.M = none) ∨ (a.angle.isSome ∧ a.M.isSome)) : SetIsAtomic A a := by
  intro A' e he
  unfold wedgeSet at he
  rcases h with ⟨h1, h2⟩ | h
  · simp only [h1, h2, Option.isSome_none, Bool.false_eq_true, or_self, if_false] at he
    cases hb : a.pbcz <;> rw [hb] at he <;> simp at he
  · rw [if_pos (Or.inl h.1)] at he
    unfold wedgeSetAngle at he
    rw [if_pos h] at he
    simp only [Prod.mk.injEq] at he
    exact he.1.symm

/-! ## C09: copies -/

/-- Objects obtained by creating atoms and then changing parameters, positions and (for the wedges)
periodicity through the container interface, plus the Bravais setters of the cell and pbc. -/
inductive Reachable : Atoms → Prop
  | create (c l cell pbc) : Reachable (construct c l cell pbc)
  | setPar {A A'} (k v) : Reachable A → A.setPar k v = .ok A' → Reachable A'
  | setAtoms {A} (l) : Reachable A → Reachable { A with atoms := l }
  | setCell {A} (cell pbc) : Reachable A → A.ctype = .bravais →
      Reachable { A with cell := cell, pbc := pbc }
  | wedgeSet {A} (a) : Reachable A → A.ctype = .wedge → Reachable (wedgeSet A a).1
  | spherePbc {A} : Reachable A → A.ctype = .sphere →
      Reachable { A with pbc := ![true, true, false] }   -- `sphere.py:112`
  | slabX {A} (x) : Reachable A → A.ctype = .slab → Reachable { A with slabX := x }

/-- Same container type, parameters, periodicity, and hence ranges and operations. -/
def SameContainer (A B : Atoms) : Prop :=
  A.ctype = B.ctype ∧ A.cell = B.cell ∧ A.pbc = B.pbc ∧ A.ranges = B.ranges ∧
    ∀ r n, A.transform r n = B.transform r n

/-- The marker is in place and `pbc` is one the constructor would keep. -/
def CopyInv (A : Atoms) : Prop :=
  (A.ctype ≠ .bravais → A.cell 0 0 = magicNumber A.ctype * magic) ∧
  (A.ctype ≠ .wedgeYAxis → ctorPbc A.ctype A.pbc = A.pbc) ∧
  (A.ctype ≠ .slab → A.slabX = fun _ => 0)

theorem wedgeWrite_inv (A : Atoms) (i j : Fin 3) (v : ℝ) (h : CopyInv A) (hij : ¬ (0 = i ∧ 0 = j)) :
    CopyInv (wedgeWrite A i j v) := by
  refine ⟨?_, h.2.1, h.2.2⟩
  intro hc
  exact (setEntry_other _ _ _ _ _ _ hij).trans (h.1 hc)

theorem wedgeSetAngle_inv (A : Atoms) (a : WedgeArgs) (h : CopyInv A) :
    CopyInv (wedgeSetAngle A a).1 ∧ (wedgeSetAngle A a).1.ctype = A.ctype := by
  unfold wedgeSetAngle
  split_ifs with hc
  · exact ⟨h, rfl⟩
  · cases hst : wedgeStep A a with
    | error e => exact ⟨h, rfl⟩
    | ok q =>
      obtain ⟨M, A1⟩ := q
      have h1 : CopyInv A1 ∧ A1.ctype = A.ctype := by
        unfold wedgeStep at hst
        split at hst
        · split_ifs at hst
          injection hst with hst
          simp only [Prod.mk.injEq] at hst
          rw [← hst.2]; exact ⟨wedgeWrite_inv _ _ _ _ h (by decide), rfl⟩
        · split_ifs at hst
          injection hst with hst
          simp only [Prod.mk.injEq] at hst
          rw [← hst.2]; exact ⟨wedgeWrite_inv _ _ _ _ h (by decide), rfl⟩
        · injection hst with hst
          simp only [Prod.mk.injEq] at hst
          rw [← hst.2]; exact ⟨h, rfl⟩
      have h2 := wedgeWrite_inv A1 1 1 (boolFloat a.physical) h1.1 (by decide)
      simp only
      unfold wedgeCheck
      split_ifs
      · exact ⟨h2, h1.2⟩
      · exact ⟨h2, h1.2⟩
      · exact ⟨h2, h1.2⟩
      · exact ⟨h2, h1.2⟩
      · split
        · exact ⟨h2, h1.2⟩
        · exact ⟨h2, h1.2⟩
      · exact ⟨h2, h1.2⟩

theorem wedgeSet_inv (A : Atoms) (a : WedgeArgs) (h : CopyInv A) (hw : A.ctype = .wedge) :
    CopyInv (wedgeSet A a).1 := by
  have hh : ∀ B : Atoms, CopyInv B → CopyInv (wedgeSetHeight B a) ∧
      (wedgeSetHeight B a).ctype = B.ctype := by
    intro B hB
    unfold wedgeSetHeight
    cases a.height with
    | none => exact ⟨hB, rfl⟩
    | some x =>
      cases a.scaleAtoms
      · exact ⟨wedgeWrite_inv _ _ _ _ hB (by decide), rfl⟩
      · exact ⟨wedgeWrite_inv _ _ _ _ (by exact hB) (by decide), rfl⟩
  have fin : ∀ B : Atoms, CopyInv B → B.ctype = .wedge → CopyInv (
      (match a.pbcz with
      | none => ((wedgeSetHeight B a, none) : Eff)
      | some b => ({ wedgeSetHeight B a with pbc := ![true, false, b] }, none)).1) := by
    intro B hB hBw
    obtain ⟨k1, k2⟩ := hh B hB
    cases a.pbcz with
    | none => exact k1
    | some b =>
      refine ⟨k1.1, ?_, k1.2.2⟩
      intro _
      show ctorPbc (wedgeSetHeight B a).ctype _ = _
      rw [k2, hBw]; rfl
  unfold wedgeSet
  by_cases hc : a.angle.isSome ∨ a.M.isSome
  · simp only [if_pos hc]
    have hk := wedgeSetAngle_inv A a h
    cases hA : wedgeSetAngle A a with
    | mk A1 e =>
      rw [hA] at hk
      cases e with
      | some e => exact hk.1
      | none => exact fin A1 hk.1 (hk.2.trans hw)
  · simp only [if_neg hc]
    exact fin A h hw

theorem reachable_inv {A : Atoms} (h : Reachable A) : CopyInv A := by
  induction h with
  | create c l cell pbc =>
    refine ⟨?_, ?_, fun _ => rfl⟩
    · intro hc
      simp only [construct] at hc
      simp [construct, writeMagic, setEntry, hc]
    · intro _
      cases c <;> simp [construct, ctorPbc]
  | @setPar A A' k v _ hs ih =>
    obtain ⟨hc, _, hx, h⟩ := setPar_cases A A' k v hs
    have hm := (c08_marker A A' k v hs).1
    refine ⟨?_, ?_, ?_⟩
    · rw [hc, hm]; exact ih.1
    · rw [hc]
      rcases h with ⟨h1, _, _, hp⟩ | ⟨h1, _, _, hp⟩ | ⟨_, _, p, _, _, hp⟩
      · rw [h1, hp]; intro _; rfl
      · rw [h1]; intro h; exact absurd rfl h
      · rw [hp]; exact ih.2.1
    · rw [hc, hx]; exact ih.2.2
  | setAtoms l _ ih => exact ih
  | setCell cell pbc _ hb ih =>
    refine ⟨fun h => absurd hb h, ?_, ih.2.2⟩
    intro _
    show ctorPbc _ pbc = pbc
    simp only [hb, ctorPbc]
  | wedgeSet a _ hw ih => exact wedgeSet_inv _ a ih hw
  | spherePbc _ hs ih =>
    refine ⟨ih.1, ?_, ih.2.2⟩
    intro _
    simp only [hs, ctorPbc]
  | slabX x _ hs ih => exact ⟨ih.1, ih.2.1, fun h => absurd hs h⟩

/-- C09 for every reachable object whose container is neither WedgeYAxis nor Slab: the copy is equal
in every respect. -/
theorem c09_copy_eq (A : Atoms) (h : Reachable A) (h1 : A.ctype ≠ .wedgeYAxis)
    (h2 : A.ctype ≠ .slab) : A.copy = A := by
  obtain ⟨i1, i2, i3⟩ := reachable_inv h
  have hcell : writeMagic A.cell A.ctype = A.cell := by
    unfold writeMagic
    split_ifs with hb
    · rfl
    · ext i j
      by_cases hij : i = 0 ∧ j = 0
      · rw [hij.1, hij.2, setEntry_same, i1 hb]
      · exact setEntry_other _ _ _ _ _ _ hij
  cases A with
  | mk ct at' cell pbc x =>
    simp only [Atoms.copy, construct] at *
    rw [hcell, i2 h1, i3 h2]

/-- C09, the proved part of the property as stated (missing: WedgeYAxis with y-periodicity and Slab
with a glide, where it is false). -/
theorem c09_copy_partial (A : Atoms) (h : Reachable A) (h1 : A.ctype ≠ .wedgeYAxis)
    (h2 : A.ctype ≠ .slab) : SameContainer A.copy A := by
  rw [c09_copy_eq A h h1 h2]
  exact ⟨rfl, rfl, rfl, rfl, fun _ _ => rfl⟩

/-- A wedge around the y axis, periodic in y. -/
noncomputable def exWedgeY : Atoms :=
  { construct .wedgeYAxis [("C", ![1, 0, 0])] !![0, 0, 0; 3, 0, 0; 2 * π / (5 : ℤ), 0, 0]
      (fun _ => false) with pbc := ![true, true, false] }

theorem exWedgeY_reachable : Reachable exWedgeY := by
  refine Reachable.setPar (A := construct .wedgeYAxis [("C", ![1, 0, 0])]
    !![0, 0, 0; 3, 0, 0; 2 * π / (5 : ℤ), 0, 0] (fun _ => false)) .pbc 1
    (Reachable.create _ _ _ _) ?_
  simp [Atoms.setPar, construct, exWedgeY]

/-- C09 is violated by WedgeYAxis: the copy loses the periodicity in y. -/
theorem c09_wedgeY_fails : Reachable exWedgeY ∧ ¬ SameContainer exWedgeY.copy exWedgeY := by
  refine ⟨exWedgeY_reachable, ?_⟩
  intro h
  have := congrFun h.2.2.1 1
  simp [exWedgeY, Atoms.copy, construct, ctorPbc] at this

/-- ... so an operation legal for the original is refused by its copy. -/
theorem c09_wedgeY_operation : Legal exWedgeY ![0, 1, 0] ∧ ¬ Legal exWedgeY.copy ![0, 1, 0] := by
  have hw : wedgeM exWedgeY.wedgeAngle = 5 := by
    have := wedgeM_two_pi_div (M := 5) (by norm_num)
    simpa [Atoms.wedgeAngle, exWedgeY, construct, writeMagic, setEntry] using this
  have hw2 : wedgeM exWedgeY.copy.wedgeAngle = 5 := by
    have := wedgeM_two_pi_div (M := 5) (by norm_num)
    simpa [Atoms.wedgeAngle, exWedgeY, Atoms.copy, construct, writeMagic, setEntry] using this
  have r1 : exWedgeY.ranges = ![(.fin (-2), .fin 2), (.negInf, .posInf), (.fin 0, .fin 0)] := by
    have hc : exWedgeY.ctype = .wedgeYAxis := rfl
    simp only [Atoms.ranges, hc, hw]
    simp [angularRange, rangeOf, rangeZero, rangeInf, Atoms.wedgeYPbc, exWedgeY]
  have r2 : exWedgeY.copy.ranges = ![(.fin (-2), .fin 2), (.fin 0, .fin 0), (.fin 0, .fin 0)] := by
    have hc : exWedgeY.copy.ctype = .wedgeYAxis := rfl
    simp only [Atoms.ranges, hc, hw2]
    simp [angularRange, rangeOf, rangeZero, rangeInf, Atoms.wedgeYPbc, exWedgeY, Atoms.copy,
      construct, ctorPbc]
  constructor
  · rw [← legal_iff, r1]; decide
  · rw [← legal_iff, r2]; decide

/-- C09 is violated by Slab: the glide vector `x` is reset to zero in the copy. -/
theorem c09_slab_fails (A : Atoms) (hs : A.ctype = .slab)
    (hx : A.slabX 1 • A.cell 1 + A.slabX 0 • A.cell 0 ≠ 0) (hz : A.cell 0 2 = 0 ∧ A.cell 1 2 = 0) :
    ¬ SameContainer A.copy A := by
  intro h
  have hleg : Legal A ![0, 0, 1] := by
    rw [← legal_iff]; simp [Atoms.ranges, hs, rangeInf, Bound.leInt, Bound.geInt]
  have hleg2 : Legal A.copy ![0, 0, 1] := by
    have : A.copy.ctype = .slab := hs
    rw [← legal_iff]; simp [Atoms.ranges, this, rangeInf, Bound.leInt, Bound.geInt]
  have := h.2.2.2.2 0 ![0, 0, 1]
  rw [(c05_transform_guard _ _ _).1 hleg, (c05_transform_guard _ _ _).1 hleg2] at this
  injection this with this
  have hcs : A.copy.ctype = .slab := hs
  have hcx : A.copy.slabX = fun _ => 0 := rfl
  simp only [Atoms.rawTransform, hs, hcs, slabTransform, hcx] at this
  apply hx
  ext i
  have hi := congrFun this i
  fin_cases i
  · simp at hi ⊢; linarith
  · simp at hi ⊢; linarith
  · simp [hz.1, hz.2]

/-- A chiral tube is a case where the copy is faithful. -/
example : Reachable (construct .chiral [("C", ![1, 0, 0])] !![0, 0, 0; 3, 0, 0; 1, 0, 0]
    (fun _ => false)) := Reachable.create _ _ _ _

/-- A slab with glide meets the hypotheses of `c09_slab_fails`. -/
example : ∃ A : Atoms, A.ctype = .slab ∧ Reachable A ∧
    A.slabX 1 • A.cell 1 + A.slabX 0 • A.cell 0 ≠ 0 ∧ A.cell 0 2 = 0 ∧ A.cell 1 2 = 0 := by
  refine ⟨{ construct .slab [] !![4, 0, 0; 0, 4, 0; 0, 0, 10] (fun _ => true) with
    slabX := ![0, 1 / 2] }, rfl, Reachable.slabX _ (Reachable.create _ _ _ _) rfl, ?_, ?_, ?_⟩
  · intro h
    have := congrFun h 1
    simp [construct, writeMagic, setEntry] at this
  · simp [construct, writeMagic, setEntry]
  · simp [construct, writeMagic, setEntry]

end Hotbit
