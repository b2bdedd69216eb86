import Verif.Lemmas.Skf
import Verif.Lemmas.KPoints
import Verif.Spec.Skf
import Verif.Props.Splines

/-!
# C57: the repulsion read from an `.skf` file
-/

namespace Hotbit

theorem searchSorted_le_iff {N : ℕ} {x : ℕ → ℝ} (hx : ∀ i j, i < j → j < N → x i < x j) {t : ℝ}
    {k : ℕ} (hk : k < N) : searchSorted N x t ≤ k ↔ t ≤ x k := by
  classical
  have hex : ∃ m, m = N ∨ ¬ x m < t := ⟨N, Or.inl rfl⟩
  have hm := Nat.find_spec hex
  set m := Nat.find hex with hmdef
  have hmN : m ≤ N := Nat.find_min' hex (Or.inl rfl)
  have hlt : ∀ i < m, x i < t := by
    intro i hi
    have := Nat.find_min hex hi
    push Not at this
    exact this.2
  have hiff : ∀ i < N, x i < t ↔ i < m := by
    intro i hi
    refine ⟨fun h => ?_, hlt i⟩
    by_contra hle
    push Not at hle
    rcases hm with hm | hm
    · omega
    · rcases Nat.lt_or_eq_of_le hle with hl | hl
      · exact hm (lt_trans (hx m i hl hi) h)
      · exact hm (hl ▸ h)
  rw [searchSorted_eq hmN hiff]
  have := hiff k hk
  constructor
  · intro h
    by_contra hc
    push Not at hc
    have := this.mp hc
    omega
  · intro h
    by_contra hc
    push Not at hc
    exact absurd (this.mpr hc) (not_lt.mpr h)

/-- The cubic in force at `s`, among the given ones. -/
noncomputable def segAt : Seg → List Seg → ℝ → ℝ → ℝ
  | g, [], _, r => g.eval r
  | g, h :: gs, s, r => if s < g.x2 then g.eval r else segAt h gs s r

/-- The end of the cubics. -/
def segEnd : Seg → List Seg → ℝ
  | g, [] => g.x2
  | _, h :: gs => segEnd h gs

/-- Each line holds the six numbers of a cubic. -/
def SegLines (pf : List Char → Option ℝ) (lines : List (List Char)) (gs : List Seg) : Prop :=
  List.Forall₂ (fun l (g : Seg) =>
    fortranReadline pf l = .ok [g.x1, g.x2, g.c1, g.c2, g.c3, g.c4]) lines gs

theorem readSeg_line {pf : List Char → Option ℝ} {l : List Char} {g : Seg}
    (h : fortranReadline pf l = .ok [g.x1, g.x2, g.c1, g.c2, g.c3, g.c4]) (rest : List (List Char)) :
    readSeg pf (l :: rest) = .ok (g, rest) := by
  unfold readSeg nextLine
  simp only [h]
  rfl

theorem chained_le {g : Seg} {gs : List Seg} {e : LastSeg} (h : Chained g gs e) :
    g.x2 ≤ segEnd g gs ∧ g.x1 < g.x2 := by
  induction gs generalizing g with
  | nil => exact ⟨le_refl _, h.1⟩
  | cons a gs ih =>
    obtain ⟨h1, h2, h3⟩ := h
    obtain ⟨i1, i2⟩ := ih h3
    refine ⟨?_, h1⟩
    rw [segEnd]
    linarith

/-- What the loop over the cubics does: the point after a point in the interval of a cubic gets the
value of this cubic. -/
theorem splineLoop_spec {pf : List Char → Option ℝ} {N : ℕ} {x : ℕ → ℝ}
    (hx : ∀ i j, i < j → j < N → x i < x j) (e : LastSeg) (gs : List Seg) :
    ∀ (g : Seg) (lines rest : List (List Char)) (y : ℕ → ℝ), Chained g gs e → SegLines pf lines gs →
    ∃ y', splineLoop pf N x gs.length g (lines ++ rest) (searchSorted N x g.x1 + 1) y =
        .ok (segEnd g gs, searchSorted N x (segEnd g gs) + 1, y', rest) ∧
      y' 0 = y 0 ∧
      ∀ i, i + 1 < N → y' (i + 1) = if x i < g.x1 then y (i + 1) else
        if x i < segEnd g gs then segAt g gs (x i) (x (i + 1)) else y (i + 1) := by
  induction gs with
  | nil =>
    intro g lines rest y hc hl
    cases hl
    refine ⟨_, rfl, ?_, ?_⟩
    · simp [setSlice]
    · intro i hi
      simp only [setSlice]
      change _ = if x i < g.x1 then y (i + 1) else
        if x i < g.x2 then g.eval (x (i + 1)) else y (i + 1)
      have a1 := searchSorted_le_iff hx (t := g.x1) (k := i) (by omega)
      have a2 := searchSorted_le_iff hx (t := g.x2) (k := i) (by omega)
      by_cases h1 : x i < g.x1
      · rw [if_pos h1, if_neg]
        rintro ⟨h, -⟩
        exact absurd (a1.mp (by omega)) (not_le.mpr h1)
      · have h1' := a1.mpr (not_lt.mp h1)
        rw [if_neg h1]
        by_cases h2 : x i < g.x2
        · rw [if_pos h2, if_pos]
          refine ⟨by omega, ?_⟩
          by_contra h
          exact absurd (a2.mp (by omega)) (not_le.mpr h2)
        · have h2' := a2.mpr (not_lt.mp h2)
          rw [if_neg h2, if_neg]
          rintro ⟨-, h⟩
          omega
  | cons a gs ih =>
    intro g lines rest y hc hl
    cases hl with
    | cons hla hls =>
      rename_i l lines
      obtain ⟨h1, h2, h3⟩ := hc
      obtain ⟨y', e1, e2, e3⟩ := ih a lines rest
        (setSlice x y (searchSorted N x g.x1 + 1) (searchSorted N x g.x2 + 1) g.eval) h3 hls
      refine ⟨y', ?_, ?_, ?_⟩
      · rw [List.length_cons, splineLoop, List.cons_append, readSeg_line hla]
        simp only [bind, Except.bind]
        rw [if_pos h2]
        rw [h2] at e1
        exact e1
      · rw [e2]
        simp [setSlice]
      · intro i hi
        rw [e3 i hi, h2]
        simp only [setSlice]
        change _ = if x i < g.x1 then y (i + 1) else if x i < segEnd a gs then
          (if x i < g.x2 then g.eval (x (i + 1)) else segAt a gs (x i) (x (i + 1))) else y (i + 1)
        have a1 := searchSorted_le_iff hx (t := g.x1) (k := i) (by omega)
        have a2 := searchSorted_le_iff hx (t := g.x2) (k := i) (by omega)
        obtain ⟨c1, c2⟩ := chained_le h3
        by_cases k1 : x i < g.x1
        · have k2 : x i < g.x2 := by linarith
          rw [if_pos k1, if_pos k2, if_neg]
          rintro ⟨h, -⟩
          exact absurd (a1.mp (by omega)) (not_le.mpr k1)
        · have k1' := a1.mpr (not_lt.mp k1)
          rw [if_neg k1]
          by_cases k2 : x i < g.x2
          · have k3 : x i < segEnd a gs := by linarith
            rw [if_pos k2, if_pos k3, if_pos k2, if_pos]
            refine ⟨by omega, ?_⟩
            by_contra h
            exact absurd (a2.mp (by omega)) (not_le.mpr k2)
          · have k2' := a2.mpr (not_lt.mp k2)
            rw [if_neg k2, if_neg k2]
            congr 1
            rw [if_neg]
            rintro ⟨-, h⟩
            omega

theorem pieceAt_eq {g : Seg} {gs : List Seg} {e : LastSeg} (h : Chained g gs e) (s r : ℝ) :
    pieceAt (g :: gs) e s r =
      if s < segEnd g gs then segAt g gs s r else if s ≤ e.x2 then e.eval r else 0 := by
  induction gs generalizing g with
  | nil => rfl
  | cons a gs ih =>
    obtain ⟨h1, h2, h3⟩ := h
    rw [pieceAt, ih h3]
    obtain ⟨c1, c2⟩ := chained_le h3
    change _ = if s < segEnd a gs then (if s < g.x2 then g.eval r else segAt a gs s r) else
      if s ≤ e.x2 then e.eval r else 0
    by_cases k : s < g.x2
    · rw [if_pos k, if_pos (by linarith), if_pos k]
      rfl
    · rw [if_neg k, if_neg k]

theorem chained_last {g : Seg} {gs : List Seg} {e : LastSeg} (h : Chained g gs e) :
    e.x1 = segEnd g gs ∧ e.x1 < e.x2 := by
  induction gs generalizing g with
  | nil => exact ⟨h.2.1, h.2.2⟩
  | cons a gs ih => exact ih h.2.2

/-- The grid points of the table. -/
noncomputable def repGrid (x0 cutoff : ℝ) (N i : ℕ) : ℝ := x0 + i * ((cutoff - x0) / (N - 1))

theorem linspace_getD {a b : ℝ} {N i : ℕ} (hN : N ≠ 1) (hi : i < N) :
    (linspace a b N).getD i 0 = repGrid a b N i := by
  unfold linspace repGrid
  rw [List.getD_eq_getElem?_getD, List.getElem?_map, List.getElem?_range hi]
  simp [hN]

theorem repGrid_inc {a b : ℝ} (h : a < b) {N : ℕ} (hN : 2 ≤ N) : ∀ i j, i < j → j < N →
    repGrid a b N i < repGrid a b N j := by
  intro i j hij _
  unfold repGrid
  have hN' : (2 : ℝ) ≤ N := by exact_mod_cast hN
  have : 0 < (b - a) / ((N : ℝ) - 1) := div_pos (by linarith) (by linarith)
  have hij' : (i : ℝ) < j := by exact_mod_cast hij
  nlinarith

theorem repGrid_le {a b : ℝ} (h : a < b) {N i : ℕ} (hN : 2 ≤ N) (hi : i < N) :
    repGrid a b N i ≤ b := by
  unfold repGrid
  have hN' : (2 : ℝ) ≤ N := by exact_mod_cast hN
  have hi' : (i : ℝ) ≤ (N : ℝ) - 1 := by
    have : (i : ℝ) + 1 ≤ N := by exact_mod_cast hi
    linarith
  have h1 : 0 < (N : ℝ) - 1 := by linarith
  rw [mul_div_assoc', ← le_sub_iff_add_le', div_le_iff₀ h1]
  nlinarith

/-- The lines after the word `Spline` hold the section `P` with the given cutoff. -/
structure SplineLines (pf : List Char → Option ℝ) (lines : List (List Char)) (P : SplineSection)
    (cutoff : ℝ) : Prop where
  shape : ∃ l0 l1 l2 more le rest, lines = l0 :: l1 :: l2 :: (more ++ le :: rest) ∧
    fortranReadline pf l0 = .ok [(P.more.length : ℝ) + 2, cutoff] ∧
    fortranReadline pf l1 = .ok [P.a1, P.a2, P.a3] ∧
    fortranReadline pf l2 = .ok [P.first.x1, P.first.x2, P.first.c1, P.first.c2, P.first.c3, P.first.c4] ∧
    SegLines pf more P.more ∧
    fortranReadline pf le = .ok [P.last.x1, P.last.x2, P.last.c1, P.last.c2, P.last.c3, P.last.c4,
      P.last.c5, P.last.c6]

theorem pyInt_natCast (n : ℕ) : pyInt (n : ℝ) = n := by
  unfold pyInt
  rw [if_pos (Nat.cast_nonneg n)]
  exact Int.floor_natCast n

/-- C57: what the reader returns for a valid file: the grid from `rep_x0` to the cutoff, and at each
grid point the piece in force at the *previous* grid point (at the first point the exponential). -/
theorem c57_shift {pf : List Char → Option ℝ} {lines : List (List Char)} {P : SplineSection}
    {cutoff x0 dx : ℝ} (hl : SplineLines pf lines P cutoff)
    (hc : Chained P.first P.more P.last) (hend : P.last.x2 = cutoff) {N : ℕ}
    (hN : gridCount x0 dx cutoff = .ok N) (hN2 : 2 ≤ N) (hx0 : x0 < cutoff) :
    ∃ y : ℕ → ℝ, readSpline pf x0 dx lines =
        .ok ((List.range N).map (repGrid x0 cutoff N), (List.range N).map y) ∧
      y 0 = Real.exp (-P.a1 * x0 + P.a2) + P.a3 ∧
      ∀ i, i + 1 < N → y (i + 1) = P.at (repGrid x0 cutoff N i) (repGrid x0 cutoff N (i + 1)) := by
  obtain ⟨l0, l1, l2, more, le, rest, hlines, h0, h1, h2, hm, he⟩ := hl.shape
  have hxs : linspace x0 cutoff N = (List.range N).map (repGrid x0 cutoff N) := by
    unfold linspace repGrid
    apply List.map_congr_left
    intro i _
    rw [if_neg (by omega)]
  set x : ℕ → ℝ := fun i => (linspace x0 cutoff N).getD i 0 with hxdef
  have hxi : ∀ i < N, x i = repGrid x0 cutoff N i := fun i hi => linspace_getD (by omega) hi
  have hinc : ∀ i j, i < j → j < N → x i < x j := by
    intro i j hij hj
    rw [hxi i (by omega), hxi j hj]
    exact repGrid_inc hx0 hN2 i j hij hj
  obtain ⟨y', e1, e2, e3⟩ := splineLoop_spec (pf := pf) hinc P.last P.more P.first more (le :: rest)
    (fun i => P.a3 + Real.exp (P.a2 - P.a1 * x i)) hc hm
  obtain ⟨d1, d2⟩ := chained_last hc
  obtain ⟨c1, c2⟩ := chained_le hc
  refine ⟨setSlice x y' (searchSorted N x (segEnd P.first P.more) + 1)
    (searchSorted N x P.last.x2 + 1) P.last.eval, ?_, ?_, ?_⟩
  · unfold readSpline
    rw [hlines]
    have hturn : (pyInt ((P.more.length : ℝ) + 2) - 1).toNat = P.more.length + 1 := by
      have := pyInt_natCast (P.more.length + 2)
      push_cast at this
      rw [this]
      omega
    have hlast : readLastSeg pf (le :: rest) = .ok P.last := by
      unfold readLastSeg nextLine
      simp only [he]
      rfl
    simp only [nextLine, h0, h1, bind, Except.bind, readSeg_line h2, hN, hturn]
    rw [← hxdef, e1]
    simp only [hlast, d1, if_true, hxs]
    rfl
  · simp only [setSlice]
    rw [if_neg (by omega), e2]
    rw [hxi 0 (by omega), repGrid]
    simp only [Nat.cast_zero, zero_mul, add_zero]
    rw [add_comm]
    congr 2
    ring
  · intro i hi
    have a1 := searchSorted_le_iff hinc (t := segEnd P.first P.more) (k := i) (by omega)
    have a2 := searchSorted_le_iff hinc (t := P.last.x2) (k := i) (by omega)
    have hlt : x i < P.last.x2 := by
      rw [hend, hxi i (by omega)]
      calc repGrid x0 cutoff N i < repGrid x0 cutoff N (i + 1) := repGrid_inc hx0 hN2 i (i + 1) (by omega) hi
        _ ≤ cutoff := repGrid_le hx0 hN2 hi
    rw [← hxi i (by omega), ← hxi (i + 1) hi]
    unfold SplineSection.at
    rw [pieceAt_eq hc]
    simp only [setSlice]
    rw [e3 i hi]
    by_cases k1 : x i < P.first.x1
    · have k2 : x i < segEnd P.first P.more := by linarith
      rw [if_pos k1, if_pos k1, if_neg]
      · rw [add_comm]
        congr 2
        ring
      · rintro ⟨h, -⟩
        exact absurd (a1.mp (by omega)) (not_le.mpr k2)
    · rw [if_neg k1, if_neg k1]
      by_cases k2 : x i < segEnd P.first P.more
      · rw [if_pos k2, if_pos k2, if_neg]
        rintro ⟨h, -⟩
        exact absurd (a1.mp (by omega)) (not_le.mpr k2)
      · rw [if_neg k2, if_neg k2, if_pos hlt.le, if_pos]
        refine ⟨by have := a1.mpr (not_lt.mp k2); omega, ?_⟩
        by_contra h
        exact absurd (a2.mp (by omega)) (not_le.mpr hlt)

/-- The knots between the pieces. -/
def SplineSection.knots (P : SplineSection) : List ℝ :=
  P.first.x1 :: (P.first :: P.more).map (·.x2)

theorem pieceAt_same {gs : List Seg} {e : LastSeg} {s r : ℝ} (hsr : s ≤ r) (hr : r ≤ e.x2)
    (h : ∀ k ∈ gs.map (fun g : Seg => g.x2), ¬ (s < k ∧ k ≤ r)) :
    pieceAt gs e s r = pieceAt gs e r r := by
  induction gs with
  | nil => rw [pieceAt, pieceAt, if_pos (by linarith), if_pos hr]
  | cons g gs ih =>
    have hk := h g.x2 (by simp)
    rw [pieceAt, pieceAt]
    by_cases h1 : s < g.x2
    · have h2 : r < g.x2 := by
        by_contra h2
        exact hk ⟨h1, not_lt.mp h2⟩
      rw [if_pos h1, if_pos h2]
    · rw [if_neg h1, if_neg (by linarith), ih (fun k hk => h k (List.mem_cons_of_mem _ hk))]

/-- C57: a grid point with no knot between it and the previous grid point gets the value of the
file's potential. -/
theorem c57_partial {pf : List Char → Option ℝ} {lines : List (List Char)} {P : SplineSection}
    {cutoff x0 dx : ℝ} (hl : SplineLines pf lines P cutoff)
    (hc : Chained P.first P.more P.last) (hend : P.last.x2 = cutoff) {N : ℕ}
    (hN : gridCount x0 dx cutoff = .ok N) (hN2 : 2 ≤ N) (hx0 : x0 < cutoff) :
    ∃ xs ys, readSpline pf x0 dx lines = .ok (xs, ys) ∧ xs.length = N ∧ ys.length = N ∧
      (∀ i, i < N → xs[i]? = some (repGrid x0 cutoff N i)) ∧
      (x0 < P.first.x1 → ys[0]? = some (P.V x0)) ∧
      ∀ i, i + 1 < N →
        (∀ k ∈ P.knots, ¬ (repGrid x0 cutoff N i < k ∧ k ≤ repGrid x0 cutoff N (i + 1))) →
        ys[i + 1]? = some (P.V (repGrid x0 cutoff N (i + 1))) := by
  obtain ⟨y, e1, e2, e3⟩ := c57_shift hl hc hend hN hN2 hx0
  refine ⟨_, _, e1, by simp, by simp, ?_, ?_, ?_⟩
  · intro i hi
    rw [List.getElem?_map, List.getElem?_range hi]
    rfl
  · intro h0
    rw [List.getElem?_map, List.getElem?_range (by omega), Option.map_some, e2, SplineSection.V,
      SplineSection.at, if_pos h0]
  · intro i hi hk
    rw [List.getElem?_map, List.getElem?_range hi, Option.map_some, e3 i hi]
    congr 1
    have hlt := repGrid_inc hx0 hN2 i (i + 1) (by omega) hi
    have hle := repGrid_le hx0 hN2 hi
    unfold SplineSection.V SplineSection.at
    have h1 := hk P.first.x1 (by simp [SplineSection.knots])
    by_cases h2 : repGrid x0 cutoff N i < P.first.x1
    · have h3 : repGrid x0 cutoff N (i + 1) < P.first.x1 := by
        by_contra h3
        exact h1 ⟨h2, not_lt.mp h3⟩
      rw [if_pos h2, if_pos h3]
    · rw [if_neg h2, if_neg (by linarith)]
      refine pieceAt_same hlt.le (by rw [hend]; exact hle) fun k hk' => hk k ?_
      unfold SplineSection.knots
      exact List.mem_cons_of_mem _ hk'

theorem chained_split {g h : Seg} : ∀ (pre : List Seg) {f : Seg} {fs post : List Seg} {e : LastSeg},
    Chained f fs e → f :: fs = pre ++ g :: h :: post →
    h.x1 = g.x2 ∧ g.x1 < g.x2 ∧ h.x1 < h.x2 ∧ f.x1 ≤ g.x1 ∧ ∀ a ∈ pre, a.x2 ≤ g.x1
  | [], f, fs, post, e, hc, hs => by
    simp only [List.nil_append, List.cons.injEq] at hs
    obtain ⟨rfl, rfl⟩ := hs
    obtain ⟨h1, h2, h3⟩ := hc
    exact ⟨h2, h1, (chained_le h3).2, le_refl _, by simp⟩
  | a :: pre, f, fs, post, e, hc, hs => by
    simp only [List.cons_append, List.cons.injEq] at hs
    obtain ⟨rfl, rfl⟩ := hs
    have hne : ∃ b bs, pre ++ g :: h :: post = b :: bs := by
      cases pre with
      | nil => exact ⟨_, _, rfl⟩
      | cons b bs => exact ⟨_, _, rfl⟩
    obtain ⟨b, bs, hb⟩ := hne
    rw [hb] at hc
    obtain ⟨h1, h2, h3⟩ := hc
    obtain ⟨i1, i2, i3, i4, i5⟩ := chained_split pre h3 hb.symm
    refine ⟨i1, i2, i3, by linarith, ?_⟩
    intro c hc'
    rcases List.mem_cons.mp hc' with rfl | hc'
    · linarith
    · exact i5 c hc'

theorem pieceAt_split {e : LastSeg} {g : Seg} {post : List Seg} {s r : ℝ} (h2 : s < g.x2) :
    ∀ pre : List Seg, (∀ a ∈ pre, a.x2 ≤ s) → pieceAt (pre ++ g :: post) e s r = g.eval r
  | [], _ => by rw [List.nil_append, pieceAt, if_pos h2]; rfl
  | a :: pre, h => by
    rw [List.cons_append, pieceAt, if_neg (not_lt.mpr (h a List.mem_cons_self)),
      pieceAt_split h2 pre (fun b hb => h b (List.mem_cons_of_mem _ hb))]

/-- C57: how wrong a point just after a knot is: for two neighbouring cubics that join with value,
slope and curvature, the table is off by the difference of the third-order coefficients times the
cube of the distance to the knot, so by at most that difference times the cube of the grid step. -/
theorem c57_error {pf : List Char → Option ℝ} {lines : List (List Char)} {P : SplineSection}
    {cutoff x0 dx : ℝ} (hl : SplineLines pf lines P cutoff)
    (hc : Chained P.first P.more P.last) (hend : P.last.x2 = cutoff) {N : ℕ}
    (hN : gridCount x0 dx cutoff = .ok N) (hN2 : 2 ≤ N) (hx0 : x0 < cutoff)
    {g h : Seg} {pre post : List Seg} (hs : P.first :: P.more = pre ++ g :: h :: post)
    (j1 : h.c1 = g.c1 + g.c2 * (g.x2 - g.x1) + g.c3 * (g.x2 - g.x1) ^ 2 + g.c4 * (g.x2 - g.x1) ^ 3)
    (j2 : h.c2 = g.c2 + 2 * g.c3 * (g.x2 - g.x1) + 3 * g.c4 * (g.x2 - g.x1) ^ 2)
    (j3 : h.c3 = g.c3 + 3 * g.c4 * (g.x2 - g.x1))
    {i : ℕ} (hi : i + 1 < N) (k1 : g.x1 ≤ repGrid x0 cutoff N i) (k2 : repGrid x0 cutoff N i < g.x2)
    (k3 : g.x2 ≤ repGrid x0 cutoff N (i + 1)) (k4 : repGrid x0 cutoff N (i + 1) < h.x2) :
    ∃ xs ys, readSpline pf x0 dx lines = .ok (xs, ys) ∧ ∃ v, ys[i + 1]? = some v ∧
      v - P.V (repGrid x0 cutoff N (i + 1)) =
        (g.c4 - h.c4) * (repGrid x0 cutoff N (i + 1) - g.x2) ^ 3 ∧
      |v - P.V (repGrid x0 cutoff N (i + 1))| ≤
        |g.c4 - h.c4| * (repGrid x0 cutoff N (i + 1) - repGrid x0 cutoff N i) ^ 3 := by
  obtain ⟨y, e1, e2, e3⟩ := c57_shift hl hc hend hN hN2 hx0
  obtain ⟨c1, c2, c3, c4, c5⟩ := chained_split pre hc hs
  have hv : P.at (repGrid x0 cutoff N i) (repGrid x0 cutoff N (i + 1)) =
      g.eval (repGrid x0 cutoff N (i + 1)) := by
    rw [SplineSection.at, if_neg (by linarith), hs, pieceAt_split k2]
    intro a ha
    exact le_trans (c5 a ha) k1
  have hV : P.V (repGrid x0 cutoff N (i + 1)) = h.eval (repGrid x0 cutoff N (i + 1)) := by
    rw [SplineSection.V, SplineSection.at, if_neg (by linarith), hs,
      show pre ++ g :: h :: post = (pre ++ [g]) ++ h :: post by simp, pieceAt_split k4]
    intro a ha
    rcases List.mem_append.mp ha with ha | ha
    · have := c5 a ha
      linarith
    · rw [List.mem_singleton.mp ha]
      exact k3
  have hd : y (i + 1) - P.V (repGrid x0 cutoff N (i + 1)) =
      (g.c4 - h.c4) * (repGrid x0 cutoff N (i + 1) - g.x2) ^ 3 := by
    rw [e3 i hi, hv, hV]
    unfold Seg.eval
    rw [j1, j2, j3, c1]
    ring
  refine ⟨_, _, e1, y (i + 1), ?_, hd, ?_⟩
  · rw [List.getElem?_map, List.getElem?_range hi]
    rfl
  · rw [hd, abs_mul]
    refine mul_le_mul_of_nonneg_left ?_ (abs_nonneg _)
    rw [abs_of_nonneg (pow_nonneg (by linarith) 3)]
    exact pow_le_pow_left₀ (by linarith) (by linarith) 3

/-- A file without a spline: the lines hold the grid, possibly the line of atomic data, and the mass
line with the coefficients `c2 … c9` and the cutoff. -/
theorem c57_polynomial {pf : List Char → Option ℝ} {l0 lm : List Char} {lines : List (List Char)}
    {file : List (List Char)} {x0 dx : ℝ} (hns : ∀ l ∈ file, notSpline l = true)
    {d n m rc : ℝ} {c : Fin 8 → ℝ} {tail : List ℝ} (ht : tail.length = 10)
    (h0 : fortranReadline pf l0 = .ok [d, n])
    (hm : fortranReadline pf lm = .ok (m :: c 0 :: c 1 :: c 2 :: c 3 :: c 4 :: c 5 :: c 6 :: c 7 :: rc :: tail))
    (hfile : file = l0 :: lm :: lines ∨ ∃ le v, file = l0 :: le :: lm :: lines ∧
      fortranReadline pf le = .ok v ∧ v.length < 20)
    {N : ℕ} (hN : gridCount x0 dx rc = .ok N) :
    readRepulsionSkf pf x0 dx file = .ok (linspace x0 rc N, (linspace x0 rc N).map fun r =>
      ∑ k : Fin 8, c k * (rc - r) ^ ((k : ℕ) + 2)) := by
  have hdrop : file.dropWhile notSpline = [] := List.dropWhile_eq_nil_iff.mpr hns
  unfold readRepulsionSkf
  rw [hdrop]
  have hsum : ∀ r : ℝ, (List.range' 2 8).foldl (fun (y : ℝ) i =>
      y + ([0, 0] ++ ((m :: c 0 :: c 1 :: c 2 :: c 3 :: c 4 :: c 5 :: c 6 :: c 7 :: rc :: tail).drop 1).take 8).getD i 0 *
        (rc - r) ^ i) 0 = ∑ k : Fin 8, c k * (rc - r) ^ ((k : ℕ) + 2) := by
    intro r
    simp [List.range', Fin.sum_univ_succ]
    ring_nf
  rcases hfile with rfl | ⟨le, v, rfl, hv, hv20⟩
  · simp only [readPolynomial, nextLine, h0, bind, Except.bind, hm]
    rw [if_neg (by simp [ht])]
    simp only [List.getElem?_cons_succ, List.getElem?_cons_zero, hN, hsum]
    rfl
  · simp only [readPolynomial, nextLine, h0, bind, Except.bind, hv]
    rw [if_pos hv20]
    simp only [hm, List.getElem?_cons_succ, List.getElem?_cons_zero, hN, hsum]
    rfl

/-- C57: a spline with a single interval (whose only line is the eight numbers of the last piece)
cannot be read. -/
theorem c57_single_fails {pf : List Char → Option ℝ} {l0 l1 l2 : List Char}
    {rest : List (List Char)} {x0 dx cutoff a1 a2 a3 : ℝ} {v : List ℝ} (hv : v.length = 8)
    (h0 : fortranReadline pf l0 = .ok [1, cutoff]) (h1 : fortranReadline pf l1 = .ok [a1, a2, a3])
    (h2 : fortranReadline pf l2 = .ok v) :
    readSpline pf x0 dx (l0 :: l1 :: l2 :: rest) = .error .valueError := by
  match v, hv with
  | [b1, b2, b3, b4, b5, b6, b7, b8], _ =>
    simp only [readSpline, nextLine, h0, h1, bind, Except.bind, readSeg, h2]
    rfl

/-! ### A concrete file -/

/-- Decimal notation: sign, digits, point, digits. -/
noncomputable def unsignedDec (s : List Char) : Option ℝ :=
  match splitChar '.' s with
  | [a] => (natOfStr a).map (fun n : ℕ => (n : ℝ))
  | [a, b] => (natOfStr (a ++ b)).map (fun n : ℕ => (n : ℝ) / 10 ^ b.length)
  | _ => none

/-- Decimal notation: sign, digits, point, digits. -/
noncomputable def parseDec : List Char → Option ℝ
  | '-' :: s => (unsignedDec s).map (fun v => -v)
  | s => unsignedDec s

/-- Two intervals: zero below 1.0025, then `(r-1.0025)^3` up to 2, joining with slope and curvature. -/
noncomputable def exSpline : SplineSection :=
  { a1 := 0, a2 := 0, a3 := -1, first := ⟨10025 / 10000, 2, 0, 0, 0, 1⟩, more := [],
    last := ⟨2, 3, 1, 0, 0, -1, 0, 0⟩ }

/-- The file. -/
def exSplineFile : List (List Char) :=
  ["0.1 2\n".toList, "12.01 19*1.0,\n".toList, "Spline\n".toList, "2 3\n".toList,
    "0 0 -1\n".toList, "1.0025 2 3*0.0 1\n".toList, "2 3 1 0 0 -1 0 0\n".toList]

theorem exSplineLines : SplineLines parseDec (exSplineFile.drop 3) exSpline 3 := by
  refine ⟨_, _, _, [], _, [], rfl, ?_, ?_, ?_, List.Forall₂.nil, ?_⟩
  · have : fortranReadline parseDec "2 3\n".toList = .ok [((2 : ℕ) : ℝ), ((3 : ℕ) : ℝ)] := rfl
    rw [this]
    norm_num [exSpline]
  · have : fortranReadline parseDec "0 0 -1\n".toList =
      .ok [((0 : ℕ) : ℝ), ((0 : ℕ) : ℝ), -((1 : ℕ) : ℝ)] := rfl
    rw [this]
    norm_num [exSpline]
  · have : fortranReadline parseDec "1.0025 2 3*0.0 1\n".toList =
      .ok [((10025 : ℕ) : ℝ) / 10 ^ 4, ((2 : ℕ) : ℝ), ((0 : ℕ) : ℝ) / 10 ^ 1, ((0 : ℕ) : ℝ) / 10 ^ 1,
        ((0 : ℕ) : ℝ) / 10 ^ 1, ((1 : ℕ) : ℝ)] := rfl
    rw [this]
    norm_num [exSpline]
  · have : fortranReadline parseDec "2 3 1 0 0 -1 0 0\n".toList =
      .ok [((2 : ℕ) : ℝ), ((3 : ℕ) : ℝ), ((1 : ℕ) : ℝ), ((0 : ℕ) : ℝ), ((0 : ℕ) : ℝ), -((1 : ℕ) : ℝ),
        ((0 : ℕ) : ℝ), ((0 : ℕ) : ℝ)] := rfl
    rw [this]
    norm_num [exSpline]

theorem exSpline_chained : Chained exSpline.first exSpline.more exSpline.last := by
  refine ⟨?_, ?_, ?_⟩ <;> norm_num [exSpline]

theorem exSpline_count : gridCount 0.1 0.005 3 = .ok 581 := by
  have : pyInt ((3 - 0.1) / 0.005) = 580 := by
    rw [show ((3 : ℝ) - 0.1) / 0.005 = ((580 : ℕ) : ℝ) by norm_num, pyInt_natCast]
    norm_num
  unfold gridCount
  rw [this]
  rfl

/-- C57 fails with the default grid: the point 1.005 is the first one after the knot 1.0025; the file
gives (0.0025)^3 there, the table has the value zero of the exponential below the knot. -/
theorem c57_knot_fails : ∃ xs ys : List ℝ, readRepulsionSkf parseDec 0.1 0.005 exSplineFile = .ok (xs, ys) ∧
    xs[181]? = some (1.005 : ℝ) ∧ ys[181]? = some (0 : ℝ) ∧ exSpline.V 1.005 = 0.0025 ^ 3 := by
  obtain ⟨y, e1, e2, e3⟩ := c57_shift exSplineLines exSpline_chained rfl exSpline_count (by norm_num)
    (by norm_num)
  refine ⟨_, _, (show readRepulsionSkf parseDec 0.1 0.005 exSplineFile =
    readSpline parseDec 0.1 0.005 (exSplineFile.drop 3) from rfl).trans e1, ?_, ?_, ?_⟩
  · rw [List.getElem?_map, List.getElem?_range (by norm_num), Option.map_some, repGrid]
    norm_num
  · rw [List.getElem?_map, List.getElem?_range (by norm_num), Option.map_some, e3 180 (by norm_num)]
    norm_num [repGrid, SplineSection.at, exSpline]
  · norm_num [SplineSection.V, SplineSection.at, exSpline, pieceAt]

/-- The hypotheses of the theorems above are met; most points of the file are right. -/
example : ∃ xs ys : List ℝ, readSpline parseDec 0.1 0.005 (exSplineFile.drop 3) = .ok (xs, ys) ∧
    ys[182]? = some (exSpline.V 1.01) := by
  obtain ⟨xs, ys, e1, -, -, -, -, e2⟩ := c57_partial exSplineLines exSpline_chained rfl exSpline_count
    (by norm_num) (by norm_num)
  refine ⟨xs, ys, e1, ?_⟩
  rw [e2 181 (by norm_num)]
  · norm_num [repGrid]
  · intro k hk
    simp only [SplineSection.knots, exSpline, List.map_cons, List.map_nil, List.mem_cons,
      List.not_mem_nil, or_false] at hk
    rcases hk with rfl | rfl <;> norm_num [repGrid]

/-- Three intervals whose two cubics join smoothly. -/
noncomputable def exSpline2 : SplineSection :=
  { a1 := 0, a2 := 0, a3 := -1, first := ⟨1 / 2, 1, 0, 0, 0, 1⟩,
    more := [⟨1, 2, 1 / 8, 3 / 4, 3 / 2, 0⟩], last := ⟨2, 3, 0, 0, 0, 0, 0, 0⟩ }

theorem exSplineLines2 : SplineLines parseDec ["3 3".toList, "0 0 -1".toList, "0.5 1 3*0 1".toList,
    "1 2 0.125, 0.75, 1.5, 0".toList, "2 3 6*0".toList] exSpline2 3 := by
  refine ⟨_, _, _, ["1 2 0.125, 0.75, 1.5, 0".toList], _, [], rfl, ?_, ?_, ?_,
    List.Forall₂.cons ?_ List.Forall₂.nil, ?_⟩
  · have : fortranReadline parseDec "3 3".toList = .ok [((3 : ℕ) : ℝ), ((3 : ℕ) : ℝ)] := rfl
    rw [this]
    norm_num [exSpline2]
  · have : fortranReadline parseDec "0 0 -1".toList =
      .ok [((0 : ℕ) : ℝ), ((0 : ℕ) : ℝ), -((1 : ℕ) : ℝ)] := rfl
    rw [this]
    norm_num [exSpline2]
  · have : fortranReadline parseDec "0.5 1 3*0 1".toList =
      .ok [((5 : ℕ) : ℝ) / 10 ^ 1, ((1 : ℕ) : ℝ), ((0 : ℕ) : ℝ), ((0 : ℕ) : ℝ), ((0 : ℕ) : ℝ),
        ((1 : ℕ) : ℝ)] := rfl
    rw [this]
    norm_num [exSpline2]
  · have : fortranReadline parseDec "1 2 0.125, 0.75, 1.5, 0".toList =
      .ok [((1 : ℕ) : ℝ), ((2 : ℕ) : ℝ), ((125 : ℕ) : ℝ) / 10 ^ 3, ((75 : ℕ) : ℝ) / 10 ^ 2,
        ((15 : ℕ) : ℝ) / 10 ^ 1, ((0 : ℕ) : ℝ)] := rfl
    rw [this]
    norm_num
  · have : fortranReadline parseDec "2 3 6*0".toList =
      .ok [((2 : ℕ) : ℝ), ((3 : ℕ) : ℝ), ((0 : ℕ) : ℝ), ((0 : ℕ) : ℝ), ((0 : ℕ) : ℝ), ((0 : ℕ) : ℝ),
        ((0 : ℕ) : ℝ), ((0 : ℕ) : ℝ)] := rfl
    rw [this]
    norm_num [exSpline2]

example : ∃ xs ys : List ℝ, ∃ v, readSpline parseDec 0.7 0.46 ["3 3".toList, "0 0 -1".toList,
    "0.5 1 3*0 1".toList, "1 2 0.125, 0.75, 1.5, 0".toList, "2 3 6*0".toList] = .ok (xs, ys) ∧
    ys[1]? = some v ∧ v - exSpline2.V 1.16 = 0.16 ^ 3 := by
  have hcount : gridCount 0.7 0.46 3 = .ok 6 := by
    have : pyInt ((3 - 0.7) / 0.46) = 5 := by
      rw [show ((3 : ℝ) - 0.7) / 0.46 = ((5 : ℕ) : ℝ) by norm_num, pyInt_natCast]
      norm_num
    unfold gridCount
    rw [this]
    rfl
  obtain ⟨xs, ys, e1, v, e2, e3, -⟩ := c57_error exSplineLines2
    (by refine ⟨?_, ?_, ?_, ?_, ?_⟩ <;> norm_num [exSpline2]) rfl hcount (by norm_num) (by norm_num)
    (pre := []) (post := []) (show exSpline2.first :: exSpline2.more = [] ++ _ :: _ :: [] from rfl)
    (by norm_num [exSpline2]) (by norm_num [exSpline2]) (by norm_num [exSpline2])
    (i := 0) (by norm_num) (by norm_num [exSpline2, repGrid]) (by norm_num [exSpline2, repGrid])
    (by norm_num [exSpline2, repGrid]) (by norm_num [exSpline2, repGrid])
  refine ⟨xs, ys, v, e1, e2, ?_⟩
  have hg : repGrid 0.7 3 6 (0 + 1) = (1.16 : ℝ) := by norm_num [repGrid]
  rw [hg] at e3
  rw [e3]
  norm_num [exSpline2]

/-- A heteronuclear file without a spline. -/
example : ∃ xs ys : List ℝ, readRepulsionSkf parseDec 1 0.5
    ["0.1 2\n".toList, "0, 3, 0, 6*0, 2, 10*0\n".toList, "1 1 1\n".toList] = .ok (xs, ys) ∧
    ys[0]? = some (3 * (2 - 1) ^ 2) := by
  have hcount : gridCount 1 0.5 2 = .ok 3 := by
    have : pyInt (((2 : ℝ) - 1) / 0.5) = 2 := by
      rw [show ((2 : ℝ) - 1) / 0.5 = ((2 : ℕ) : ℝ) by norm_num, pyInt_natCast]
      norm_num
    unfold gridCount
    rw [this]
    rfl
  have h := c57_polynomial (pf := parseDec) (l0 := "0.1 2\n".toList)
    (lm := "0, 3, 0, 6*0, 2, 10*0\n".toList) (lines := ["1 1 1\n".toList])
    (file := ["0.1 2\n".toList, "0, 3, 0, 6*0, 2, 10*0\n".toList, "1 1 1\n".toList])
    (x0 := 1) (dx := 0.5) (by decide) (d := ((1 : ℕ) : ℝ) / 10 ^ 1)
    (n := ((2 : ℕ) : ℝ)) (m := ((0 : ℕ) : ℝ)) (rc := ((2 : ℕ) : ℝ))
    (c := ![((3 : ℕ) : ℝ), ((0 : ℕ) : ℝ), ((0 : ℕ) : ℝ), ((0 : ℕ) : ℝ), ((0 : ℕ) : ℝ), ((0 : ℕ) : ℝ),
      ((0 : ℕ) : ℝ), ((0 : ℕ) : ℝ)]) (tail := List.replicate 10 ((0 : ℕ) : ℝ)) rfl rfl rfl
    (Or.inl rfl) (by push_cast; exact hcount)
  refine ⟨_, _, h, ?_⟩
  rw [List.getElem?_map]
  norm_num [linspace, List.range_succ, Fin.sum_univ_succ]

end Hotbit
