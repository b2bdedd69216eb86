import Verif.Model.Tables
import Verif.Spec.Matrices
import Verif.Props.Splines
import Verif.Props.TableFiles

/-!
# C73: the Slater-Koster tables as used in the matrices
-/

namespace Hotbit

/-! ### Splines are linear in the data -/

theorem splineFwd_scale (x y : ℕ → ℝ) (c : ℝ) : ∀ i,
    splineFwd x (fun r => y r * c) i = ((splineFwd x y i).1, (splineFwd x y i).2 * c)
  | 0 => by simp [splineFwd]
  | i + 1 => by
    have ih := splineFwd_scale x y c i
    simp only [splineFwd, ih]
    congr 1
    ring

theorem splineBack_scale (n : ℕ) (x y : ℕ → ℝ) (c : ℝ) : ∀ m,
    splineBack n x (fun r => y r * c) m = splineBack n x y m * c
  | 0 => by simp [splineBack]
  | m + 1 => by
    simp only [splineBack, splineBack_scale n x y c m, splineFwd_scale]
    ring

theorem multiCall_scale (n : ℕ) (x y : ℕ → ℝ) (c t : ℝ) (der : ℕ) :
    multiCall n x (fun r => y r * c) t der = (multiCall n x y t der).map (· * c) := by
  unfold multiCall splineD2
  simp only [splineBack_scale]
  match der with
  | 0 => simp only [splineFormula, Option.map_some]; congr 1; ring
  | 1 => simp only [splineFormula, Option.map_some]; congr 1; ring
  | 2 => simp only [splineFormula, Option.map_some]; congr 1; ring
  | (_ + 3) => rfl

/-! ### Which function has which index -/

theorem mem_bondTypes {li lj : ℕ} {m : Fin 3} : m ∈ bondTypes li lj ↔ m.val ≤ min li lj := by
  unfold bondTypes
  rw [List.mem_filter, decide_eq_true_iff]
  refine ⟨fun h => h.2, fun h => ⟨?_, h⟩⟩
  fin_cases m <;> simp

theorem skFun_idx (tij tji : HsTable) (li lj : ℕ) (m : Fin 3) :
    (skFun tij tji li lj m).idx = skIntegralIndex li lj m := by
  unfold skFun; split <;> rfl

/-- The index determines the type of the integral. -/
theorem skIntegralIndex_inj : ∀ li ≤ 2, ∀ lj ≤ 2, ∀ ki ≤ 2, ∀ kj ≤ 2, ∀ m n : Fin 3, m.val ≤ min li lj →
    n.val ≤ min ki kj → skIntegralIndex li lj m = skIntegralIndex ki kj n → li = ki ∧ lj = kj ∧ m = n := by
  intro li h1 lj h2 ki h3 kj h4
  interval_cases li <;> interval_cases lj <;> interval_cases ki <;> interval_cases kj <;> decide

theorem getLast_const {α : Type} {l : List α} {v : α} (hne : l ≠ []) (h : ∀ a ∈ l, a = v) :
    l.getLast? = some v := by
  rw [List.getLast?_eq_some_getLast hne, h _ (List.getLast_mem hne)]

theorem mem_funs {tij tji : HsTable} {vi vj : List ℕ} {f : SkFun} :
    f ∈ (pairTables tij tji vi vj).funs ↔
      ∃ li ∈ vi, ∃ lj ∈ vj, ∃ m : Fin 3, m.val ≤ min li lj ∧ skFun tij tji li lj m = f := by
  unfold pairTables
  simp only [List.mem_flatMap, List.mem_map, mem_bondTypes]

theorem last_present {tij tji : HsTable} {vi vj : List ℕ} (hi : ∀ l ∈ vi, l ≤ 2) (hj : ∀ l ∈ vj, l ≤ 2)
    {li lj : ℕ} (h1 : li ∈ vi) (h2 : lj ∈ vj) {m : Fin 3} (hm : m.val ≤ min li lj) :
    (pairTables tij tji vi vj).last (skIntegralIndex li lj m) = some (skFun tij tji li lj m) := by
  unfold PairTables.last
  apply getLast_const
  · apply List.ne_nil_of_mem (a := skFun tij tji li lj m)
    rw [List.mem_filter]
    exact ⟨mem_funs.mpr ⟨li, h1, lj, h2, m, hm, rfl⟩, by simp [skFun_idx]⟩
  · intro f hf
    rw [List.mem_filter] at hf
    obtain ⟨ki, k1, kj, k2, n, hn, rfl⟩ := mem_funs.mp hf.1
    have hidx := hf.2
    simp only [skFun_idx, decide_eq_true_eq] at hidx
    obtain ⟨rfl, rfl, rfl⟩ := skIntegralIndex_inj ki (hi ki k1) kj (hj kj k2) li (hi li h1) lj (hj lj h2) n m hn hm hidx
    rfl

theorem last_absent {tij tji : HsTable} {vi vj : List ℕ} (hi : ∀ l ∈ vi, l ≤ 2) (hj : ∀ l ∈ vj, l ≤ 2)
    {li lj : ℕ} (hl1 : li ≤ 2) (hl2 : lj ≤ 2) (h : ¬ (li ∈ vi ∧ lj ∈ vj)) {m : Fin 3} (hm : m.val ≤ min li lj) :
    (pairTables tij tji vi vj).last (skIntegralIndex li lj m) = none := by
  unfold PairTables.last
  rw [List.getLast?_eq_none_iff, List.filter_eq_nil_iff]
  intro f hf
  obtain ⟨ki, k1, kj, k2, n, hn, rfl⟩ := mem_funs.mp hf
  simp only [skFun_idx, decide_eq_true_eq]
  intro hidx
  obtain ⟨rfl, rfl, rfl⟩ := skIntegralIndex_inj ki (hi ki k1) kj (hj kj k2) li hl1 lj hl2 n m hn hm hidx
  exact h ⟨k1, k2⟩

/-! ### Reading -/

/-- Result of reading: for all pairs of present elements both tables are there, the cutoff is the last
distance of the pair's own table, the splines are those of the pair, and the largest cutoff is known. -/
theorem c73_read {present : List String} {par : String → String → Option ParFile} {val : String → List ℕ}
    {st : TabSt} (h : readTables present par val = .ok st) {si sj : String} (hi : si ∈ present)
    (hj : sj ∈ present) :
    ∃ Fij Fji tij tji, par si sj = some Fij ∧ par sj si = some Fji ∧ readHS Fij si sj = .ok tij ∧
      readHS Fji sj si = .ok tji ∧ st.cut si sj = some (tij.x (tij.n - 1)) ∧
      tij.x (tij.n - 1) ≤ st.maxCut ∧
      st.tab si sj = some (pairTables tij tji (val si) (val sj)) := by
  -- the tables as functions of the pair
  have key := foldlM_prefix (f := readPair par val)
    (P := fun l st => (∀ a b v, st.cut a b = some v → ∃ F t, par a b = some F ∧ readHS F a b = .ok t ∧
        v = t.x (t.n - 1)) ∧
      ∀ q ∈ l, ∃ Fij Fji tij tji, par q.1 q.2 = some Fij ∧ par q.2 q.1 = some Fji ∧
        readHS Fij q.1 q.2 = .ok tij ∧ readHS Fji q.2 q.1 = .ok tji ∧
        st.cut q.1 q.2 = some (tij.x (tij.n - 1)) ∧ tij.x (tij.n - 1) ≤ st.maxCut ∧
        st.tab q.1 q.2 = some (pairTables tij tji (val q.1) (val q.2)))
    (by
      intro l s q s' hP hs
      obtain ⟨hc, hl⟩ := hP
      unfold readPair at hs
      cases e1 : par q.1 q.2 with
      | none => rw [e1] at hs; cases hs
      | some Fij =>
        cases e2 : par q.2 q.1 with
        | none => rw [e1, e2] at hs; cases hs
        | some Fji =>
          rw [e1, e2] at hs
          cases e3 : readHS Fij q.1 q.2 with
          | error e => simp [e3, bind, Except.bind] at hs
          | ok tij =>
            cases e4 : readHS Fji q.2 q.1 with
            | error e => simp [e3, e4, bind, Except.bind] at hs
            | ok tji =>
              simp only [e3, e4, bind, Except.bind, pure, Except.pure] at hs
              injection hs with hs
              subst hs
              have same : q.1 = q.2 → tij = tji := by
                intro hq
                rw [hq] at e1 e3
                rw [hq] at e2 e4
                rw [e1] at e2
                injection e2 with e2
                subst e2
                rw [e3] at e4
                injection e4
              have hmax : (if q.1 = q.2 then tji.x (tji.n - 1) else tij.x (tij.n - 1)) = tij.x (tij.n - 1) := by
                split_ifs with hq
                · rw [same hq]
                · rfl
              refine ⟨?_, ?_⟩
              · intro a b v hv
                simp only [set2] at hv
                split_ifs at hv with c1 c2
                · injection hv with hv
                  exact ⟨Fji, tji, by rw [c1.1, c1.2, e2], by rw [c1.1, c1.2, e4], hv.symm⟩
                · injection hv with hv
                  exact ⟨Fij, tij, by rw [c2.1, c2.2, e1], by rw [c2.1, c2.2, e3], hv.symm⟩
                · exact hc a b v hv
              · intro r hr
                -- the cutoff entry of a processed pair stays
                rcases List.mem_append.mp hr with hr | hr
                · obtain ⟨G1, G2, u1, u2, g1, g2, g3, g4, g5, g6, g7⟩ := hl r hr
                  refine ⟨G1, G2, u1, u2, g1, g2, g3, g4, ?_, g6.trans (le_max_left _ _), ?_⟩
                  · simp only [set2]
                    split_ifs with c1 c2
                    · rw [c1.1, c1.2, e2] at g1
                      injection g1 with g1
                      rw [c1.1, c1.2, ← g1, e4] at g3
                      injection g3 with g3
                      rw [g3]
                    · rw [c2.1, c2.2, e1] at g1
                      injection g1 with g1
                      rw [c2.1, c2.2, ← g1, e3] at g3
                      injection g3 with g3
                      rw [g3]
                    · exact g5
                  · simp only [set2]
                    split_ifs with c1
                    · rw [c1.1, c1.2, e1] at g1
                      rw [c1.1, c1.2, e2] at g2
                      injection g1 with g1
                      injection g2 with g2
                      rw [c1.1, c1.2, ← g1, e3] at g3
                      rw [c1.1, c1.2, ← g2, e4] at g4
                      injection g3 with g3
                      injection g4 with g4
                      rw [g3, g4, c1.1, c1.2]
                    · exact g7
                · have : r = q := by simpa using hr
                  subst this
                  refine ⟨Fij, Fji, tij, tji, e1, e2, e3, e4, ?_, ?_, ?_⟩
                  · simp only [set2]
                    by_cases c1 : r.1 = r.2 ∧ r.2 = r.1
                    · rw [if_pos c1, same c1.1]
                    · rw [if_neg c1]; simp
                  · dsimp only; rw [hmax]; exact le_max_right _ _
                  · simp [set2])
    (allPairs present) [] _ st (by
      refine ⟨?_, ?_⟩
      · intro a b v hv; simp at hv
      · simp) h
  exact key.2 (si, sj) (by simpa using mem_allPairs hi hj)

/-- The column documented for an integral: sigma, pi and delta of dd, pd, pp, sd, sp, ss in this order,
the second orbital having the larger angular momentum; S ten columns later. -/
def documentedColumn (li lj : ℕ) (m : Fin 3) : ℕ :=
  (if li = 2 then 0 else if li = 1 then (if lj = 2 then 3 else 5) else (if lj = 2 then 7 else if lj = 1 then 8 else 9))
    + m.val

/-- **C73.**  Every integral between valence orbitals is the spline through its documented column:
of the pair's own table if the second orbital has the larger or equal angular momentum, and otherwise
of the other order's table with the orbitals exchanged and the parity factor; integrals of orbitals
outside the valence are zero.  The Hamiltonian splines use the distances of the pair's own table, the
overlap splines those of the other order's. -/
theorem c73_columns {vi vj : List ℕ} (hi : ∀ l ∈ vi, l ≤ 2) (hj : ∀ l ∈ vj, l ≤ 2) (tij tji : HsTable)
    {li lj : ℕ} (h1 : li ≤ 2) (h2 : lj ≤ 2) {m : Fin 3} (hm : m.val ≤ min li lj) {der : ℕ} (hd : der < 3) (d : ℝ) :
    (li ∈ vi → lj ∈ vj → li ≤ lj →
      some ((pairTables tij tji vi vj).hval der d (skIntegralIndex li lj m))
        = multiCall tij.n tij.x (tij.col (documentedColumn li lj m)) d der ∧
      some ((pairTables tij tji vi vj).sval der d (skIntegralIndex li lj m))
        = multiCall tji.n tji.x (tij.col (documentedColumn li lj m + 10)) d der) ∧
    (li ∈ vi → lj ∈ vj → lj < li →
      some ((pairTables tij tji vi vj).hval der d (skIntegralIndex li lj m))
        = (multiCall tij.n tij.x (tji.col (documentedColumn lj li m)) d der).map (· * (-1) ^ (li + lj)) ∧
      some ((pairTables tij tji vi vj).sval der d (skIntegralIndex li lj m))
        = (multiCall tji.n tji.x (tji.col (documentedColumn lj li m + 10)) d der).map (· * (-1) ^ (li + lj))) ∧
    (¬ (li ∈ vi ∧ lj ∈ vj) →
      (pairTables tij tji vi vj).hval der d (skIntegralIndex li lj m) = 0 ∧
      (pairTables tij tji vi vj).sval der d (skIntegralIndex li lj m) = 0) := by
  have hsome : ∀ n x y, some ((multiCall n x y d der).getD 0) = multiCall n x y d der := by
    intro n x y
    unfold multiCall
    interval_cases der <;> rfl
  have hcol : ∀ li ≤ 2, ∀ lj ≤ 2, ∀ m : Fin 3, m.val ≤ min li lj → li ≤ lj →
      (skIntegralIndex li lj m).val = documentedColumn li lj m := by decide
  have hsw : ∀ li ≤ 2, ∀ lj ≤ 2, isSwapped li lj = decide (lj < li) := by decide
  refine ⟨fun a1 a2 hle => ?_, fun a1 a2 hlt => ?_, fun hno => ?_⟩
  · unfold PairTables.hval PairTables.sval
    rw [last_present hi hj a1 a2 hm]
    have e : isSwapped li lj = false := by rw [hsw li h1 lj h2]; simpa using hle
    simp only [hsome, pairTables, skFun, e, Bool.false_eq_true, if_false, hcol li h1 lj h2 m hm hle]
    exact ⟨trivial, trivial⟩
  · unfold PairTables.hval PairTables.sval
    rw [last_present hi hj a1 a2 hm]
    have e : isSwapped li lj = true := by rw [hsw li h1 lj h2]; simpa using hlt
    simp only [hsome, pairTables, skFun, e, if_true,
      hcol lj h2 li h1 m (by rw [min_comm]; exact hm) hlt.le]
    exact ⟨multiCall_scale _ _ _ _ _ _, multiCall_scale _ _ _ _ _ _⟩
  · unfold PairTables.hval PairTables.sval
    rw [last_absent hi hj h1 h2 hno hm]
    exact ⟨rfl, rfl⟩

/-- **C73.**  If the tables of both orders use the same distances, the integrals of the two orders are
related by the parity, for unequal angular momenta always and for equal ones if the two tables agree
there. -/
theorem c73_parity {vi vj : List ℕ} (hi : ∀ l ∈ vi, l ≤ 2) (hj : ∀ l ∈ vj, l ≤ 2) {tij tji : HsTable}
    (hn : tij.n = tji.n) (hx : tij.x = tji.x) {li lj : ℕ} (h1 : li ≤ 2) (h2 : lj ≤ 2) {m : Fin 3}
    (hm : m.val ≤ min li lj)
    (heq : li = lj → tij.col (documentedColumn li lj m) = tji.col (documentedColumn li lj m) ∧
      tij.col (documentedColumn li lj m + 10) = tji.col (documentedColumn li lj m + 10))
    {der : ℕ} (hd : der < 3) (d : ℝ) :
    (pairTables tji tij vj vi).hval der d (skIntegralIndex lj li m)
        = (-1) ^ (li + lj) * (pairTables tij tji vi vj).hval der d (skIntegralIndex li lj m) ∧
    (pairTables tji tij vj vi).sval der d (skIntegralIndex lj li m)
        = (-1) ^ (li + lj) * (pairTables tij tji vi vj).sval der d (skIntegralIndex li lj m) := by
  have hm' : m.val ≤ min lj li := by rw [min_comm]; exact hm
  obtain ⟨A1, A2, A3⟩ := c73_columns hi hj tij tji h1 h2 hm hd d
  obtain ⟨B1, B2, B3⟩ := c73_columns hj hi tji tij h2 h1 hm' hd d
  by_cases hv : li ∈ vi ∧ lj ∈ vj
  swap
  · rw [(A3 hv).1, (A3 hv).2, (B3 fun h => hv ⟨h.2, h.1⟩).1, (B3 fun h => hv ⟨h.2, h.1⟩).2]
    simp
  have hsq : ((-1 : ℝ)) ^ (li + lj) * (-1) ^ (li + lj) = 1 := by
    rw [← pow_add, ← two_mul, pow_mul]; simp
  rcases lt_trichotomy li lj with hlt | rfl | hlt
  · obtain ⟨a, b⟩ := A1 hv.1 hv.2 hlt.le
    obtain ⟨c, e⟩ := B2 hv.2 hv.1 hlt
    rw [← hn, ← hx] at c
    rw [← hn, ← hx] at b
    rw [← a, Option.map_some, Option.some.injEq] at c
    rw [← b, Option.map_some, Option.some.injEq] at e
    exact ⟨by rw [c, add_comm lj li, mul_comm], by rw [e, add_comm lj li, mul_comm]⟩
  · obtain ⟨a, b⟩ := A1 hv.1 hv.2 (le_refl _)
    obtain ⟨c, e⟩ := B1 hv.2 hv.1 (le_refl _)
    rw [← hn, ← hx, ← (heq rfl).1, ← a, Option.some.injEq] at c
    rw [hn, hx, ← (heq rfl).2, ← b, Option.some.injEq] at e
    rw [c, e, ← two_mul, pow_mul]
    simp
  · obtain ⟨a, b⟩ := A2 hv.1 hv.2 hlt
    obtain ⟨c, e⟩ := B1 hv.2 hv.1 hlt.le
    rw [← hn, ← hx] at c
    rw [← hn, ← hx] at b
    rw [← c, Option.map_some, Option.some.injEq] at a
    rw [← e, Option.map_some, Option.some.injEq] at b
    constructor
    · rw [a, mul_comm _ ((-1 : ℝ) ^ (li + lj)), ← mul_assoc, hsq, one_mul]
    · rw [b, mul_comm _ ((-1 : ℝ) ^ (li + lj)), ← mul_assoc, hsq, one_mul]

/-- **C73.**  For two atoms of the same element the tables always have the parity the Hermiticity of the
matrices needs. -/
theorem c73_same_element {v : List ℕ} (hv : ∀ l ∈ v, l ≤ 2) (t : HsTable) :
    ParityTable SkTable.h (pairTables t t v v).toSk ∧ ParityTable SkTable.s (pairTables t t v v).toSk := by
  constructor <;> intro d la hla lb hlb m hm
  · exact (c73_parity hv hv rfl rfl hla hlb hm (fun _ => ⟨rfl, rfl⟩) (der := 0) (by norm_num) d).1
  · exact (c73_parity hv hv rfl rfl hla hlb hm (fun _ => ⟨rfl, rfl⟩) (der := 0) (by norm_num) d).2

/-- **C73.**  On uniform distances common to both orders, the derivative arrays used for the forces are the
derivatives of the interpolated integrals, strictly inside the range. -/
theorem c73_smooth {vi vj : List ℕ} {tij tji : HsTable} (hn : 2 ≤ tij.n) (hu : Uniform tij.n tij.x)
    (hn2 : tij.n = tji.n) (hx : tij.x = tji.x) {d : ℝ}
    (h1 : (pairTables tij tji vi vj).toSk.r1 < d) (h2 : d < (pairTables tij tji vi vj).toSk.r2) (m : Fin 14) :
    HasDerivAt (fun x => (pairTables tij tji vi vj).toSk.h x m) ((pairTables tij tji vi vj).toSk.dh d m) d ∧
    HasDerivAt (fun x => (pairTables tij tji vi vj).toSk.s x m) ((pairTables tij tji vi vj).toSk.ds d m) d := by
  have key : ∀ y : ℕ → ℝ, HasDerivAt (fun x => (multiCall tij.n tij.x y x 0).getD 0)
      ((multiCall tij.n tij.x y d 1).getD 0) d := by
    intro y
    obtain ⟨f, hf, hs, _⟩ := c40_multi y hn hu
    have := hs.deriv d h1 h2
    simp only [hf _ 0 (by norm_num), hf _ 1 (by norm_num), Option.getD_some]
    exact this
  have hP : (pairTables tij tji vi vj).hn = tij.n ∧ (pairTables tij tji vi vj).hx = tij.x ∧
      (pairTables tij tji vi vj).sn = tij.n ∧ (pairTables tij tji vi vj).sx = tij.x :=
    ⟨rfl, rfl, hn2.symm, hx.symm⟩
  simp only [PairTables.toSk, PairTables.hval, PairTables.sval, hP.1, hP.2.1, hP.2.2.1, hP.2.2.2]
  cases (pairTables tij tji vi vj).last m with
  | none => exact ⟨hasDerivAt_const _ _, hasDerivAt_const _ _⟩
  | some f => exact ⟨key f.h, key f.s⟩

/-- **C73.**  The interaction ranges of the two orders agree if the tables have the same distances. -/
theorem c73_range {present : List String} {par : String → String → Option ParFile} {val : String → List ℕ}
    {st : TabSt} (h : readTables present par val = .ok st) {si sj : String} (hi : si ∈ present)
    (hj : sj ∈ present)
    (hsame : ∀ Fij Fji tij tji, par si sj = some Fij → par sj si = some Fji → readHS Fij si sj = .ok tij →
      readHS Fji sj si = .ok tji → tij.x (tij.n - 1) = tji.x (tji.n - 1)) :
    st.cut si sj = st.cut sj si := by
  obtain ⟨Fij, Fji, tij, tji, a1, a2, a3, a4, a5, _⟩ := c73_read h hi hj
  obtain ⟨Gij, Gji, uij, uji, b1, b2, b3, b4, b5, _⟩ := c73_read h hj hi
  rw [a2] at b1
  injection b1 with b1
  subst b1
  rw [a4] at b3
  injection b3 with b3
  subst b3
  rw [a5, b5, hsame _ _ _ _ a1 a2 a3 a4]

/-! ### What goes wrong -/

theorem c73_init_aux {n : ℕ} {l : List SkFun} {f : SkFun} (hf : f ∈ l) (hne : n ≠ f.len) :
    l.forM (fun f => multiInit n f.len) = .error .runtimeError := by
  induction l with
  | nil => exact absurd hf (List.not_mem_nil)
  | cons g l ih =>
    show (multiInit n g.len >>= fun _ => l.forM (fun f => multiInit n f.len)) = _
    by_cases hg : n = g.len
    · have : multiInit n g.len = .ok () := by simp [multiInit, hg]
      rw [this]
      rcases List.mem_cons.mp hf with rfl | hf
      · exact absurd hg hne
      · exact ih hf
    · have : multiInit n g.len = .error .runtimeError := by simp [multiInit, hg]
      rw [this]; rfl

/-- **C73.**  Tables of different lengths for the two orders are read without complaint but raise
`RuntimeError` when first used. -/
theorem c73_lengths {vi vj : List ℕ} {tij tji : HsTable} (hne : tij.n ≠ tji.n)
    (hf : (pairTables tij tji vi vj).funs ≠ []) : (pairTables tij tji vi vj).init = .error .runtimeError := by
  obtain ⟨f, hf⟩ := List.exists_mem_of_ne_nil _ hf
  obtain ⟨li, _, lj, _, m, _, rfl⟩ := mem_funs.mp hf
  unfold PairTables.init
  by_cases hs : isSwapped li lj = true
  · have hl : (skFun tij tji li lj m).len = tji.n := by simp [skFun, hs]
    rw [c73_init_aux hf (n := (pairTables tij tji vi vj).hn) (by rw [hl]; exact hne)]
    rfl
  · have hl : (skFun tij tji li lj m).len = tij.n := by simp [skFun, hs]
    have h2 := c73_init_aux hf (n := (pairTables tij tji vi vj).sn) (by rw [hl]; exact fun h => hne h.symm)
    cases h1 : (pairTables tij tji vi vj).funs.forM (fun f => multiInit (pairTables tij tji vi vj).hn f.len) with
    | ok u => simp only [bind, Except.bind]; exact h2
    | error e =>
      simp only [bind, Except.bind]
      -- the first loop can only raise the same error
      have : ∀ l : List SkFun, ∀ n e, l.forM (fun f => multiInit n f.len) = .error e → e = .runtimeError := by
        intro l n e
        induction l with
        | nil => intro h; cases h
        | cons g l ih =>
          intro h
          have h : (multiInit n g.len >>= fun _ => l.forM (fun f => multiInit n f.len)) = .error e := h
          by_cases hg : n = g.len
          · have e1 : multiInit n g.len = .ok () := by simp [multiInit, hg]
            rw [e1] at h
            exact ih h
          · have e1 : multiInit n g.len = .error .runtimeError := by simp [multiInit, hg]
            rw [e1] at h
            simp only [bind, Except.bind] at h
            injection h with h
            exact h.symm
      rw [this _ _ _ h1]

/-- Two points at distances 1, 2; the ss overlap (column 19) is 1 and 0. -/
noncomputable def shortTable : HsTable := ⟨2, fun r => (r : ℝ) + 1, fun c r => if c = 19 ∧ r = 0 then 1 else 0⟩
/-- Two points at distances 1, 3. -/
noncomputable def longTable : HsTable := ⟨2, fun r => 2 * (r : ℝ) + 1, fun _ _ => 0⟩

/-- **C73, refuted.**  If the tables of the two orders have different distances (and equal length), the
overlap integrals are interpolated on the wrong distances: at a tabulated distance the value is not the
tabulated one. -/
theorem c73_mixed_grids_fails :
    (pairTables shortTable longTable [0] [0]).sval 0 2 (skIntegralIndex 0 0 0) = 1 / 2 ∧
    shortTable.x 1 = 2 ∧ shortTable.col (documentedColumn 0 0 0 + 10) 1 = 0 := by
  refine ⟨?_, by norm_num [shortTable], by norm_num [shortTable]⟩
  have h := ((c73_columns (vi := [0]) (vj := [0]) (by simp) (by simp) shortTable longTable (li := 0) (lj := 0)
    (by norm_num) (by norm_num) (m := 0) (by norm_num) (der := 0) (by norm_num) 2).1 (by simp) (by simp)
    (le_refl _)).2
  have hu : Uniform longTable.n longTable.x := ⟨2, by norm_num, fun i _ => by simp [longTable]; ring⟩
  rw [multiCall_inside _ (show 2 ≤ longTable.n from le_refl 2) hu (i := 0) (by norm_num [longTable]) (by norm_num [longTable])
    (by norm_num [longTable])] at h
  simp only [pieceD, Option.some.injEq] at h
  rw [h]
  simp only [piece0, splineD2, longTable, shortTable, splineBack, documentedColumn]
  norm_num [splineFwd, splineBack]

/-- **C73, refuted.**  The documented way to switch an interaction off never works: the null file has an
`X_X_table`, which raises. -/
theorem c73_null_fails {present : List String} {par : String → String → Option ParFile} (val : String → List ℕ)
    {a b : String} (ha : a ∈ present) (hb : b ∈ present) {F : ParFile} (hF : par a b = some F) (hx : F.xx = true) :
    ∀ st, readTables present par val ≠ .ok st := by
  intro st hst
  obtain ⟨Fij, _, tij, _, h1, _, h3, _⟩ := c73_read hst ha hb
  rw [hF] at h1
  injection h1 with h1
  subst h1
  simp [readHS, hx] at h3

/-- For one element the exception is a `TypeError`. -/
theorem c73_null_typeError (F : ParFile) (hx : F.xx = true) (val : String → List ℕ) (a : String) :
    readTables [a] (fun _ _ => some F) val = .error .typeError := by
  simp [readTables, allPairs, readPair, readHS, hx, bind, Except.bind]

/-! ### A concrete case -/

/-- Carbon-hydrogen tables on distances 1, 2, 3. -/
noncomputable def chFile : ParFile where
  xx := false
  table := fun a b => if a = "C" ∨ b = "C" then some ⟨3, fun r => (r : ℝ) + 1, fun c r => (c : ℝ) - r⟩
    else some ⟨3, fun r => (r : ℝ) + 1, fun c r => (c : ℝ) * r⟩

example : ∃ st, readTables ["C", "H"] (fun _ _ => some chFile) (fun a => if a = "C" then [0, 1] else [0]) = .ok st ∧
    st.cut "C" "H" = some 3 ∧ st.cut "C" "H" = st.cut "H" "C" := by
  refine ⟨_, rfl, ?_, ?_⟩
  · simp [set2]; norm_num
  · simp [set2]

end Hotbit
