import Verif.Model.Fitting
import Verif.Lemmas.Containers
import Verif.Props.Repulsion
import Mathlib.Analysis.Calculus.Deriv.MeanValue
import Mathlib.Analysis.Calculus.Deriv.Inv
import Mathlib.LinearAlgebra.Lagrange
import Mathlib.Tactic

/-!
# C110: points for fitting repulsions
-/

namespace Hotbit

/-! ### Points and comments -/

/-- What a user gives to `append_point`. -/
structure PointArgs where
  weight : ℝ
  R : ℝ
  dv : ℝ
  comment : Option (List Char)
  label : Option (List Char)
  color : List Char

/-- The comment that is written for a point: its comment or else its label; points without legend have none. -/
def PointArgs.note (a : PointArgs) : Option (List Char) :=
  match a.comment.or a.label with
  | none => none
  | some c => if c = [] ∨ c = "_nolegend_".toList then none else some c

theorem appendPoint_deriv (F : Fitting) (weight R : ℝ) (dv : Option ℝ) (comment label : Option (List Char)) (color : List Char) :
    (F.appendPoint weight R dv comment label color).deriv =
      F.deriv ++ [⟨R, dv, weight, color, label.or (comment.or label)⟩] := by
  have hadd : ∀ (F : Fitting) s, (F.addComment s).deriv = F.deriv := by
    intro F s
    unfold Fitting.addComment
    split
    · rfl
    · split <;> rfl
  unfold Fitting.appendPoint
  have : (if label = none then (if comment = none then label else comment) else label) = label.or (comment.or label) := by
    cases label <;> cases comment <;> rfl
  have hk : (if comment = none then label else comment) = comment.or label := by cases comment <;> rfl
  simp only [this]
  simp only [hk]
  split
  · rw [hadd]
  · rfl

theorem appendPoint_keep (F : Fitting) (weight R : ℝ) (dv : Option ℝ) (comment label : Option (List Char)) (color : List Char) :
    let F' := F.appendPoint weight R dv comment label color
    F'.rcut = F.rcut ∧ F'.k = F.k ∧ F'.s = F.s ∧ F'.tol = F.tol ∧ F'.v = F.v ∧ F'.colors = F.colors ∧ F'.colori = F.colori ∧
      F'.sym1 = F.sym1 ∧ F'.sym2 = F.sym2 ∧ F'.rDimer = F.rDimer := by
  simp only [Fitting.appendPoint, Fitting.addComment]
  split_ifs <;> (try split) <;> (try split_ifs) <;> simp

theorem appendPoint_comments (F : Fitting) (a : PointArgs) (notes : List (List Char)) (hn : ∀ c ∈ notes, c ≠ [])
    (hF : F.comments = List.intercalate ['|'] notes) :
    (F.appendPoint a.weight a.R (some a.dv) a.comment a.label a.color).comments =
      List.intercalate ['|'] (notes ++ a.note.toList) := by
  have hlen : F.comments.length = 0 ↔ notes = [] := by
    rw [hF]
    constructor
    · intro h
      rcases notes with _ | ⟨c, cs⟩
      · rfl
      · exfalso
        have hc : c ≠ [] := hn c List.mem_cons_self
        rw [List.length_eq_zero_iff] at h
        cases cs with
        | nil => simp [List.intercalate] at h; exact hc h
        | cons d ds => simp [List.intercalate, List.intersperse] at h
    · rintro rfl; rfl
  have happ : ∀ c : List Char, F.comments ++ (if F.comments.length = 0 then [] else ['|']) ++ c =
      List.intercalate ['|'] (notes ++ [c]) := by
    intro c
    by_cases h0 : notes = []
    · rw [if_pos (hlen.2 h0), hF, h0]
      simp [List.intercalate]
    · rw [if_neg (fun h => h0 (hlen.1 h)), hF]
      clear hlen hF hn
      induction notes with
      | nil => exact absurd rfl h0
      | cons d ds ih =>
        cases ds with
        | nil => simp [List.intercalate, List.intersperse]
        | cons e es =>
          have := ih (by simp)
          simp only [List.intercalate, List.cons_append, List.intersperse_cons_cons, List.flatten_cons] at this ⊢
          rw [← this]
          simp
  have hk : (if a.comment = none then a.label else a.comment) = a.comment.or a.label := by
    cases a.comment <;> rfl
  unfold Fitting.appendPoint PointArgs.note
  simp only [hk]
  cases h : a.comment.or a.label with
  | none => simpa [Fitting.addComment] using hF
  | some c =>
    by_cases hnl : c = "_nolegend_".toList
    · rw [if_neg (by simp [hnl])]
      simpa [hnl] using hF
    · rw [if_pos (by simpa using hnl)]
      by_cases he : c = []
      · simpa [Fitting.addComment, he] using hF
      · simp only [Fitting.addComment, if_neg he, he, hnl, or_self, if_false, Option.toList_some]
        exact happ c

/-- **C110.** After any history of added points the fit uses exactly these points, in order, with their weights, and the comment for
the file is made of the comments of the points, separated by bars. -/
theorem c110_points (sym1 sym2 : String) (rcut : ℝ) (h : List PointArgs) :
    let F := h.foldl (fun (F : Fitting) a => F.appendPoint a.weight a.R (some a.dv) a.comment a.label a.color)
      { sym1 := sym1, sym2 := sym2, rcut := rcut }
    F.deriv.map (fun p => (p.R, p.dv, p.w)) = h.map (fun a => (a.R, some a.dv, a.weight)) ∧
      F.comments = List.intercalate ['|'] (h.filterMap PointArgs.note) := by
  induction h using List.reverseRecOn with
  | nil => exact ⟨rfl, rfl⟩
  | append_singleton l a ih =>
    simp only [List.foldl_append, List.foldl_cons, List.foldl_nil] at ih ⊢
    constructor
    · rw [appendPoint_deriv, List.map_append, ih.1]
      simp
    · rw [appendPoint_comments _ a (l.filterMap PointArgs.note) ?_ ih.2]
      · rw [List.filterMap_append]
        cases h : a.note <;> simp [h]
      · intro c hc
        obtain ⟨b, -, hb⟩ := List.mem_filterMap.1 hc
        unfold PointArgs.note at hb
        split at hb
        · cases hb
        · split at hb
          · cases hb
          · rename_i h
            cases hb
            exact fun h' => h (Or.inl h')

/-- Three points, two with a comment. -/
example : (([⟨1, 2, -3, some "a".toList, none, []⟩, ⟨1, 3, -2, none, some "_nolegend_".toList, []⟩,
    ⟨1, 4, -1, none, some "b".toList, []⟩] : List PointArgs).filterMap PointArgs.note) = ["a".toList, "b".toList] := by
  rfl

/-- **C110.** Saved points and comments are the ones loaded. -/
theorem c110_saved (F F' : Fitting) :
    ∃ d, F.writeData true = .ok d ∧ (F'.loadData d).deriv = F.deriv ∧ (F'.loadData d).comments = F.comments :=
  ⟨_, rfl, rfl, rfl⟩

/-- **C110 fails for saving as text**: this always raises an error. -/
theorem c110_text_fails (F : Fitting) : F.writeData false = .error .typeError := rfl

/-! ### Colours -/

/-- **C110 fails for the ninth point without a colour**: after eight calls with automatic colours the next one raises an error, and so
does every later one. -/
theorem c110_color_fails (F : Fitting) (hc : F.colors = some (["red", "green", "blue", "cyan", "yellow", "orange", "magenta", "pink",
      "black"].map String.toList)) (h0 : F.colori = 8) (n : ℕ) :
    (((fun G : Fitting => (G.getColor none).1)^[n] F).getColor none).2 = .error .typeError := by
  have key : ∀ G : Fitting, G.colors = none → (G.getColor none).2 = .error .typeError ∧ (G.getColor none).1.colors = none := by
    intro G hG
    simp [Fitting.getColor, hG]
  have first : (F.getColor none).2 = .error .typeError ∧ (F.getColor none).1.colors = none := by
    simp [Fitting.getColor, hc, h0]
  have all : ∀ n, 0 < n → ((fun G : Fitting => (G.getColor none).1)^[n] F).colors = none := by
    intro n hn
    obtain ⟨m, rfl⟩ : ∃ m, n = m + 1 := ⟨n - 1, by omega⟩
    induction m with
    | zero => exact first.2
    | succ m ih =>
      rw [Function.iterate_succ_apply']
      exact (key _ (ih (by omega))).2
  rcases Nat.eq_zero_or_pos n with rfl | hn
  · exact first.1
  · exact (key _ (all n hn)).1

/-- The eight calls before give the first eight colours. -/
theorem c110_colors (F : Fitting) (cs : List (List Char)) (hc : F.colors = some cs) (n : ℕ) (h0 : F.colori = n)
    (hn : n + 1 < cs.length) :
    (F.getColor none).2 = .ok (cs.getD n []) ∧ (F.getColor none).1.colors = some cs ∧ (F.getColor none).1.colori = n + 1 := by
  have h1 : n < cs.length := by omega
  have h2 : n + 1 ≠ cs.length := by omega
  simp [Fitting.getColor, hc, h0, h1, h2]

/-- The state of a new fit after eight automatic colours. -/
example : ∃ F : Fitting, F = ((fun G : Fitting => (G.getColor none).1)^[8] { sym1 := "Au", sym2 := "Au", rcut := 3 }) ∧
    F.colori = 8 := by
  refine ⟨_, rfl, ?_⟩
  simp [Function.iterate_succ_apply', Fitting.getColor]

/-! ### Scalable systems -/

theorem getColor_some (F : Fitting) (c : List Char) : F.getColor (some c) = (F, .ok c) := rfl

/-- **C110.** A structure in equilibrium with `N` bonds of length `R` (up to the tolerance) gives a point at `R`; its value is minus
the derivative, per bond, of the energy without repulsion with respect to the bond length, at a length between `R` and `1.025 R`. -/
theorem c110_scalable (F : Fitting) (fmt : ℝ → List Char) (weight : ℝ) (E E' : ℝ → ℝ) (distances : List ℝ)
    (comment label : Option (List Char)) (color : List Char) (hne : distances ≠ [])
    (htol : ∀ a ∈ distances, ∀ b ∈ distances, a - b ≤ F.tol) (hpos : ∀ d ∈ distances, 0 < d)
    (hc : comment.or label ≠ none)
    (hE : let R := distances.sum / distances.length
      ∀ x ∈ Set.Icc R (1.025 * R), HasDerivAt E (E' x) x) :
    let R := distances.sum / distances.length
    ∃ ξ ∈ Set.Ioo R (1.025 * R), ∃ p : FitPoint,
      let r := F.appendScalable fmt weight (fun c => E (c * R)) distances comment label (some color)
      r.2 = .ok () ∧ r.1.deriv = F.deriv ++ [p] ∧ p.R = R ∧ p.dv = some (-E' ξ / distances.length) ∧ p.w = weight := by
  intro R
  have hn : 0 < distances.length := List.length_pos_iff.2 hne
  have hR : 0 < R := by
    have : 0 < distances.sum := List.sum_pos distances hpos hne
    exact div_pos this (by exact_mod_cast hn)
  have hmem : ∀ (f : ℝ → ℝ → ℝ) (hf : ∀ a b, f a b = a ∨ f a b = b) (l : List ℝ) (a : ℝ), l.foldl f a ∈ a :: l := by
    intro f hf l
    induction l with
    | nil => intro a; simp
    | cons b l ih =>
      intro a
      rw [List.foldl_cons]
      have := ih (f a b)
      rcases List.mem_cons.1 this with h | h
      · rw [h]
        rcases hf a b with h | h <;> rw [h] <;> simp
      · simp [h]
  obtain ⟨a, l, rfl⟩ := List.exists_cons_of_ne_nil hne
  have hmax : listMax (a :: l) ∈ a :: l := hmem max (fun a b => max_choice a b) l a
  have hmin : listMin (a :: l) ∈ a :: l := hmem min (fun a b => min_choice a b) l a
  have hb : F.bonds (a :: l) = .ok (.bonds R (a :: l).length) := by
    unfold Fitting.bonds
    rw [if_neg (by omega), if_neg (not_lt.2 (htol _ hmax _ hmin))]
  have hlt : R < 1.025 * R := by nlinarith
  obtain ⟨ξ, hξ, hder⟩ := exists_hasDerivAt_eq_slope E E' hlt
    (fun x hx => (hE x hx).continuousAt.continuousWithinAt) (fun x hx => hE x ⟨hx.1.le, hx.2.le⟩)
  obtain ⟨c, hcm⟩ : ∃ c, (if comment = none then label else comment) = some c := by
    cases comment with
    | none =>
      cases label with
      | none => simp at hc
      | some c => exact ⟨c, rfl⟩
    | some c => exact ⟨c, rfl⟩
  refine ⟨ξ, hξ, ⟨R, some (-((E (fitScale * R) - E (1 * R)) / (fitScale * R - R)) / ((a :: l).length : ℕ)), weight, color,
    (if label = none then some c else label).or ((some (c ++ ";w=".toList ++ fmt weight)).or (if label = none then some c else label))⟩,
    ?_⟩
  simp only [Fitting.appendScalable, hb, getColor_some, hcm]
  refine ⟨trivial, appendPoint_deriv _ _ _ _ _ _ _, trivial, ?_, trivial⟩
  rw [hder]
  unfold fitScale
  rw [one_mul]

/-- A dimer of length 2 whose energy without repulsion is `-10/r`. -/
example : ∃ ξ ∈ Set.Ioo (2 : ℝ) 2.05, ∃ p : FitPoint,
    ((({ sym1 := "Au", sym2 := "Au", rcut := 3 } : Fitting).appendScalable (fun _ => []) 1 (fun c => -10 / (c * 2)) [2]
      (some "Au2".toList) none (some [])).1.deriv = [p]) ∧ p.R = 2 ∧ p.dv = some (-(10 / ξ ^ 2)) := by
  obtain ⟨ξ, hξ, p, h1, h2, h3, h4, h5⟩ := c110_scalable { sym1 := "Au", sym2 := "Au", rcut := 3 } (fun _ => []) 1
    (fun r => -10 / r) (fun r => 10 / r ^ 2) [2] (some "Au2".toList) none [] (by simp) (by simp; norm_num) (by simp) (by simp)
    (by
      intro R x hx
      have hR : R = 2 := by simp [R]
      rw [hR] at hx
      have hx0 : x ≠ 0 := by have := hx.1; positivity
      have := (hasDerivAt_inv hx0).const_mul (-10)
      refine (this.congr_deriv ?_)
      field_simp)
  have hR : ([2] : List ℝ).sum / ([2] : List ℝ).length = 2 := by simp
  rw [hR] at hξ
  refine ⟨ξ, ⟨hξ.1, by have := hξ.2; norm_num at this ⊢; linarith⟩, p, ?_, by simpa using h3, by simpa using h4⟩
  simpa using h2

/-- **C110 fails without comment and label**, the default arguments: after the energies were calculated an error is raised. -/
theorem c110_default_fails (F : Fitting) (fmt : ℝ → List Char) (weight : ℝ) (energy : ℝ → ℝ) (distances : List ℝ) (color : List Char)
    (b : Bonds) (hb : F.bonds distances = .ok b) :
    (F.appendScalable fmt weight energy distances none none (some color)).2 = .error .typeError := by
  simp [Fitting.appendScalable, hb, getColor_some]

/-- **C110 fails for structures without bonds within the cutoff**: an error is raised, but a point without value was added, and every
fit with it raises an error. -/
theorem c110_no_bonds_fails (F : Fitting) (fmt : ℝ → List Char) (weight : ℝ) (energy : ℝ → ℝ) (comment color : List Char)
    (label : Option (List Char)) (S : Scipy) (more : List FitPoint) :
    let r := F.appendScalable fmt weight energy [] (some comment) label (some color)
    r.2 = .error .typeError ∧ r.1.deriv.length = F.deriv.length + 1 ∧
      ({ r.1 with deriv := r.1.deriv ++ more }.fit S).2 = .error .valueError := by
  intro r
  have hr : r = (F.appendPoint weight 0 none (some (comment ++ ";w=".toList ++ fmt weight))
      (if label = none then some comment else label) color, .error .typeError) := by
    simp [r, Fitting.appendScalable, Fitting.bonds, getColor_some]
  have hd := appendPoint_deriv F weight 0 none (some (comment ++ ";w=".toList ++ fmt weight))
      (if label = none then some comment else label) color
  rw [hr]
  refine ⟨rfl, by rw [hd]; simp, ?_⟩
  have hfail : ∀ (l : List FitPoint) (l' : List FitPoint) (p : FitPoint), p.dv = none →
      fitData (l ++ p :: l') = .error .valueError := by
    intro l l' p hp
    unfold fitData
    induction l with
    | nil =>
      simp only [List.nil_append, List.mapM_cons, hp, bind, Except.bind]
    | cons q l ih =>
      simp only [List.cons_append, List.mapM_cons, bind, Except.bind]
      cases q.dv with
      | none => rfl
      | some d =>
        simp only
        rw [ih]
  have : fitPoints F.rcut ((F.appendPoint weight 0 none (some (comment ++ ";w=".toList ++ fmt weight))
      (if label = none then some comment else label) color).deriv ++ more) = .error .valueError := by
    unfold fitPoints
    rw [hd, List.append_assoc, List.singleton_append, hfail _ _ _ rfl]
    rfl
  unfold Fitting.fit
  simp only [(appendPoint_keep F weight 0 none (some (comment ++ ";w=".toList ++ fmt weight))
      (if label = none then some comment else label) color).1, this]

/-- **C110.** The dimer has the one bond length asked for, if it is within the cutoff. -/
theorem c110_dimer (sym1 sym2 : String) (bohr R rcut : ℝ) (hb : 0 < bohr) (hR : 0 < R) :
    repDistances (dimerGeom sym1 sym2 bohr R) bohr sym1 sym2 rcut = if R ≤ rcut then [R] else [] := by
  have hn : norm3 (![R / bohr, 0, 0] - 0) = R / bohr := by
    unfold norm3
    simp [Real.sqrt_sq (div_pos hR hb).le]
  have hle : R / bohr ≤ rcut / bohr ↔ R ≤ rcut := div_le_div_iff_of_pos_right hb
  have h01 : (List.range' 0 (2 - 0)) = [0, 1] := rfl
  have h11 : (List.range' 1 (2 - 1)) = [1] := rfl
  unfold repDistances dimerGeom Geom.rij
  simp only [List.range_succ, List.range_zero, List.nil_append, List.flatMap_append, List.flatMap_cons, List.flatMap_nil,
    List.append_nil, h01, h11, List.zipIdx_cons, List.zipIdx_nil, List.filterMap_cons, List.filterMap_nil, hn, hle, if_true,
    and_self, one_ne_zero, if_false, zero_ne_one, false_and, true_or, not_true_eq_false]
  by_cases h : R ≤ rcut
  · simp [h, hb.ne']
  · simp [h]

/-- **C110.** Adding a dimer of a bond length within the cutoff gives one point there; its value is minus the derivative of the
energy without repulsion at a length between `R` and `1.025 R`. -/
theorem c110_append_dimer (F : Fitting) (fmt : ℝ → List Char) (bohr weight : ℝ) (E E' : ℝ → ℝ) (R : ℝ)
    (comment : Option (List Char)) (color : List Char) (hb : 0 < bohr) (hR : 0 < R) (hr : R ≤ F.rcut) (ht : 0 ≤ F.tol)
    (hE : ∀ x ∈ Set.Icc R (1.025 * R), HasDerivAt E (E' x) x) :
    ∃ ξ ∈ Set.Ioo R (1.025 * R), ∃ p : FitPoint,
      let r := F.appendDimer fmt bohr weight (fun c => E (c * R)) R comment (some "dimer".toList) (some color)
      r.2 = .ok () ∧ r.1.deriv = F.deriv ++ [p] ∧ p.R = R ∧ p.dv = some (-E' ξ) ∧ p.w = weight := by
  have hc : (if comment = none then some "dimer".toList else comment).or (some "dimer".toList) ≠ none := by
    cases comment <;> simp
  have key := c110_scalable { F with rDimer := some R } fmt weight E E' [R]
    (if comment = none then some "dimer".toList else comment) (some "dimer".toList) color (by simp)
    (by simpa using ht) (by simpa using hR) hc (by simpa using hE)
  simp only [List.sum_cons, List.sum_nil, add_zero, List.length_cons, List.length_nil, zero_add, Nat.cast_one, div_one] at key
  obtain ⟨ξ, hξ, p, h1, h2, h3, h4, h5⟩ := key
  refine ⟨ξ, hξ, p, ?_⟩
  unfold Fitting.appendDimer
  simp only [getColor_some, c110_dimer _ _ _ _ _ hb hR, if_pos hr]
  exact ⟨h1, h2, h3, h4, h5⟩

/-- Hypotheses of `c110_append_dimer`: a quadratic energy. -/
example (F : Fitting) (hr : 1 ≤ F.rcut) (ht : F.tol = 0.005) : ∃ ξ ∈ Set.Ioo (1 : ℝ) (1.025 * 1), ∃ p : FitPoint,
    let r := F.appendDimer (fun _ => []) 0.5 2 (fun c => (c * 1) ^ 2) 1 none (some "dimer".toList) (some ['b'])
    r.2 = .ok () ∧ r.1.deriv = F.deriv ++ [p] ∧ p.R = 1 ∧ p.dv = some (-(2 * ξ)) ∧ p.w = 2 :=
  c110_append_dimer F _ 0.5 2 (fun x => x ^ 2) (fun x => 2 * x) 1 none ['b'] (by norm_num) (by norm_num) hr
    (by rw [ht]; norm_num) fun x _ => by simpa using hasDerivAt_pow 2 x

/-! ### The number of bonds -/

open Classical in
/-- **C110.** When no atom has an image of itself within the cutoff, the repulsive energy of the structure is the sum of the
potential over the distances found: `N V(R)` if there are `N` distances, all `R`. -/
theorem c110_bonds {G : Geom} {V : String → String → Pot} {rmax hartree bohr rcut E : ℝ} {ela elb : String} (v : ℝ → ℝ)
    (h0 : ∃ rest, G.ntuples = 0 :: rest ∧ (0 : Op) ∉ rest) (hb : 0 < bohr) (hr : rcut / bohr ≤ rmax)
    (hV : ∀ s t d, V s t 0 d = if ((s = ela ∧ t = elb) ∨ (t = ela ∧ s = elb)) ∧ d ≤ rcut / bohr then v d else 0)
    (hself : ∀ i < G.N, ∀ n ∈ G.ntuples, n ≠ 0 → rcut / bohr < norm3 (G.rij n i i))
    (hE : repEnergy G V rmax hartree = .ok E) :
    E = ((repDistances G bohr ela elb rcut).map fun d => v (d / bohr)).sum * hartree ∧
      ∀ R, (∀ d ∈ repDistances G bohr ela elb rcut, d = R) →
        E = (repDistances G bohr ela elb rcut).length * v (R / bohr) * hartree := by
  have main : E = ((repDistances G bohr ela elb rcut).map fun d => v (d / bohr)).sum * hartree := by
    unfold repEnergy at hE
    cases hf : (List.range G.N).foldlM (fun e i => (List.range' i (G.N - i)).foldlM
        (fun e j => G.ntuples.zipIdx.foldlM (repStep G V rmax i j) e) e) 0 with
    | error x => rw [hf] at hE; simp [bind, Except.bind] at hE
    | ok e =>
      rw [hf] at hE
      simp only [bind, Except.bind, pure, Except.pure, Except.ok.injEq] at hE
      rw [← hE]
      congr 1
      have h1 := foldlM_add_of_ok (List.range G.N)
        (fun i => ((List.range' i (G.N - i)).map fun j =>
          (G.ntuples.zipIdx.map fun im => if i = j then (if i = j ∧ im.2 = 0 then 0 else
            1 / 2 * cutPot G V rmax i j (norm3 (G.rij im.1 i j)))
            else cutPot G V rmax i j (norm3 (G.rij im.1 i j))).sum).sum) _ ?_ _ _ hf
      · rw [h1, zero_add]
        unfold repDistances
        have hsum : ∀ {α : Type} (l : List α) (f : α → List ℝ), ((l.flatMap f).map fun d => v (d / bohr)).sum =
            (l.map fun a => ((f a).map fun d => v (d / bohr)).sum).sum := by
          intro α l f
          induction l with
          | nil => rfl
          | cons a l ih => simp [ih]
        rw [hsum]
        refine congrArg List.sum (List.map_congr_left fun i hi => ?_)
        rw [hsum]
        refine congrArg List.sum (List.map_congr_left fun j hj => ?_)
        have hi' := List.mem_range.1 hi
        have hcut : ∀ d, cutPot G V rmax i j d =
            if ((G.sym i = ela ∧ G.sym j = elb) ∨ (G.sym j = ela ∧ G.sym i = elb)) ∧ d ≤ rcut / bohr then v d else 0 := by
          intro d
          unfold cutPot
          rw [hV]
          by_cases hd : d ≤ rmax
          · rw [if_pos hd]
          · rw [if_neg hd, if_neg (fun h => hd (h.2.trans hr))]
        by_cases hp : (G.sym i = ela ∧ G.sym j = elb) ∨ (G.sym j = ela ∧ G.sym i = elb)
        · rw [if_neg (not_not.2 hp)]
          have hfm : ∀ (l : List (Op × ℕ)), (∀ im ∈ l, im ∈ G.ntuples.zipIdx) →
              (l.map fun im => if i = j then (if i = j ∧ im.2 = 0 then 0 else
                1 / 2 * cutPot G V rmax i j (norm3 (G.rij im.1 i j))) else cutPot G V rmax i j (norm3 (G.rij im.1 i j))).sum =
              ((l.filterMap fun im => if i = j ∧ im.2 = 0 then none
                else if norm3 (G.rij im.1 i j) ≤ rcut / bohr then some (norm3 (G.rij im.1 i j) * bohr) else none).map
                  fun d => v (d / bohr)).sum := by
            intro l hl
            induction l with
            | nil => rfl
            | cons im l ih =>
              rw [List.map_cons, List.sum_cons, ih fun x hx => hl x (List.mem_cons_of_mem _ hx), List.filterMap_cons]
              have him := hl im List.mem_cons_self
              by_cases hij : i = j
              · rw [if_pos hij]
                by_cases hm : im.2 = 0
                · rw [if_pos ⟨hij, hm⟩, if_pos ⟨hij, hm⟩, zero_add]
                · rw [if_neg (fun h => hm h.2), if_neg (fun h => hm h.2)]
                  have hfar : rcut / bohr < norm3 (G.rij im.1 i j) := by
                    obtain ⟨rest, hrest, hz⟩ := h0
                    rw [← hij]
                    obtain ⟨n, m⟩ := im
                    have h4 := List.mem_zipIdx_iff_getElem?.mp him
                    obtain ⟨k, rfl⟩ := Nat.exists_eq_succ_of_ne_zero hm
                    dsimp only at h4
                    refine hself i hi' n (List.mem_of_getElem? h4) ?_
                    rintro rfl
                    rw [hrest, Nat.succ_eq_add_one, List.getElem?_cons_succ] at h4
                    exact hz (List.mem_of_getElem? h4)
                  rw [hcut, if_neg (fun h => absurd h.2 (not_le.2 hfar)), if_neg (not_le.2 hfar)]
                  simp
              · rw [if_neg hij, if_neg (fun h => hij h.1), hcut]
                by_cases hd : norm3 (G.rij im.1 i j) ≤ rcut / bohr
                · rw [if_pos ⟨hp, hd⟩, if_pos hd]
                  simp [hb.ne']
                · rw [if_neg (fun h => hd h.2), if_neg hd]
                  simp
          exact hfm _ fun _ h => h
        · rw [if_pos hp]
          rw [List.map_nil, List.sum_nil]
          refine List.sum_eq_zero ?_
          intro x hx
          obtain ⟨im, -, rfl⟩ := List.mem_map.1 hx
          simp [hcut, hp]
      · intro e i e' he
        refine foldlM_add_of_ok _ _ _ ?_ _ _ he
        intro e j e' he
        exact foldlM_add_of_ok _ _ _ (fun e im e' hs => repStep_term hs) _ _ he
  refine ⟨main, fun R hR => ?_⟩
  rw [main]
  congr 1
  have : (repDistances G bohr ela elb rcut).map (fun d => v (d / bohr)) =
      List.replicate (repDistances G bohr ela elb rcut).length (v (R / bohr)) := by
    rw [List.eq_replicate_iff]
    refine ⟨by simp, ?_⟩
    intro x hx
    obtain ⟨d, hd, rfl⟩ := List.mem_map.1 hx
    rw [hR d hd]
  rw [this]
  simp

open Classical in
/-- A dimer of gold atoms, 2 apart, with a potential that vanishes beyond 3. -/
example (v : ℝ → ℝ) : ∃ E, repEnergy (dimerGeom "Au" "Au" 1 2) (fun _ _ _ d => if d ≤ 3 then v d else 0) 3 1 = .ok E ∧ E = v 2 := by
  have h0 : ∃ rest, (dimerGeom "Au" "Au" 1 2).ntuples = 0 :: rest ∧ (0 : Op) ∉ rest := ⟨[], rfl, by simp⟩
  obtain ⟨E, hE⟩ := c31_succeeds (G := dimerGeom "Au" "Au" 1 2) (V := fun _ _ _ d => if d ≤ 3 then v d else 0) (rmax := 3)
    (hartree := 1) h0 (by
      intro i j hij hj n hn hcon
      have hn0 : n = 0 := by simpa [dimerGeom] using hn
      have hj' : j < 2 := hj
      have hne : i ≠ j := fun h => hcon.1 ⟨h, hn0⟩
      have hi0 : i = 0 := by omega
      have hj1 : j = 1 := by omega
      have := hcon.2.2
      subst hi0 hj1 hn0
      unfold norm3 Geom.rij dimerGeom at this
      simp at this
      norm_num at this)
  have hd : repDistances (dimerGeom "Au" "Au" 1 2) 1 "Au" "Au" 3 = [2] := by
    rw [c110_dimer "Au" "Au" 1 2 3 (by norm_num) (by norm_num)]
    norm_num
  refine ⟨E, hE, ?_⟩
  have := (c110_bonds (V := fun s t _ d => if ((s = "Au" ∧ t = "Au") ∨ (t = "Au" ∧ s = "Au")) ∧ d ≤ 3 / 1 then v d else 0)
    (ela := "Au") (elb := "Au") (bohr := 1) (rcut := 3) (rmax := 3) (hartree := 1) (E := E) v h0 (by norm_num) (by norm_num)
    (fun s t d => rfl) (by
      intro i hi n hn hne
      exact absurd (by simpa [dimerGeom] using hn) hne) (by
      rw [← hE]
      unfold repEnergy
      congr 1
      have hN : (dimerGeom "Au" "Au" 1 2).N = 2 := rfl
      have hs : ∀ i, (dimerGeom "Au" "Au" 1 2).sym i = "Au" := by intro i; unfold dimerGeom; simp
      unfold repStep
      simp only [hs, and_self, or_self, true_and, div_one])).2 2 (by rw [hd]; simp)
  rw [this, hd]
  simp

/-- A chain of one atom per cell: the images are the neighbours at the distance `a`. -/
noncomputable def chainGeom (sym : String) (a : ℝ) : Geom :=
  { N := 1
    sym := fun _ => sym
    ntuples := [0, ![0, 0, 1], ![0, 0, -1]]
    rot := fun _ => 1
    pos := fun n _ => ![0, 0, n 2 * a] }

/-- **C110 fails for structures with bonds between images of one atom**: a chain with one atom and one bond per cell has the repulsive
energy `V(a)` per cell, but two bonds are counted, so that its fitted derivative is half of what keeps the chain in equilibrium. -/
theorem c110_images_fails (sym : String) (V : Pot) (a rmax : ℝ) (ha : 1e-10 < a) (hr : a ≤ rmax) :
    repEnergy (chainGeom sym a) (fun _ _ => V) rmax 1 = .ok (V 0 a) ∧
      repDistances (chainGeom sym a) 1 sym sym rmax = [a, a] := by
  have ha0 : 0 < a := lt_trans (by norm_num) ha
  have h1 : norm3 ((chainGeom sym a).rij ![0, 0, 1] 0 0) = a := by
    unfold norm3 chainGeom Geom.rij
    simp [Real.sqrt_sq ha0.le]
  have h2 : norm3 ((chainGeom sym a).rij ![0, 0, -1] 0 0) = a := by
    unfold norm3 chainGeom Geom.rij
    simp [Real.sqrt_sq ha0.le]
  have h3 : (chainGeom sym a).ntuples.zipIdx = [(0, 0), (![0, 0, 1], 1), (![0, 0, -1], 2)] := rfl
  have hN : (chainGeom sym a).N = 1 := rfl
  have hr0 : List.range 1 = [0] := rfl
  have hr1 : List.range' 0 (1 - 0) = [0] := rfl
  have hng : ¬ a > rmax := not_lt.2 hr
  have hs : (chainGeom sym a).sym 0 = sym := rfl
  constructor
  · unfold repEnergy
    rw [hN, hr0]
    simp only [List.foldlM_cons, List.foldlM_nil, hr1, h3, repStep, and_self, if_true, one_ne_zero, and_false, if_false, h1, h2, hng,
      Bind.bind, Except.bind, pure, Except.pure]
    have : ¬ ¬ a > 1e-10 := not_not.2 ha
    simp only [this, if_false]
    norm_num
    ring
  · unfold repDistances
    rw [hN, hr0]
    simp only [List.flatMap_cons, List.flatMap_nil, hr1, h3, hs, true_or, and_self, not_true_eq_false, if_false,
      List.filterMap_cons, List.filterMap_nil, if_true, h1, h2, one_ne_zero, and_false, List.append_nil, div_one, hr, mul_one]
    simp

/-! ### Energy curves -/

/-- The mean distance of a frame. -/
noncomputable def Frame.mean (f : Frame) : ℝ := f.distances.sum / f.distances.length

open Classical in
/-- The frames used: those with bonds shorter than the cutoff. -/
noncomputable def usedFrames (rcut : ℝ) (traj : List Frame) : List Frame :=
  traj.filter fun f => decide (f.distances ≠ [] ∧ f.mean < rcut)

/-- All bonds of the frame have the same length within the tolerance. -/
def Frame.SameLength (tol : ℝ) (f : Frame) : Prop := ∀ a ∈ f.distances, ∀ b ∈ f.distances, a - b ≤ tol

theorem listMax_mem {l : List ℝ} (h : l ≠ []) : listMax l ∈ l := by
  obtain ⟨a, l, rfl⟩ := List.exists_cons_of_ne_nil h
  have : ∀ (l : List ℝ) (a : ℝ), l.foldl max a ∈ a :: l := by
    intro l
    induction l with
    | nil => intro a; simp
    | cons b l ih =>
      intro a
      rw [List.foldl_cons]
      rcases List.mem_cons.1 (ih (max a b)) with h | h
      · rw [h]
        rcases max_choice a b with h | h <;> rw [h] <;> simp
      · simp [h]
  exact this l a

theorem listMin_mem {l : List ℝ} (h : l ≠ []) : listMin l ∈ l := by
  obtain ⟨a, l, rfl⟩ := List.exists_cons_of_ne_nil h
  have : ∀ (l : List ℝ) (a : ℝ), l.foldl min a ∈ a :: l := by
    intro l
    induction l with
    | nil => intro a; simp
    | cons b l ih =>
      intro a
      rw [List.foldl_cons]
      rcases List.mem_cons.1 (ih (min a b)) with h | h
      · rw [h]
        rcases min_choice a b with h | h <;> rw [h] <;> simp
      · simp [h]
  exact this l a

theorem bonds_of_same {F : Fitting} {f : Frame} (h : f.SameLength F.tol) :
    F.bonds f.distances = .ok (if f.distances = [] then .nothing else .bonds f.mean f.distances.length) := by
  unfold Fitting.bonds
  by_cases hne : f.distances = []
  · simp [hne]
  · have h1 : f.distances.length ≠ 0 := by simpa using hne
    rw [if_neg h1, if_neg (not_lt.2 (h _ (listMax_mem hne) _ (listMin_mem hne))), if_neg hne]
    rfl

theorem curveData_eq {F : Fitting} {traj : List Frame} (h : ∀ f ∈ traj, f.SameLength F.tol) :
    F.curveData traj = .ok ((usedFrames F.rcut traj).map fun f => (f.mean, f.edft, f.ewr, f.distances.length)) := by
  classical
  have : ∀ (traj : List Frame), (∀ f ∈ traj, f.SameLength F.tol) → ∀ acc : List (ℝ × ℝ × ℝ × ℕ),
      traj.foldlM (fun l f => do
        match ← F.bonds f.distances with
        | .nothing => return l
        | .bonds r n => if r < F.rcut then return l ++ [(r, f.edft, f.ewr, n)] else return l) acc =
        (.ok (acc ++ (usedFrames F.rcut traj).map fun f => (f.mean, f.edft, f.ewr, f.distances.length)) :
          Except Exn (List (ℝ × ℝ × ℝ × ℕ))) := by
    intro traj
    induction traj with
    | nil => intro _ acc; simp [usedFrames, pure, Except.pure]
    | cons f traj ih =>
      intro hh acc
      rw [List.foldlM_cons]
      simp only [bonds_of_same (hh f List.mem_cons_self), Bind.bind, Except.bind]
      have ih' := ih fun g hg => hh g (List.mem_cons_of_mem _ hg)
      simp only [Bind.bind, Except.bind] at ih'
      by_cases hne : f.distances = []
      · simp only [hne, if_true, pure, Except.pure]
        simp only [pure, Except.pure] at ih'
        rw [ih']
        simp [usedFrames, hne]
      · simp only [hne, if_false]
        by_cases hlt : f.mean < F.rcut
        · simp only [hlt, if_true, pure, Except.pure]
          simp only [pure, Except.pure] at ih'
          rw [ih']
          simp [usedFrames, hne, hlt]
        · simp only [hlt, if_false, pure, Except.pure]
          simp only [pure, Except.pure] at ih'
          rw [ih']
          simp [usedFrames, hlt]
  have h' := this traj h []
  rw [List.nil_append] at h'
  exact h'

/-- The points added by a loop that adds one point for each entry of a list. -/
theorem foldl_appendPoint {α : Type} (l : List (α × ℕ)) (R dv : α → ℝ) (w : ℝ) (c1 : Option (List Char))
    (l1 nl : Option (List Char)) (color : List Char) (F : Fitting) :
    ∃ pts : List FitPoint, (l.foldl (fun (F : Fitting) q =>
        if q.2 = 0 then F.appendPoint w (R q.1) (some (dv q.1)) c1 l1 color
        else F.appendPoint w (R q.1) (some (dv q.1)) none nl color) F).deriv = F.deriv ++ pts ∧
      pts.map (fun p => (p.R, p.dv, p.w)) = l.map fun q => (R q.1, some (dv q.1), w) := by
  induction l generalizing F with
  | nil => exact ⟨[], (List.append_nil _).symm, rfl⟩
  | cons q l ih =>
    rw [List.foldl_cons]
    by_cases hq : q.2 = 0
    · rw [if_pos hq]
      obtain ⟨pts, h1, h2⟩ := ih (F.appendPoint w (R q.1) (some (dv q.1)) c1 l1 color)
      rw [h1, appendPoint_deriv, List.append_assoc]
      exact ⟨_, rfl, by simp only [List.singleton_append, List.map_cons, h2]⟩
    · rw [if_neg hq]
      obtain ⟨pts, h1, h2⟩ := ih (F.appendPoint w (R q.1) (some (dv q.1)) none nl color)
      rw [h1, appendPoint_deriv, List.append_assoc]
      exact ⟨_, rfl, by simp only [List.singleton_append, List.map_cons, h2]⟩

/-- A spline routine is exact for polynomials up to its order: for points with increasing abscissas on such a polynomial, it returns
the derivative of the polynomial between them. -/
def ExactSpline (spl : ℕ → List (ℝ × ℝ) → Except Exn (ℝ → ℝ)) : Prop :=
  ∀ (k : ℕ) (pts : List (ℝ × ℝ)) (P : Polynomial ℝ), 1 ≤ k → k < pts.length → P.natDegree ≤ k →
    pts.Pairwise (fun a b => a.1 < b.1) → (∀ q ∈ pts, q.2 = P.eval q.1) →
    ∃ dv, spl k pts = .ok dv ∧ ∀ q ∈ pts, dv q.1 = P.derivative.eval q.1

open Classical in
/-- There is one: Lagrange's interpolation. -/
theorem exactSpline_exists : ∃ spl, ExactSpline spl := by
  refine ⟨fun k pts => .ok fun x => (Lagrange.interpolate (Finset.univ : Finset (Fin pts.length)) (fun i => (pts.get i).1)
    (fun i => (pts.get i).2)).derivative.eval x, ?_⟩
  intro k pts P h1 hk hdeg hinc hP
  refine ⟨_, rfl, fun q hq => ?_⟩
  have hinj : Set.InjOn (fun i : Fin pts.length => (pts.get i).1) (Finset.univ : Finset (Fin pts.length)) := by
    intro i _ j _ hij
    by_contra hne
    rw [List.pairwise_iff_get] at hinc
    rcases lt_or_gt_of_ne hne with h | h
    · exact (hinc i j h).ne hij
    · exact (hinc j i h).ne hij.symm
  have : P = Lagrange.interpolate (Finset.univ : Finset (Fin pts.length)) (fun i => (pts.get i).1) (fun i => (pts.get i).2) := by
    refine Lagrange.eq_interpolate_of_eval_eq _ hinj ?_ ?_
    · rw [Finset.card_univ, Fintype.card_fin]
      calc P.degree ≤ P.natDegree := Polynomial.degree_le_natDegree
        _ < (pts.length : ℕ) := by exact_mod_cast lt_of_le_of_lt hdeg hk
    · intro i _
      exact (hP _ (List.get_mem _ _)).symm
  rw [← this]

/-- **C110.** An energy curve whose frames (those with bonds within the cutoff, at least three, of different lengths) all have `n` bonds
and an energy that exceeds the energy without repulsion by `n V(R)` gives one point for each frame: its value is `V'(R)` exactly, if
`V` is a polynomial of an order the spline can represent; each point gets the weight divided by the root of their number. -/
theorem c110_curve (F : Fitting) (fmt : ℝ → List Char) {spl : ℕ → List (ℝ × ℝ) → Except Exn (ℝ → ℝ)} (hspl : ExactSpline spl)
    (weight : ℝ) (traj : List Frame) (comment label : Option (List Char)) (color : List Char) (n : ℕ) (V : Polynomial ℝ)
    (hsame : ∀ f ∈ traj, f.SameLength F.tol) (h3 : 3 ≤ (usedFrames F.rcut traj).length)
    (hn : ∀ f ∈ usedFrames F.rcut traj, f.distances.length = n) (hc : comment.or label ≠ none)
    (hd : ((usedFrames F.rcut traj).map Frame.mean).Nodup)
    (hV : ∀ f ∈ usedFrames F.rcut traj, f.edft = f.ewr + n * V.eval f.mean)
    (hdeg : V.natDegree ≤ min ((usedFrames F.rcut traj).length - 2) 3) :
    let r := F.appendCurve fmt spl weight traj comment label (some color)
    r.2 = .ok () ∧ ∃ pts : List FitPoint, r.1.deriv = F.deriv ++ pts ∧
      (pts.map fun p => p.R).Perm ((usedFrames F.rcut traj).map Frame.mean) ∧
      ∀ p ∈ pts, p.dv = some (V.derivative.eval p.R) ∧ p.w = weight / √(usedFrames F.rcut traj).length := by
  classical
  intro r
  set used := usedFrames F.rcut traj with hused
  have hlen : ¬ traj.length < 3 := by
    have : used.length ≤ traj.length := List.length_filter_le _ _
    omega
  set data := used.map fun f => (f.mean, f.edft, f.ewr, f.distances.length) with hdata
  obtain ⟨d, ds, hdd⟩ : ∃ d ds, data = d :: ds := by
    cases h : data with
    | nil => rw [hdata, List.map_eq_nil_iff] at h; rw [h] at h3; simp at h3
    | cons d ds => exact ⟨d, ds, rfl⟩
  have hmem : ∀ q ∈ data, ∃ f ∈ used, q = (f.mean, f.edft, f.ewr, f.distances.length) := by
    intro q hq
    obtain ⟨f, hf, rfl⟩ := List.mem_map.1 hq
    exact ⟨f, hf, rfl⟩
  have hqn : ∀ q ∈ data, q.2.2.2 = n := by
    intro q hq
    obtain ⟨f, hf, rfl⟩ := hmem q hq
    exact hn f hf
  have hn0 : n ≠ 0 := by
    obtain ⟨f, hf, -⟩ := hmem d (by rw [hdd]; exact List.mem_cons_self)
    rw [← hn f hf]
    have := (List.mem_filter.1 hf).2
    simp only [decide_eq_true_eq] at this
    simpa using this.1
  have hany : ¬ ((d :: ds).any fun q => decide (q.2.2.2 ≠ d.2.2.2)) = true := by
    rw [List.any_eq_true]
    rintro ⟨q, hq, hne⟩
    rw [← hdd] at hq
    simp only [ne_eq, decide_not, Bool.not_eq_eq_eq_not, Bool.not_true, decide_eq_false_iff_not] at hne
    exact hne ((hqn q hq).trans (hqn d (by rw [hdd]; exact List.mem_cons_self)).symm)
  set l := (d :: ds).mergeSort fun a b => decide (a.1 ≤ b.1) with hl
  have hperm : l.Perm data := by rw [hdd]; exact List.mergeSort_perm _ _
  have hll : l.length = used.length := by rw [hperm.length_eq, hdata, List.length_map]
  have hk1 : ¬ min (l.length - 2) 3 < 1 := by omega
  have hsorted : l.Pairwise fun a b => a.1 ≤ b.1 := by
    have := List.pairwise_mergeSort (le := fun a b : ℝ × ℝ × ℝ × ℕ => decide (a.1 ≤ b.1))
      (fun a b c hab hbc => by simp only [decide_eq_true_eq] at *; exact hab.trans hbc)
      (fun a b => by simp only [Bool.or_eq_true, decide_eq_true_eq]; exact le_total _ _) (d :: ds)
    exact this.imp fun h => by simpa using h
  have hnodup : (l.map fun q => q.1).Nodup := by
    refine ((hperm.map _).nodup_iff).2 ?_
    rw [hdata, List.map_map]
    exact hd
  have hstrict : (l.map fun q => (q.1, (q.2.1 - q.2.2.1) / (q.2.2.2 : ℝ))).Pairwise fun a b => a.1 < b.1 := by
    rw [List.pairwise_map]
    have hnd' : l.Pairwise fun a b => a.1 ≠ b.1 := List.pairwise_map.1 hnodup
    exact (hsorted.and hnd').imp fun h => lt_of_le_of_ne h.1 h.2
  obtain ⟨dv, hdv, hval⟩ := hspl (min (l.length - 2) 3) _ V (by omega) (by rw [List.length_map]; omega) (by rw [hll]; exact hdeg)
    hstrict (by
      intro q hq
      obtain ⟨q', hq', rfl⟩ := List.mem_map.1 hq
      have hq'' := hperm.mem_iff.1 hq'
      obtain ⟨f, hf, rfl⟩ := hmem q' hq''
      simp only
      rw [hV f hf, hn f hf]
      have : (n : ℝ) ≠ 0 := by exact_mod_cast hn0
      field_simp
      ring)
  obtain ⟨c, hcm⟩ : ∃ c, (if comment = none then label else comment) = some c := by
    cases comment with
    | none =>
      cases label with
      | none => simp at hc
      | some c => exact ⟨c, rfl⟩
    | some c => exact ⟨c, rfl⟩
  obtain ⟨pts, hp1, hp2⟩ := foldl_appendPoint l.zipIdx (fun q => q.1) (fun q => dv q.1) (weight / √l.length)
    (some (c ++ ";w=".toList ++ fmt weight)) (if label = none then some c else label) (some "_nolegend_".toList) color F
  have hr : r = (l.zipIdx.foldl (fun (F : Fitting) q =>
        if q.2 = 0 then F.appendPoint (weight / √l.length) q.1.1 (some (dv q.1.1)) (some (c ++ ";w=".toList ++ fmt weight))
          (if label = none then some c else label) color
        else F.appendPoint (weight / √l.length) q.1.1 (some (dv q.1.1)) none (some "_nolegend_".toList) color) F, .ok ()) := by
    simp only [r, Fitting.appendCurve, hlen, if_false, curveData_eq hsame]
    rw [← hused, ← hdata, hdd]
    simp only [hany, ← hl, hk1, if_false, hdv, getColor_some, hcm]
    rfl
  rw [hr]
  refine ⟨rfl, pts, hp1, ?_, ?_⟩
  · have := congrArg (List.map fun t : ℝ × Option ℝ × ℝ => t.1) hp2
    simp only [List.map_map, Function.comp_def] at this
    rw [this]
    have h2 : (l.zipIdx.map fun q => q.1.1) = l.map fun q => q.1 := by
      conv_rhs => rw [← List.zipIdx_map_fst 0 l]
      rw [List.map_map]
      rfl
    rw [h2]
    refine (hperm.map _).trans ?_
    rw [hdata, List.map_map]
    exact List.Perm.refl _
  · intro p hp
    have hp' : (p.R, p.dv, p.w) ∈ pts.map fun p => (p.R, p.dv, p.w) := List.mem_map_of_mem hp
    rw [hp2] at hp'
    obtain ⟨q, hq, heq⟩ := List.mem_map.1 hp'
    simp only [Prod.mk.injEq] at heq
    have hql : q.1 ∈ l := by
      have := List.mem_zipIdx hq
      rw [this.2.2]
      exact List.getElem_mem _
    refine ⟨?_, ?_⟩
    · rw [← heq.2.1, ← heq.1, hval _ (List.mem_map.2 ⟨q.1, hql, rfl⟩)]
    · rw [← heq.2.2, hll]

/-- Three frames of a dimer with energies `E + R`: three points with the derivative one. -/
example : ∃ (spl : ℕ → List (ℝ × ℝ) → Except Exn (ℝ → ℝ)) (pts : List FitPoint), (({ sym1 := "Au", sym2 := "Au", rcut := 3 } : Fitting).appendCurve
      (fun _ => []) spl 1 [⟨7, 5, [2]⟩, ⟨7, 4.5, [2.5]⟩, ⟨5, 2.9, [2.1]⟩] (some []) none (some [])).1.deriv = pts ∧
    (pts.map fun p => p.R).Perm [2, 2.5, 2.1] ∧ ∀ p ∈ pts, p.dv = some 1 ∧ p.w = 1 / √3 := by
  obtain ⟨spl, hspl⟩ := exactSpline_exists
  have hused : usedFrames 3 [⟨7, 5, [2]⟩, ⟨7, 4.5, [2.5]⟩, ⟨5, 2.9, [2.1]⟩] = [⟨7, 5, [2]⟩, ⟨7, 4.5, [2.5]⟩, ⟨5, 2.9, [2.1]⟩] := by
    unfold usedFrames Frame.mean
    rw [List.filter_eq_self]
    intro f hf
    simp only [List.mem_cons, List.not_mem_nil, or_false] at hf
    rcases hf with rfl | rfl | rfl <;> norm_num
  obtain ⟨-, pts, h1, h2, h3⟩ := c110_curve { sym1 := "Au", sym2 := "Au", rcut := 3 } (fun _ => []) hspl 1
    [⟨7, 5, [2]⟩, ⟨7, 4.5, [2.5]⟩, ⟨5, 2.9, [2.1]⟩] (some []) none [] 1 Polynomial.X (by
      intro f hf
      simp only [List.mem_cons, List.not_mem_nil, or_false] at hf
      rcases hf with rfl | rfl | rfl <;> simp [Frame.SameLength] <;> norm_num) (by rw [hused]; simp) (by
      rw [hused]
      intro f hf
      simp only [List.mem_cons, List.not_mem_nil, or_false] at hf
      rcases hf with rfl | rfl | rfl <;> simp) (by simp) (by rw [hused]; simp [Frame.mean]; norm_num) (by
      rw [hused]
      intro f hf
      simp only [List.mem_cons, List.not_mem_nil, or_false] at hf
      rcases hf with rfl | rfl | rfl <;> simp [Frame.mean] <;> norm_num) (by rw [hused]; simp)
  refine ⟨spl, pts, by simpa using h1, ?_, ?_⟩
  · have := h2
    rw [hused] at this
    simpa [Frame.mean] using this
  · intro p hp
    have := h3 p hp
    rw [hused] at this
    simpa using this

/-- **C110.** Curves with less than three frames, with bonds of different lengths in a frame or with different numbers of bonds are
refused, and no point is added. -/
theorem c110_curve_refused (F : Fitting) (fmt : ℝ → List Char) (spl : ℕ → List (ℝ × ℝ) → Except Exn (ℝ → ℝ)) (weight : ℝ)
    (traj : List Frame) (comment label : Option (List Char)) (color : Option (List Char)) :
    let r := F.appendCurve fmt spl weight traj comment label color
    (traj.length < 3 → r = (F, .error .assertionError)) ∧
    ((∀ f ∈ traj, f.SameLength F.tol) → 3 ≤ traj.length → ∀ f ∈ usedFrames F.rcut traj, ∀ g ∈ usedFrames F.rcut traj,
      f.distances.length ≠ g.distances.length → r = (F, .error .runtimeError)) := by
  refine ⟨fun h => by simp [Fitting.appendCurve, h], ?_⟩
  intro hsame h3 f hf g hg hne
  have hlen : ¬ traj.length < 3 := by omega
  simp only [Fitting.appendCurve, hlen, if_false, curveData_eq hsame]
  cases hd : (usedFrames F.rcut traj).map fun f => (f.mean, f.edft, f.ewr, f.distances.length) with
  | nil => rw [List.map_eq_nil_iff] at hd; rw [hd] at hf; simp at hf
  | cons d ds =>
    have : ((d :: ds).any fun q => decide (q.2.2.2 ≠ d.2.2.2)) = true := by
      rw [← hd, List.any_eq_true]
      by_cases hfd : f.distances.length = d.2.2.2
      · refine ⟨_, List.mem_map.2 ⟨g, hg, rfl⟩, ?_⟩
        simp only [ne_eq, decide_eq_true_eq]
        exact fun h => hne (hfd.trans h.symm)
      · refine ⟨_, List.mem_map.2 ⟨f, hf, rfl⟩, ?_⟩
        simpa using hfd
    simp only [this, if_true]

/-! ### Clusters -/

/-- A finite cluster. -/
def clusterGeom (pos : List Vec) : Geom :=
  { N := pos.length, sym := fun _ => "", ntuples := [0], rot := fun _ => 1, pos := fun _ i => pos.getD i 0 }

/-- **C110.** The forces of the cluster fit are those a calculation with the fitted potential has: the function that is minimised is zero
exactly if the forces without repulsion and these repulsive forces add up to the given ones. -/
theorem c110_cluster_forces (F : Fitting) (pos : List Vec) (fdft fwr : ℕ → Vec) (p : ℝ × ℝ) (V : Pot)
    (hV : ∀ d, V 1 d = p.1 + p.2 * (d - F.rcut))
    (hcut : ∀ i j, norm3 (pos.getD j 0 - pos.getD i 0) ≠ F.rcut) :
    F.clusterResidual pos fdft fwr p = 0 ↔
      ∀ i < pos.length, fdft i = fwr i + repForces (clusterGeom pos) (fun _ _ => V) F.rcut i := by
  classical
  have hf : ∀ i, F.clusterForce pos p i = repForces (clusterGeom pos) (fun _ _ => V) F.rcut i := by
    intro i
    unfold Fitting.clusterForce repForces
    change _ = (List.range pos.length).foldl _ 0
    congr 1
    funext f j
    have hz : (clusterGeom pos).ntuples.zipIdx = [(0, 0)] := rfl
    rw [hz]
    simp only [List.foldl_cons, List.foldl_nil, forceStep, and_true]
    by_cases hij : i = j
    · simp [hij]
    · rw [if_neg hij, if_neg hij]
      have : (clusterGeom pos).rij 0 i j = pos.getD j 0 - pos.getD i 0 := rfl
      rw [this, hV]
      rcases lt_or_gt_of_ne (hcut i j) with h | h
      · rw [if_neg (not_lt.2 h.le), if_pos h]
        rfl
      · rw [if_pos h, if_neg (not_lt.2 h.le)]
  unfold Fitting.clusterResidual
  constructor
  · intro h i hi
    have hnn : ∀ x ∈ (List.range pos.length).map fun i => norm3 (fdft i - (fwr i + F.clusterForce pos p i)) ^ 2, 0 ≤ x := by
      intro x hx
      obtain ⟨i, -, rfl⟩ := List.mem_map.1 hx
      positivity
    have hle := List.single_le_sum hnn _ (List.mem_map.2 ⟨i, List.mem_range.2 hi, rfl⟩)
    have h0 : norm3 (fdft i - (fwr i + F.clusterForce pos p i)) ^ 2 = 0 := le_antisymm (hle.trans h.le) (by positivity)
    rw [← hf i]
    exact sub_eq_zero.1 (norm3_eq_zero.1 (pow_eq_zero_iff (two_ne_zero) |>.1 h0))
  · intro h
    refine List.sum_eq_zero ?_
    intro x hx
    obtain ⟨i, hi, rfl⟩ := List.mem_map.1 hx
    rw [hf i, h i (List.mem_range.1 hi), sub_self, norm3_eq_zero.2 rfl]
    norm_num

/-- Two atoms 2 apart with the cutoff 3 and the line `-1 + 5 (r - 3)`. -/
example : ∀ i j, norm3 (([0, ![2, 0, 0]] : List Vec).getD j 0 - ([0, ![2, 0, 0]] : List Vec).getD i 0) ≠ 3 := by
  intro i j
  have h : ∀ k, ([0, ![2, 0, 0]] : List Vec).getD k 0 = 0 ∨ ([0, ![2, 0, 0]] : List Vec).getD k 0 = ![2, 0, 0] := by
    intro k
    match k with
    | 0 => left; rfl
    | 1 => right; rfl
    | k + 2 => left; rfl
  have h2 : √((2 : ℝ) ^ 2) = 2 := Real.sqrt_sq (by norm_num)
  rcases h i with hi | hi <;> rcases h j with hj | hj <;> rw [hi, hj] <;> unfold norm3 <;> simp [h2]

/-- **C110.** The points of a cluster: six distances from the smallest to the largest, evenly spaced, on the line found. -/
theorem c110_cluster (F : Fitting) (fmt : ℝ → List Char) (fmin : (ℝ × ℝ → ℝ) → ℝ × ℝ) (weight : ℝ) (pos : List Vec)
    (fdft fwr : ℕ → Vec) (distances : List ℝ) (hne : distances ≠ []) (comment label color : List Char) :
    let r := F.appendCluster fmt fmin weight pos fdft fwr distances comment label (some color)
    let p := fmin (F.clusterResidual pos fdft fwr)
    r.2 = .ok () ∧ ∃ pts : List FitPoint, r.1.deriv = F.deriv ++ pts ∧
      pts.map (fun q => q.R) = [0, 1, 2, 3, 4, 5].map (fun i : ℝ => listMin distances + i * (listMax distances - listMin distances) / 5) ∧
      ∀ q ∈ pts, q.dv = some (p.1 + p.2 * (q.R - F.rcut)) ∧ q.w = weight / √6 := by
  intro r p
  have hkeep : ∀ (l : List (ℝ × ℕ)) (G : Fitting), G.rcut = F.rcut → l.foldl (fun (F : Fitting) q =>
        if q.2 = 0 then
          F.appendPoint (weight / √6) q.1 (some (F.clusterDv p q.1)) (some (comment ++ ";w=".toList ++ fmt weight)) (some label) color
        else F.appendPoint (weight / √6) q.1 (some (F.clusterDv p q.1)) none (some "_nolegend_".toList) color) G =
      l.foldl (fun (G : Fitting) q =>
        if q.2 = 0 then
          G.appendPoint (weight / √6) q.1 (some (F.clusterDv p q.1)) (some (comment ++ ";w=".toList ++ fmt weight)) (some label) color
        else G.appendPoint (weight / √6) q.1 (some (F.clusterDv p q.1)) none (some "_nolegend_".toList) color) G := by
    intro l
    induction l with
    | nil => intro G _; rfl
    | cons q l ih =>
      intro G hG
      rw [List.foldl_cons, List.foldl_cons]
      have hdv : G.clusterDv p q.1 = F.clusterDv p q.1 := by unfold Fitting.clusterDv; rw [hG]
      rw [hdv]
      apply ih
      split
      · exact (appendPoint_keep _ _ _ _ _ _ _).1.trans hG
      · exact (appendPoint_keep _ _ _ _ _ _ _).1.trans hG
  obtain ⟨pts, h1, h2⟩ := foldl_appendPoint (fitLinspace (listMin distances) (listMax distances) 6).zipIdx (fun x => x)
    (fun x => F.clusterDv p x) (weight / √6) (some (comment ++ ";w=".toList ++ fmt weight)) (some label) (some "_nolegend_".toList) color F
  have hr : r = ((fitLinspace (listMin distances) (listMax distances) 6).zipIdx.foldl (fun (G : Fitting) q =>
        if q.2 = 0 then
          G.appendPoint (weight / √6) q.1 (some (F.clusterDv p q.1)) (some (comment ++ ";w=".toList ++ fmt weight)) (some label) color
        else G.appendPoint (weight / √6) q.1 (some (F.clusterDv p q.1)) none (some "_nolegend_".toList) color) F, .ok ()) := by
    rw [← hkeep _ F rfl]
    simp only [r, Fitting.appendCluster, hne, if_false, getColor_some]
    rfl
  rw [hr]
  refine ⟨rfl, pts, h1, ?_, ?_⟩
  · have := congrArg (List.map fun t : ℝ × Option ℝ × ℝ => t.1) h2
    simp only [List.map_map, Function.comp_def] at this
    rw [this]
    have h3 : ((fitLinspace (listMin distances) (listMax distances) 6).zipIdx.map fun q => q.1) =
        fitLinspace (listMin distances) (listMax distances) 6 := List.zipIdx_map_fst _ _
    rw [h3]
    unfold fitLinspace
    simp [List.range_succ]
    refine ⟨?_, ?_, ?_, ?_⟩ <;> ring
  · intro q hq
    have hp' : (q.R, q.dv, q.w) ∈ pts.map fun p => (p.R, p.dv, p.w) := List.mem_map_of_mem hq
    rw [h2] at hp'
    obtain ⟨t, -, heq⟩ := List.mem_map.1 hp'
    simp only [Prod.mk.injEq] at heq
    refine ⟨?_, heq.2.2.symm⟩
    rw [← heq.2.1, ← heq.1]
    rfl

/-- **C110.** Slopes are refused. -/
theorem c110_slope (F : Fitting) : F.appendSlope = (F, .error .notImplementedError) := rfl

end Hotbit
