import Mathlib.Tactic
import Verif.Props.RadialGrid

/-!
# States, confinement, self-consistency and energy of an atom (C96)
-/

namespace Hotbit

open Finset

/-! ### Names -/

theorem toString_digits (n : ℕ) : (toString n).toList = Nat.toDigits 10 n := by
  change n.repr.toList = _
  exact Nat.toList_repr

/-- **C96.** Name and quantum numbers of a state belong together for `n ≤ 9`, `l ≤ 9`. -/
theorem c96_name {n l : ℕ} (hn : n ≤ 9) (hl : l ≤ 9) :
    ∃ s, orbitName n l = .ok s ∧ orbitNumbers s = .ok (n, l) := by
  interval_cases n <;> interval_cases l <;> exact ⟨_, rfl, by decide⟩

/-- **C96.** Beyond that a name is made, but it cannot be read back: `'10s'`. -/
theorem c96_name_large_fails {n l : ℕ} (hn : 10 ≤ n) (hl : l ≤ 9) :
    ∃ s, orbitName n l = .ok s ∧ orbitNumbers s = .error .valueError := by
  have hlt : l < angularMomenta.length := by
    simp [angularMomenta]
    omega
  refine ⟨(toString n).toList ++ [angularMomenta[l]], ?_, ?_⟩
  · unfold orbitName
    rw [List.getElem?_eq_getElem hlt]
  · rw [toString_digits]
    have hlen : 2 ≤ (Nat.toDigits 10 n).length := by
      by_contra h
      have := (Nat.length_toDigits_le_iff (b := 10) (n := n) (k := 1) (by norm_num) (by norm_num)).1 (by omega)
      omega
    obtain ⟨a, t, ht⟩ := List.exists_cons_of_ne_nil (l := Nat.toDigits 10 n) (by intro h; simp [h] at hlen)
    obtain ⟨b, t', ht'⟩ := List.exists_cons_of_ne_nil (l := t) (by intro h; simp [ht, h] at hlen)
    have hb : b.isDigit := Nat.isDigit_of_mem_toDigits (b := 10) (n := n) (by norm_num) (by norm_num) (by simp [ht, ht'])
    have hnot : b ∉ angularMomenta := by
      intro hmem
      simp only [angularMomenta, List.mem_cons, List.not_mem_nil, or_false] at hmem
      rcases hmem with h | h | h | h | h | h | h | h | h | h <;> simp [h] at hb <;> exact absurd hb (by decide)
    rw [ht, ht']
    simp only [List.cons_append, orbitNumbers]
    rw [if_neg hnot]

/-- **C96.** There is no name for `l ≥ 10`. -/
theorem c96_name_refused {n l : ℕ} (hl : 10 ≤ l) : orbitName n l = .error .indexError := by
  unfold orbitName
  rw [List.getElem?_eq_none (by simp [angularMomenta]; omega)]

example : orbitName 2 1 = .ok ['2', 'p'] ∧ orbitNumbers ['2', 'p'] = .ok (2, 1) := ⟨rfl, by decide⟩

/-- **C96.** Different states have different names. -/
theorem c96_name_injective {n l n' l' : ℕ} {s : List Char} (h : orbitName n l = .ok s) (h' : orbitName n' l' = .ok s) :
    n = n' ∧ l = l' := by
  have key : ∀ {n l : ℕ} {s : List Char}, orbitName n l = .ok s →
      ∃ hl : l < angularMomenta.length, s = Nat.toDigits 10 n ++ [angularMomenta[l]] := by
    intro n l s h
    unfold orbitName at h
    split at h
    · rename_i c hc
      obtain ⟨hl, rfl⟩ := List.getElem?_eq_some_iff.1 hc
      simp only [Except.ok.injEq] at h
      exact ⟨hl, by rw [← h, toString_digits]⟩
    · simp at h
  obtain ⟨hl, e⟩ := key h
  obtain ⟨hl', e'⟩ := key h'
  rw [e] at e'
  obtain ⟨e1, e2⟩ := List.append_inj' e' rfl
  refine ⟨?_, ?_⟩
  · have := congrArg (fun x => Nat.ofDigitChars 10 x 0) e1
    simpa [Nat.ofDigitChars_ten_toDigits] using this
  · have hnd : angularMomenta.Nodup := by decide
    exact (hnd.getElem_inj_iff).1 (by simpa using e2)

/-! ### The list of states -/

theorem list_all_ok : ∃ all, ((List.range 10).mapM fun l => (List.range' 1 9).mapM fun n => do
    let nl ← orbitName n l
    return (n, l, nl) : Except Exn (List (List (ℕ × ℕ × List Char)))) = .ok all ∧ all.flatten.Nodup ∧
    (∀ l < 10, ∀ n, 1 ≤ n → n ≤ 9 → ∃ x ∈ all.flatten, x.1 = n ∧ x.2.1 = l) ∧
    ∀ x ∈ all.flatten, 1 ≤ x.1 ∧ x.1 ≤ 9 ∧ x.2.1 ≤ 9 ∧ orbitName x.1 x.2.1 = .ok x.2.2 := by
  refine ⟨_, rfl, by decide, ?_, ?_⟩
  · decide
  · decide

/-- **C96.** The states of an atom: every name with `1 ≤ n ≤ 9` and `l ≤ 9` that occurs among the occupations is
listed once, with its quantum numbers, and nothing else is. -/
theorem c96_states (occu : List (List Char)) :
    ∃ L, listStates occu = .ok L ∧ L.Nodup ∧
      ∀ n l nl, (n, l, nl) ∈ L ↔ 1 ≤ n ∧ n ≤ 9 ∧ l ≤ 9 ∧ orbitName n l = .ok nl ∧ nl ∈ occu := by
  obtain ⟨all, h1, h2, h3, h4⟩ := list_all_ok
  refine ⟨all.flatten.filter fun s => s.2.2 ∈ occu, ?_, h2.filter _, fun n l nl => ?_⟩
  · unfold listStates
    rw [h1]
    rfl
  · rw [List.mem_filter]
    constructor
    · rintro ⟨a, b⟩
      obtain ⟨c1, c2, c3, c4⟩ := h4 _ a
      exact ⟨c1, c2, c3, c4, by simpa using b⟩
    · rintro ⟨c1, c2, c3, c4, c5⟩
      obtain ⟨x, hx, hx1, hx2⟩ := h3 l (by omega) n c1 c2
      have := (h4 x hx).2.2.2
      rw [hx1, hx2, c4] at this
      simp only [Except.ok.injEq] at this
      obtain ⟨x1, x2, x3⟩ := x
      simp only at hx1 hx2 this
      subst hx1 hx2 this
      exact ⟨hx, by simpa using c5⟩

example : listStates ["1s".toList, "2p".toList, "10s".toList, "2s".toList] =
    .ok [(1, 0, "1s".toList), (2, 0, "2s".toList), (2, 1, "2p".toList)] := by decide

/-! ### Electrons -/

/-- **C96.** When a density is made from normalised states, the occupations add up to the number of electrons. -/
theorem c96_electrons {N : ℕ} {r : ℕ → ℝ} {nel : ℝ} {states : List (ℝ × (ℕ → ℝ))} {dens : ℕ → ℝ}
    (hnorm : ∀ s ∈ states, rgIntegrate N r (fun i => s.2 i ^ 2) false = 1)
    (h : calcDensity N r nel states = .ok dens) : |(states.map fun s => s.1).sum - nel| ≤ 1 / 10 ^ 10 := by
  have key : rgIntegrate N r (fun i => (states.map fun s => s.1 * s.2 i ^ 2).sum) false
      = (states.map fun s => s.1).sum := by
    clear h
    induction states with
    | nil => simp [rgIntegrate]
    | cons a t ih =>
      have e := ih (fun s hs => hnorm s (List.mem_cons_of_mem _ hs))
      have ea := hnorm a (by simp)
      simp only [rgIntegrate, if_false, Bool.false_eq_true] at e ea ⊢
      simp only [List.map_cons, List.sum_cons]
      rw [← e]
      have : ∀ i, (a.1 * a.2 i ^ 2 + (t.map fun s => s.1 * s.2 i ^ 2).sum +
          (a.1 * a.2 (i + 1) ^ 2 + (t.map fun s => s.1 * s.2 (i + 1) ^ 2).sum)) * rgDr r i =
          a.1 * ((a.2 i ^ 2 + a.2 (i + 1) ^ 2) * rgDr r i) +
          ((t.map fun s => s.1 * s.2 i ^ 2).sum + (t.map fun s => s.1 * s.2 (i + 1) ^ 2).sum) * rgDr r i := by
        intro i
        ring
      simp only [this, sum_add_distrib, ← mul_sum]
      linear_combination a.1 * ea
  unfold calcDensity at h
  simp only at h
  split_ifs at h with h1
  rw [key] at h1
  exact not_lt.1 h1

/-- Two electrons in one state on a grid of two points. -/
example : ∃ dens, calcDensity 2 (fun i => (i : ℝ) + 1) 2 [(2, fun _ => 1)] = .ok dens ∧
    ∀ s ∈ [((2 : ℝ), fun _ : ℕ => (1 : ℝ))], rgIntegrate 2 (fun i => (i : ℝ) + 1) (fun i => s.2 i ^ 2) false = 1 := by
  have e : rgIntegrate 2 (fun i => (i : ℝ) + 1) (fun _ => (1 : ℝ)) false = 1 := by
    norm_num [rgIntegrate, rgDr]
  have e2 : rgIntegrate 2 (fun i => (i : ℝ) + 1) (fun _ => (2 : ℝ)) false = 2 := by
    norm_num [rgIntegrate, rgDr]
  refine ⟨fun i => 2 / (4 * Real.pi * ((i : ℝ) + 1) ^ 2), ?_, by simpa using e⟩
  unfold calcDensity
  simp [e2]

/-! ### Confinement -/

/-- **C96.** The confining potentials: what is asked for, by name and keywords. -/
theorem c96_confinement (kw : String → Option ℝ) (r0 s a W : ℝ) (h0 : kw "r0" = some r0) (hs : kw "s" = some s)
    (ha : kw "a" = some a) (hW : kw "W" = some W) :
    (∀ r, (makeConfinement "none" kw).map (Confinement.value r) = .ok 0) ∧
    (∀ r, (makeConfinement "quadratic" kw).map (Confinement.value r) = .ok ((r / r0) ^ 2)) ∧
    (∀ r, (makeConfinement "general" kw).map (Confinement.value r) = .ok ((r / r0) ^ s)) ∧
    (∀ r, (makeConfinement "Woods-Saxon" kw).map (Confinement.value r)
      = .ok (W / (1 + Real.exp (-a * (r - r0))))) := by
  refine ⟨fun r => rfl, fun r => ?_, fun r => ?_, fun r => ?_⟩
  · unfold makeConfinement
    simp [h0, Except.map, Confinement.value]
  · unfold makeConfinement
    simp [h0, hs, Except.map, Confinement.value]
    rfl
  · unfold makeConfinement
    rw [if_neg (by decide), if_neg (by decide), if_neg (by decide), if_pos (by
      rw [show "Woods-Saxon".toLower = "woods-saxon" by
        rw [← String.toList_inj, String.toLower, String.toList_map]; decide]
      decide)]
    simp [h0, ha, hW, Except.map, Confinement.value]
    rfl

example : (fun k : String => if k = "r0" then some (2 : ℝ) else if k = "s" then some 3 else if k = "a" then some 1
    else if k = "W" then some 5 else none) "W" = some 5 := by simp

/-- **C96.** Another name is refused, and so is a name whose keywords are missing. -/
theorem c96_confinement_refused (kw : String → Option ℝ) (mode : String) (h1 : mode ≠ "none") :
    (mode ≠ "quadratic" → mode ≠ "general" → mode.toLower ∉ ["woods-saxon", "woods_saxon", "woodssaxon"] →
      makeConfinement mode kw = .error .notImplementedError) ∧
    ((mode = "quadratic" ∨ mode = "general" ∨ mode.toLower ∈ ["woods-saxon", "woods_saxon", "woodssaxon"]) →
      kw "r0" = none → makeConfinement mode kw = .error .keyError) := by
  constructor
  · intro h2 h3 h4
    unfold makeConfinement
    rw [if_neg h1, if_neg h2, if_neg h3, if_neg h4]
  · intro h h0
    unfold makeConfinement
    rw [if_neg h1]
    simp only [h0]
    split_ifs with h2 h3 h4
    · rfl
    · rfl
    · rfl
    · tauto

/-- **C96.** The confinements push inwards: with positive `r0` and, as the case may be, positive exponent, steepness
and depth, they are positive and grow with the distance. -/
theorem c96_confinement_monotone {c : Confinement} {x y : ℝ} (hx : 0 < x) (hxy : x < y)
    (hc : match c with
      | .none => False
      | .quadratic r0 => 0 < r0
      | .general r0 s => 0 < r0 ∧ 0 < s
      | .woodsSaxon _ a W => 0 < a ∧ 0 < W) :
    0 < Confinement.value x c ∧ Confinement.value x c < Confinement.value y c := by
  cases c with
  | none => exact hc.elim
  | quadratic r0 =>
    simp only at hc
    unfold Confinement.value
    have h1 : 0 < x / r0 := by positivity
    have h2 : x / r0 < y / r0 := div_lt_div_of_pos_right hxy hc
    constructor
    · simp only; positivity
    · simp only
      nlinarith
  | general r0 s =>
    obtain ⟨h0, hs⟩ := hc
    have h1 : 0 < x / r0 := by positivity
    have h2 : x / r0 < y / r0 := div_lt_div_of_pos_right hxy h0
    exact ⟨Real.rpow_pos_of_pos h1 s, Real.rpow_lt_rpow h1.le h2 hs⟩
  | woodsSaxon r0 a W =>
    obtain ⟨ha, hW⟩ := hc
    simp only [Confinement.value]
    have h1 : Real.exp (-a * (y - r0)) < Real.exp (-a * (x - r0)) := Real.exp_lt_exp.2 (by nlinarith)
    have h2 := Real.exp_pos (-a * (y - r0))
    have h3 := Real.exp_pos (-a * (x - r0))
    constructor
    · positivity
    · exact div_lt_div_of_pos_left hW (by positivity) (by linarith)

example : (match Confinement.woodsSaxon 3 1 5 with
      | .none => False
      | .quadratic r0 => 0 < r0
      | .general r0 s => 0 < r0 ∧ 0 < s
      | .woodsSaxon _ a W => 0 < a ∧ 0 < W) := by norm_num

/-! ### Self-consistency -/

theorem ksLoop_ok {σ : Type} {turn : σ → ℕ → Except Exn (KSTurn σ)} {tolN tolE : ℝ} {left it : ℕ} {s s' : σ} {k : ℕ}
    (h : ksLoop turn tolN tolE left it s = .ok (s', k)) :
    it ≤ k ∧ k < it + left ∧ 5 < k ∧ ∃ s0 t, turn s0 k = .ok t ∧ t.state = s' ∧ t.diff < tolN ∧ t.dEnl < tolE := by
  induction left generalizing it s with
  | zero => simp [ksLoop] at h
  | succ left ih =>
    rw [ksLoop] at h
    cases ht : turn s it with
    | error e => simp [ht, bind, Except.bind] at h
    | ok t =>
      simp only [ht, bind, Except.bind] at h
      split_ifs at h with h1 h2
      · simp only [pure, Except.pure, Except.ok.injEq, Prod.mk.injEq] at h
        obtain ⟨rfl, rfl⟩ := h
        exact ⟨le_rfl, by omega, h1.2.2, s, t, ht, rfl, h1.1, h1.2.1⟩
      · obtain ⟨a, b, c, d⟩ := ih h
        exact ⟨by omega, by omega, c, d⟩

/-- **C96.** A solved atom is converged: in the last turn density and energies changed by less than the limits, and at
least seven turns were made. -/
theorem c96_converged {σ : Type} {turn : σ → ℕ → Except Exn (KSTurn σ)} {tolN tolE : ℝ} {itmax : ℕ} {s s' : σ} {k : ℕ}
    (h : ksLoop turn tolN tolE itmax 0 s = .ok (s', k)) :
    6 ≤ k ∧ k < itmax ∧ ∃ s0 t, turn s0 k = .ok t ∧ t.state = s' ∧ t.diff < tolN ∧ t.dEnl < tolE := by
  obtain ⟨-, b, c, d⟩ := ksLoop_ok h
  exact ⟨by omega, by omega, d⟩

/-- **C96.** With `itmax ≤ 6` no atom is ever solved, converged or not. -/
theorem c96_few_turns_fail {σ : Type} (turn : σ → ℕ → Except Exn (KSTurn σ)) (tolN tolE : ℝ) {itmax : ℕ}
    (hi : itmax ≤ 6) (s : σ) : ∃ e, ksLoop turn tolN tolE itmax 0 s = .error e := by
  cases h : ksLoop turn tolN tolE itmax 0 s with
  | error e => exact ⟨e, rfl⟩
  | ok p =>
    obtain ⟨a, b, -⟩ := c96_converged (s' := p.1) (k := p.2) h
    omega

theorem ksLoop_error {σ : Type} {turn : σ → ℕ → Except Exn (KSTurn σ)} {tolN tolE : ℝ}
    (hok : ∀ s it, ∃ t, turn s it = .ok t) (hno : ∀ s it t, turn s it = .ok t → ¬ (t.diff < tolN ∧ t.dEnl < tolE))
    {left : ℕ} (hl : 0 < left) (it : ℕ) (s : σ) : ksLoop turn tolN tolE left it s = .error .runtimeError := by
  induction left generalizing it s with
  | zero => omega
  | succ left ih =>
    rw [ksLoop]
    obtain ⟨t, ht⟩ := hok s it
    simp only [ht, bind, Except.bind]
    rw [if_neg (fun h => hno s it t ht ⟨h.1, h.2.1⟩)]
    split_ifs with h2
    · rfl
    · exact ih (by omega) _ _

/-- **C96.** An atom whose density or energies keep changing ends with a `RuntimeError`, never with a result. -/
theorem c96_not_converged {σ : Type} {turn : σ → ℕ → Except Exn (KSTurn σ)} {tolN tolE : ℝ}
    (hok : ∀ s it, ∃ t, turn s it = .ok t) (hno : ∀ s it t, turn s it = .ok t → ¬ (t.diff < tolN ∧ t.dEnl < tolE))
    {itmax : ℕ} (hi : 0 < itmax) (s : σ) : ksLoop turn tolN tolE itmax 0 s = .error .runtimeError :=
  ksLoop_error hok hno hi 0 s

/-- An iteration that halves its error converges in turn 7. -/
example : ksLoop (fun (x : ℝ) _ => .ok ⟨x / 2, x / 2, x / 2⟩) (1 / 2 ^ 7) (1 / 2 ^ 7) 8 0 1 = .ok (1 / 2 ^ 8, 7) := by
  simp only [ksLoop, bind, Except.bind, pure, Except.pure]
  norm_num

/-- An iteration that does not converge. -/
example : ∀ s it t, (fun (x : ℝ) (_ : ℕ) => (.ok ⟨x, 1, 1⟩ : Except Exn (KSTurn ℝ))) s it = .ok t →
    ¬ (t.diff < 1 / 2 ∧ t.dEnl < 1 / 2) := by
  intro s it t h
  simp only [Except.ok.injEq] at h
  rw [← h]
  norm_num

/-! ### Energy -/

/-- **C96.** The total energy: if the energies of the states sum to the kinetic energy `T` plus the energy in the
effective potential, the total is `T` plus the energies in the nuclear and confining potentials, the electrostatic
energy of the density and the exchange-correlation energy.  (So the confinement energy is part of it.) -/
theorem c96_total {N : ℕ} {r : ℕ → ℝ} {states : List (ℝ × ℝ)} {nucl conf hartree vxc exc dens : ℕ → ℝ} {T : ℝ}
    (h : (states.map fun s => s.1 * s.2).sum
      = T + rgIntegrate N r (fun i => (nucl i + hartree i + vxc i + conf i) * dens i) true) :
    atomTotalEnergy N r states hartree vxc exc dens
      = T + rgIntegrate N r (fun i => nucl i * dens i) true + rgIntegrate N r (fun i => conf i * dens i) true
        + 1 / 2 * rgIntegrate N r (fun i => hartree i * dens i) true
        + rgIntegrate N r (fun i => exc i * dens i) true := by
  unfold atomTotalEnergy
  rw [h]
  have : rgIntegrate N r (fun i => (nucl i + hartree i + vxc i + conf i) * dens i) true
      = rgIntegrate N r (fun i => nucl i * dens i) true + rgIntegrate N r (fun i => hartree i * dens i) true
        + rgIntegrate N r (fun i => vxc i * dens i) true + rgIntegrate N r (fun i => conf i * dens i) true := by
    simp only [rgIntegrate, if_true]
    rw [← add_mul, ← add_mul, ← add_mul, ← sum_add_distrib, ← sum_add_distrib, ← sum_add_distrib]
    congr 1
    exact sum_congr rfl fun i _ => by ring
  rw [this]
  ring

/-- For one electron in the state of energy `-1` with kinetic energy `T` the rest. -/
example : ∃ T : ℝ, (([((1 : ℝ), (-1 : ℝ))]).map fun s => s.1 * s.2).sum
    = T + rgIntegrate 3 (fun i => (i : ℝ) + 1) (fun i => (-1 / ((i : ℝ) + 1) + 0 + 0 + 0) * 1) true :=
  ⟨(([((1 : ℝ), (-1 : ℝ))]).map fun s => s.1 * s.2).sum
    - rgIntegrate 3 (fun i => (i : ℝ) + 1) (fun i => (-1 / ((i : ℝ) + 1) + 0 + 0 + 0) * 1) true, by ring⟩

end Hotbit
