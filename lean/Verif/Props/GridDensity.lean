import Verif.Props.GridOrbitals
import Mathlib.Tactic

/-!
# C105: states, densities and local densities of states on the grid
-/

namespace Hotbit

open Real ComplexConjugate

/-- What is returned of any array: each part clipped, up to an imaginary part below 1e-10. -/
theorem returnArray_near (a : Arr3) (pad : Bool) (i j k : ℤ) (h0 : 0 ≤ i ∧ i < a.shape 0) (h1 : 0 ≤ j ∧ j < a.shape 1)
    (h2 : 0 ≤ k ∧ k < a.shape 2) :
    ((returnArray a pad).val i j k).re = clip100 (a.val i j k).re ∧
    |((returnArray a pad).val i j k).im - clip100 (a.val i j k).im| < 1e-10 := by
  unfold returnArray
  simp only
  have hv : ∀ v : ℤ → ℤ → ℤ → ℂ, (if pad = true then ({ shape := a.shape, val := v } : Arr3)
      else { shape := fun i => a.shape i - 1, val := v }).val = v := by
    intro v; cases pad <;> simp
  rw [hv]
  split_ifs with h
  · refine ⟨by simp [clipC], ?_⟩
    have := h i j k h0 h1 h2
    simp only [clipC] at this
    simp only [Complex.ofReal_im, zero_sub, abs_neg]
    exact this
  · refine ⟨rfl, ?_⟩
    simp only [clipC, sub_self, abs_zero]
    norm_num

/-- C105: the real part of what is returned is the number in [-100, 100] nearest to the one computed. -/
theorem c105_clip (a : Arr3) (pad : Bool) (i j k : ℤ) (h0 : 0 ≤ i ∧ i < a.shape 0) (h1 : 0 ≤ j ∧ j < a.shape 1)
    (h2 : 0 ≤ k ∧ k < a.shape 2) :
    |((returnArray a pad).val i j k).re| ≤ 100 ∧
    ∀ y : ℝ, |y| ≤ 100 → |(a.val i j k).re - ((returnArray a pad).val i j k).re| ≤ |(a.val i j k).re - y| := by
  rw [(returnArray_near a pad i j k h0 h1 h2).1]
  refine ⟨abs_le.2 (clip100_range _), fun y hy => ?_⟩
  rw [abs_le] at hy
  unfold clip100
  split_ifs with h3 h4
  · rw [abs_of_neg (by linarith), abs_of_neg (by linarith)]
    linarith
  · rw [abs_of_pos (by linarith), abs_of_pos (by linarith)]
    linarith
  · rw [sub_self, abs_zero]
    exact abs_nonneg _

/-- Hypotheses of `c105_clip`: an array with a value beyond the limit. -/
example : |((returnArray { shape := fun _ => 2, val := fun _ _ _ => -300 } true).val 0 0 0).re| ≤ 100 :=
  (c105_clip _ true 0 0 0 (by norm_num) (by norm_num) (by norm_num)).1

theorem gridWf_fold (orbs : List (ℂ × Arr3)) (hbig : ∀ o ∈ orbs, o.1 = 0 ∨ ‖o.1‖ ^ 2 > 1e-13) (i j k : ℤ) :
    ∀ acc : ℤ → ℤ → ℤ → ℂ, (orbs.foldl (fun (acc : ℤ → ℤ → ℤ → ℂ) (o : ℂ × Arr3) =>
      haveI := Classical.dec (‖o.1‖ ^ 2 > 1e-13)
      if ‖o.1‖ ^ 2 > 1e-13 then fun i j k => acc i j k + o.1 * o.2.val i j k else acc) acc) i j k
      = acc i j k + (orbs.map fun o => o.1 * o.2.val i j k).sum := by
  induction orbs with
  | nil => intro acc; simp
  | cons o rest ih =>
    intro acc
    rw [List.foldl_cons, ih fun x hx => hbig x (List.mem_cons_of_mem _ hx), List.map_cons, List.sum_cons]
    rcases hbig o List.mem_cons_self with h | h
    · rw [h]; simp
    · rw [if_pos h]; ring

/-- C105: a state on the grid is the sum of its coefficients times the basis orbitals, clipped in both parts to [-100, 100]; the real
part is exact and the imaginary part to 1e-10. Coefficients are taken to be zero or of square above 1e-13. -/
theorem c105_state (N : Fin 3 → ℤ) (orbs : List (ℂ × Arr3)) (hbig : ∀ o ∈ orbs, o.1 = 0 ∨ ‖o.1‖ ^ 2 > 1e-13) (pad : Bool)
    (i j k : ℤ) (h0 : 0 ≤ i ∧ i < N 0) (h1 : 0 ≤ j ∧ j < N 1) (h2 : 0 ≤ k ∧ k < N 2) :
    let ψ := (orbs.map fun o => o.1 * o.2.val i j k).sum
    ((gridWf N orbs pad).val i j k).re = clip100 ψ.re ∧ |((gridWf N orbs pad).val i j k).im - clip100 ψ.im| < 1e-10 := by
  intro ψ
  have hf := gridWf_fold orbs hbig i j k (fun _ _ _ => 0)
  rw [zero_add] at hf
  unfold gridWf
  extract_lets v
  have h3 := returnArray_near { shape := N, val := v } pad i j k h0 h1 h2
  have hv : v i j k = ψ := hf
  simp only [hv] at h3
  exact h3

/-- C105: the density of a state is its squared modulus, at most 100, and never negative. -/
theorem c105_state_density (wf : Arr3) (pad : Bool) (i j k : ℤ) :
    (gridWfDensity wf pad).val i j k = ((min (‖wf.val i j k‖ ^ 2) 100 : ℝ) : ℂ) ∧
    (gridWfDensity wf pad).shape = if pad then wf.shape else fun i => wf.shape i - 1 := by
  have e : gridWfDensity wf pad = returnArray { shape := wf.shape, val := fun i j k => ((‖wf.val i j k‖ ^ 2 : ℝ) : ℂ) } pad := by
    unfold gridWfDensity
    congr 2
    funext i j k
    rw [Complex.mul_conj, Complex.normSq_eq_norm_sq]
  constructor
  · rw [e, returnArray_real]
    simp only
    congr 1
    have hn : 0 ≤ ‖wf.val i j k‖ ^ 2 := by positivity
    unfold clip100
    rw [if_neg (by linarith)]
    split_ifs with h
    · rw [min_eq_right h.le]
    · rw [min_eq_left (not_lt.1 h)]
  · rw [e, returnArray_shape]

theorem densityBands_spec (wk : ℝ) (occ rest : List (ℝ × Arr3)) (h : ∀ b ∈ occ, ¬ b.1 < 1e-6)
    (hr : rest = [] ∨ ∃ b r, rest = b :: r ∧ b.1 < 1e-6) (rho : ℤ → ℤ → ℤ → ℂ) (i j k : ℤ) :
    densityBands wk (occ ++ rest) rho i j k = rho i j k + wk * (occ.map fun b => b.2.val i j k).sum := by
  induction occ generalizing rho with
  | nil =>
    rcases hr with rfl | ⟨b, r, rfl, hb⟩
    · simp [densityBands]
    · rw [List.nil_append, densityBands, if_pos hb]; simp
  | cons b occ ih =>
    rw [List.cons_append, densityBands, if_neg (h b List.mem_cons_self), ih fun x hx => h x (List.mem_cons_of_mem _ hx),
      List.map_cons, List.sum_cons]
    ring

/-- The bands of a k-point: occupied ones first, the rest starting with an empty one. -/
structure BandSplit (k : ℝ × List (ℝ × Arr3)) (occ rest : List (ℝ × Arr3)) : Prop where
  split : k.2 = occ ++ rest
  occupied : ∀ b ∈ occ, ¬ b.1 < 1e-6
  empty : rest = [] ∨ ∃ b r, rest = b :: r ∧ b.1 < 1e-6

theorem exists_split (l : List (ℝ × Arr3)) :
    ∃ occ rest, l = occ ++ rest ∧ (∀ b ∈ occ, ¬ b.1 < 1e-6) ∧ (rest = [] ∨ ∃ b r, rest = b :: r ∧ b.1 < 1e-6) := by
  induction l with
  | nil => exact ⟨[], [], rfl, by simp, Or.inl rfl⟩
  | cons b l ih =>
    by_cases hb : b.1 < 1e-6
    · exact ⟨[], b :: l, rfl, by simp, Or.inr ⟨b, l, rfl, hb⟩⟩
    · obtain ⟨occ, rest, h1, h2, h3⟩ := ih
      refine ⟨b :: occ, rest, by rw [h1]; rfl, ?_, h3⟩
      intro x hx
      rcases List.mem_cons.1 hx with rfl | hx
      · exact hb
      · exact h2 x hx

/-- C105 (partial: the occupations are not in the sum): the density is the sum over k-points and over the bands before the first empty
one of weight times state density, cut at 100 — every such band counts as one electron. -/
theorem c105_density_partial (N : Fin 3 → ℤ) (ks : List (ℝ × List (ℝ × Arr3))) (pad : Bool)
    (occ : ℝ × List (ℝ × Arr3) → List (ℝ × Arr3)) (hocc : ∀ k ∈ ks, ∃ rest, BandSplit k (occ k) rest)
    (i j l : ℤ) (n : (ℝ × Arr3) → ℝ) (hreal : ∀ k ∈ ks, ∀ b ∈ k.2, b.2.val i j l = (n b : ℂ))
    (h0 : 0 ≤ i ∧ i < N 0) (h1 : 0 ≤ j ∧ j < N 1) (h2 : 0 ≤ l ∧ l < N 2) :
    ((gridDensity N ks pad).val i j l).re = clip100 (ks.map fun k => k.1 * ((occ k).map n).sum).sum := by
  have hfold : ∀ rho : ℤ → ℤ → ℤ → ℂ, (ks.foldl (fun rho k => densityBands k.1 k.2 rho) rho) i j l
      = rho i j l + ((ks.map fun k => k.1 * ((occ k).map n).sum).sum : ℝ) := by
    induction ks with
    | nil => intro rho; simp
    | cons k ks ih =>
      intro rho
      obtain ⟨rest, hs⟩ := hocc k List.mem_cons_self
      rw [List.foldl_cons, ih (fun x hx => hocc x (List.mem_cons_of_mem _ hx))
        (fun x hx => hreal x (List.mem_cons_of_mem _ hx)), hs.split,
        densityBands_spec k.1 _ _ hs.occupied hs.empty, List.map_cons, List.sum_cons]
      have e : ((occ k).map fun b => b.2.val i j l) = (occ k).map fun b => ((n b : ℝ) : ℂ) := by
        apply List.map_congr_left
        intro b hb
        exact hreal k List.mem_cons_self b (by rw [hs.split]; exact List.mem_append_left _ hb)
      have e2 : (((occ k).map fun b => ((n b : ℝ) : ℂ)).sum) = (((occ k).map n).sum : ℝ) := by
        generalize occ k = L
        induction L with
        | nil => simp
        | cons a L ih2 => simp [ih2]
      rw [e, e2]
      push_cast; ring
  unfold gridDensity
  have := (returnArray_near { shape := N, val := ks.foldl (fun rho k => densityBands k.1 k.2 rho) (fun _ _ _ => 0) } pad i j l
    h0 h1 h2).1
  rw [this]
  simp only
  rw [hfold]
  simp

/-- C105 fails for the electron density: one doubly occupied state gives its density once, half the density of its two electrons. -/
theorem c105_density_fails (N : Fin 3 → ℤ) (d : Arr3) (i j l : ℤ) (x : ℝ) (hd : d.val i j l = (x : ℂ)) (hx : 0 < x) (hx' : x < 50)
    (h0 : 0 ≤ i ∧ i < N 0) (h1 : 0 ≤ j ∧ j < N 1) (h2 : 0 ≤ l ∧ l < N 2) (pad : Bool) :
    ((gridDensity N [(1, [((2 : ℝ), d)])] pad).val i j l).re = x ∧ x ≠ clip100 (2 * x) := by
  constructor
  · have := c105_density_partial N [(1, [((2 : ℝ), d)])] pad (fun k => k.2) (by
      intro k hk
      rw [List.mem_singleton] at hk
      subst hk
      exact ⟨[], ⟨by simp, by intro b hb; simp at hb; subst hb; norm_num, Or.inl rfl⟩⟩) i j l (fun _ => x) (by
      intro k hk b hb
      rw [List.mem_singleton] at hk
      subst hk
      simp at hb
      subst hb
      exact hd) h0 h1 h2
    rw [this]
    simp
    exact clip100_of x (by rw [abs_of_pos hx]; linarith)
  · rw [clip100_of (2 * x) (by rw [abs_of_pos (by linarith)]; linarith)]
    linarith

open Classical in
/-- The bands that count in a local density of states, with their weights. -/
noncomputable def ldosTerm (w : ℝ) (x : ℂ) : ℂ := if w < 1e-4 then 0 else w * x

theorem gridLdos_spec (hartree : ℝ) (N : Fin 3 → ℤ) (width mu : ℝ) (bias : Option ℝ) (window : Option (ℝ × ℝ))
    (ks : List (ℝ × List LdosBand)) (pad : Bool) (hb : ¬ (bias = none ∧ window = none)) (i j l : ℤ)
    (h0 : 0 ≤ i ∧ i < N 0) (h1 : 0 ≤ j ∧ j < N 1) (h2 : 0 ≤ l ∧ l < N 2) :
    ∃ A, gridLdos hartree N width mu bias window ks pad = .ok A ∧
      (A.val i j l).re = clip100 ((ks.map fun (k : ℝ × List LdosBand) => (k.2.map fun b => ldosTerm
        (k.1 * ldosWeight width mu (bias.map (· / hartree)) (ldosWindow hartree bias window) b.e b.f * 2)
        (b.d.val i j l)).sum).sum).re := by
  unfold gridLdos
  rw [if_neg hb]
  refine ⟨_, rfl, ?_⟩
  rw [(returnArray_near _ pad i j l h0 h1 h2).1]
  simp only
  generalize ldosWindow hartree bias window = W
  generalize bias.map (· / hartree) = B
  congr 2
  have hin : ∀ (wk : ℝ) (bs : List LdosBand) (rho : ℤ → ℤ → ℤ → ℂ),
      (bs.foldl (fun (rho : ℤ → ℤ → ℤ → ℂ) (b : LdosBand) =>
        haveI := Classical.dec (wk * ldosWeight width mu B W b.e b.f * 2 < 1e-4)
        if wk * ldosWeight width mu B W b.e b.f * 2 < 1e-4 then rho
        else fun i j l => rho i j l + (wk * ldosWeight width mu B W b.e b.f * 2 : ℝ) * b.d.val i j l) rho) i j l
      = rho i j l + (bs.map fun b => ldosTerm (wk * ldosWeight width mu B W b.e b.f * 2) (b.d.val i j l)).sum := by
    intro wk bs
    induction bs with
    | nil => intro rho; simp
    | cons b bs ih =>
      intro rho
      rw [List.foldl_cons, ih, List.map_cons, List.sum_cons, ldosTerm]
      split_ifs with h
      · ring
      · ring
  have hout : ∀ rho : ℤ → ℤ → ℤ → ℂ, (ks.foldl (fun (rho : ℤ → ℤ → ℤ → ℂ) (k : ℝ × List LdosBand) =>
      k.2.foldl (fun (rho : ℤ → ℤ → ℤ → ℂ) (b : LdosBand) =>
        haveI := Classical.dec (k.1 * ldosWeight width mu B W b.e b.f * 2 < 1e-4)
        if k.1 * ldosWeight width mu B W b.e b.f * 2 < 1e-4 then rho
        else fun i j l => rho i j l + (k.1 * ldosWeight width mu B W b.e b.f * 2 : ℝ) * b.d.val i j l) rho) rho) i j l
      = rho i j l + (ks.map fun (k : ℝ × List LdosBand) => (k.2.map fun b => ldosTerm (k.1 * ldosWeight width mu B W b.e b.f * 2) (b.d.val i j l)).sum).sum := by
    clear hb
    induction ks with
    | nil => intro rho; simp
    | cons k ks ih =>
      intro rho
      rw [List.foldl_cons, ih, hin, List.map_cons, List.sum_cons]
      ring
  have := hout (fun _ _ _ => 0)
  rw [zero_add] at this
  convert this

/-- C105: with a bias voltage each state has the weight `2 w_k` times the probability that it is occupied and empty at the shifted
Fermi level (negative bias), or the reverse (positive bias); weights below 1e-4 are left out. -/
theorem c105_bias (hartree : ℝ) (N : Fin 3 → ℤ) (width mu v : ℝ) (ks : List (ℝ × List LdosBand)) (pad : Bool) (i j l : ℤ)
    (hh : 0 < hartree) (h0 : 0 ≤ i ∧ i < N 0) (h1 : 0 ≤ j ∧ j < N 1) (h2 : 0 ≤ l ∧ l < N 2) :
    ∃ A, gridLdos hartree N width mu (some v) none ks pad = .ok A ∧
      (A.val i j l).re = clip100 ((ks.map fun (k : ℝ × List LdosBand) => (k.2.map fun b => ldosTerm (2 * k.1 *
        (if v < 0 then b.f / 2 * (1 - fermiFunction width (mu + v / hartree) b.e)
         else if 0 < v then (1 - b.f / 2) * fermiFunction width (mu + v / hartree) b.e else 0))
        (b.d.val i j l)).sum).sum).re := by
  obtain ⟨A, hA, hv⟩ := gridLdos_spec hartree N width mu (some v) none ks pad (by simp) i j l h0 h1 h2
  refine ⟨A, hA, ?_⟩
  rw [hv]
  congr 6
  funext k
  congr 2
  funext b
  congr 1
  unfold ldosWeight ldosWindow
  simp only [Option.map_some, Option.getD_some]
  have e : ∀ x, fermiFunction width mu (x - v / hartree) = fermiFunction width (mu + v / hartree) x := by
    intro x; unfold fermiFunction; congr 4; ring
  rw [e]
  have s1 : v / hartree < 0 ↔ v < 0 := by rw [div_lt_iff₀ hh, zero_mul]
  have s2 : v / hartree > 0 ↔ 0 < v := by rw [gt_iff_lt, lt_div_iff₀ hh, zero_mul]
  simp only [s1, s2]
  split_ifs <;> ring

/-- C105: with a window alone the states inside it count twice their k-point weight (the window is compared with energies that are not
measured from the Fermi level). -/
theorem c105_window_partial (hartree : ℝ) (N : Fin 3 → ℤ) (width mu a b : ℝ) (ks : List (ℝ × List LdosBand)) (pad : Bool) (i j l : ℤ)
    (h0 : 0 ≤ i ∧ i < N 0) (h1 : 0 ≤ j ∧ j < N 1) (h2 : 0 ≤ l ∧ l < N 2) :
    ∃ A, gridLdos hartree N width mu none (some (a, b)) ks pad = .ok A ∧
      (A.val i j l).re = clip100 ((ks.map fun (k : ℝ × List LdosBand) => (k.2.map fun x => ldosTerm (2 * k.1 *
        (if a / hartree ≤ x.e ∧ x.e ≤ b / hartree then 1 else 0)) (x.d.val i j l)).sum).sum).re := by
  obtain ⟨A, hA, hv⟩ := gridLdos_spec hartree N width mu none (some (a, b)) ks pad (by simp) i j l h0 h1 h2
  refine ⟨A, hA, ?_⟩
  rw [hv]
  congr 6
  funext k
  congr 2
  funext x
  congr 1
  unfold ldosWeight ldosWindow
  simp only [Option.map_some]
  split_ifs <;> ring

/-- C105 fails for windows: with the Fermi level at -5 eV, a state exactly at the Fermi level does not count in the window from -1 to
1 eV around it. -/
theorem c105_window_fails (N : Fin 3 → ℤ) (width : ℝ) (d : Arr3) (pad : Bool) (i j l : ℤ)
    (h0 : 0 ≤ i ∧ i < N 0) (h1 : 0 ≤ j ∧ j < N 1) (h2 : 0 ≤ l ∧ l < N 2) :
    ∃ A, gridLdos 27.2 N width (-5 / 27.2) none (some (-1, 1)) [(1, [{ e := -5 / 27.2, f := 1, d := d }])] pad = .ok A ∧
      (A.val i j l).re = 0 := by
  obtain ⟨A, hA, hv⟩ := c105_window_partial 27.2 N width (-5 / 27.2) (-1) 1 [(1, [{ e := -5 / 27.2, f := 1, d := d }])] pad i j l h0 h1 h2
  refine ⟨A, hA, ?_⟩
  rw [hv]
  have : ¬ ((-1 : ℝ) / 27.2 ≤ -5 / 27.2 ∧ (-5 : ℝ) / 27.2 ≤ 1 / 27.2) := by norm_num
  simp only [List.map_cons, List.map_nil, List.sum_cons, List.sum_nil, if_neg this, ldosTerm]
  norm_num [clip100_zero]

/-- C105: one of bias and window has to be given. -/
theorem c105_neither (hartree : ℝ) (N : Fin 3 → ℤ) (width mu : ℝ) (ks : List (ℝ × List LdosBand)) (pad : Bool) :
    gridLdos hartree N width mu none none ks pad = .error .assertionError := by
  unfold gridLdos; rw [if_pos ⟨rfl, rfl⟩]

/-- Two k-points whose bands split as `c105_density_partial` asks. -/
example (d : Arr3) : ∃ occ : ℝ × List (ℝ × Arr3) → List (ℝ × Arr3),
    ∀ k ∈ [((0.5 : ℝ), [((2 : ℝ), d), (0, d)]), (0.5, [(2, d), (1, d)])], ∃ rest, BandSplit k (occ k) rest := by
  choose occ rest h1 h2 h3 using exists_split
  exact ⟨fun k => occ k.2, fun k _ => ⟨rest k.2, h1 _, h2 _, h3 _⟩⟩

end Hotbit
