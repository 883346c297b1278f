import Verif.Lemmas.LongRun
import Verif.Props.ErgodicDriver

/-!
# C132: when `ergodic_distribution` answers, and what the answer says about the long run
-/

set_option linter.unusedSectionVars false

namespace Dolo

variable {K : Type} [Field K] [LinearOrder K] [IsStrictOrderedRing K] [FloorRing K]

/-! ### Helper lemmas -/

/-- The rows of the system. -/
theorem ergodicSystem_rows {N : ℕ} (P : Fin N → Fin N → K) (v : Fin N → K) (i : Fin N) :
    ∑ j, ergodicSystem P i j * v j =
      if i.val + 1 = N then ∑ j, v j else (∑ j, v j * P j i) - v i := by
  split_ifs with h
  · apply Finset.sum_congr rfl
    intro j _
    simp [ergodicSystem, h]
  · have : ∀ j, ergodicSystem P i j * v j = v j * P j i - (if i = j then v j else 0) := by
      intro j
      unfold ergodicSystem
      rw [if_neg h]
      split_ifs <;> ring
    rw [Finset.sum_congr rfl (fun j _ => this j), Finset.sum_sub_distrib]
    simp

/-- The null vectors of the system are the invariant vectors with zero mass. -/
theorem ergodicSystem_null {N : ℕ} (P : Fin N → Fin N → K) (hP : ∀ i, ∑ j, P i j = 1) (hN : N ≠ 0)
    (v : Fin N → K) : (∀ i, ∑ j, ergodicSystem P i j * v j = 0) ↔ Invariant P v ∧ ∑ i, v i = 0 := by
  simp only [ergodicSystem_rows]
  have etot : ∑ i, ((∑ j, v j * P j i) - v i) = 0 := by
    rw [Finset.sum_sub_distrib, Finset.sum_comm]
    simp only [← Finset.mul_sum, hP, mul_one, sub_self]
  constructor
  · intro h
    have hs : ∑ j, v j = 0 := by
      have := h ⟨N - 1, by omega⟩
      rwa [if_pos (by simp; omega)] at this
    refine ⟨fun j => ?_, hs⟩
    have hne : ∀ i : Fin N, i.val + 1 ≠ N → (∑ j, v j * P j i) - v i = 0 := by
      intro i hi
      have := h i
      rwa [if_neg hi] at this
    by_cases hj : j.val + 1 = N
    · have : ∑ i, ((∑ j, v j * P j i) - v i) = (∑ i, v i * P i j) - v j := by
        apply Finset.sum_eq_single
        · intro b _ hb
          exact hne b fun h => hb (Fin.ext (by omega))
        · simp
      linarith
    · linarith [hne j hj]
  · rintro ⟨h1, h2⟩ i
    split_ifs
    · exact h2
    · rw [h1 i, sub_self]

/-- `numpy.linalg.solve` also answers every non-singular system. -/
def SolveTotal {N : ℕ} (solve : (Fin N → Fin N → K) → (Fin N → K) → Except Err (Fin N → K)) : Prop :=
  ∀ A B, (∀ v : Fin N → K, (∀ i, ∑ j, A i j * v j = 0) → ∀ j, v j = 0) → ∃ x, solve A B = .ok x

theorem linspaces_total (a b : List K) (n : List ℕ) (h1 : a.length = b.length) (h2 : a.length = n.length) :
    ∃ sl, linspaces a b n = .ok sl := by
  induction a generalizing b n with
  | nil => exact ⟨_, rfl⟩
  | cons x a ih =>
    cases b with
    | nil => simp at h1
    | cons y b =>
      cases n with
      | nil => simp at h2
      | cons m n =>
        obtain ⟨sl, hsl⟩ := ih b n (by simpa using h1) (by simpa using h2)
        exact ⟨linspace x y m :: sl, by simp [linspaces, hsl, bind, Except.bind, pure, Except.pure]⟩

/-- A stochastic list matrix as a square array. -/
theorem asSquare_stochastic (P : List (List K)) (hP : StochasticRows P.length P) :
    (∀ i, ∑ j, asSquare P i j = 1) ∧ ∀ i j, 0 ≤ asSquare P i j := by
  constructor
  · intro i
    obtain ⟨hl, hs, -⟩ := hP P[i.val] (List.getElem_mem _)
    have h : ∀ (n : ℕ) (row : List K), row.length = n → ∑ j : Fin n, row.getD j.val 0 = row.sum := by
      rintro n row rfl
      rw [← Fin.sum_univ_getElem]
      exact Finset.sum_congr rfl fun j _ => by simp
    rw [← hs, ← h _ _ hl]
    rfl
  · intro i j
    obtain ⟨hl, -, hp⟩ := hP P[i.val] (List.getElem_mem _)
    unfold asSquare
    have hj : j.val < P[i.val].length := by rw [hl]; exact j.isLt
    rw [List.getD_eq_getElem _ _ hj]
    exact hp _ (List.getElem_mem _)

/-! ### C132: the solved system -/

/-- **C132** (when the system is solved).  `numpy.linalg.solve` answers exactly when some state can be reached
from every state. -/
theorem C132_solved_iff {N : ℕ} (solve : (Fin N → Fin N → K) → (Fin N → K) → Except Err (Fin N → K))
    (hsolve : SolveContract solve) (htot : SolveTotal solve)
    (P : Fin N → Fin N → K) (hP : ∀ i, ∑ j, P i j = 1) (hpos : ∀ i j, 0 ≤ P i j) :
    (∃ mu, ergodicMu solve P = .ok mu) ↔ ∃ j, ∀ i, Reaches P i j := by
  by_cases hN : N = 0
  · subst hN
    constructor
    · rintro ⟨mu, h⟩
      simp [ergodicMu] at h
    · rintro ⟨j, -⟩
      exact j.elim0
  · have : Nonempty (Fin N) := ⟨⟨0, Nat.pos_of_ne_zero hN⟩⟩
    constructor
    · rintro ⟨mu, h⟩
      rw [ergodicMu, if_neg hN] at h
      by_contra hno
      obtain ⟨v, hv0, hvs, hvi⟩ := two_invariant P hP hpos hno
      exact hv0 (funext fun j => (hsolve _ _ _ h).2 v ((ergodicSystem_null P hP hN v).2 ⟨hvi, hvs⟩) j)
    · rintro ⟨j, hj⟩
      rw [ergodicMu, if_neg hN]
      refine htot _ _ fun v hv => ?_
      obtain ⟨h1, h2⟩ := (ergodicSystem_null P hP hN v).1 hv
      exact kernel_trivial P hP hpos j hj v h1 h2

/-- **C132** (which states have mass).  The solution gives positive probability exactly to the states that can
be reached from every state. -/
theorem C132_support {N : ℕ} (solve : (Fin N → Fin N → K) → (Fin N → K) → Except Err (Fin N → K))
    (hsolve : SolveContract solve)
    (P : Fin N → Fin N → K) (hP : ∀ i, ∑ j, P i j = 1) (hpos : ∀ i j, 0 ≤ P i j) (mu : Fin N → K)
    (hmu : ergodicMu solve P = .ok mu) (j : Fin N) : 0 < mu j ↔ ∀ i, Reaches P i j := by
  obtain ⟨h1, h2, h3, h4⟩ := C17_ergodic_distribution solve hsolve P hP hpos mu hmu
  constructor
  · intro hj i
    obtain ⟨nu, -, n1, n2, n3⟩ := exists_invariant_reached P hP hpos i
    have := h4 nu n2 n1
    subst this
    exact n3 j hj.ne'
  · intro hr
    have : ∃ i, 0 < mu i := by
      by_contra hno
      push Not at hno
      have : ∑ i, mu i ≤ 0 := Finset.sum_nonpos fun i _ => hno i
      linarith
    obtain ⟨i, hi⟩ := this
    exact mass_reaches P hpos mu h3 h1 i j hi (hr i)

/-- **C132** (long-run frequencies).  From every initial distribution, the average distribution over the first
`n` periods is within `C / n` of the solution. -/
theorem C132_frequencies {N : ℕ} (solve : (Fin N → Fin N → K) → (Fin N → K) → Except Err (Fin N → K))
    (hsolve : SolveContract solve)
    (P : Fin N → Fin N → K) (hP : ∀ i, ∑ j, P i j = 1) (hpos : ∀ i j, 0 ≤ P i j) (mu : Fin N → K)
    (hmu : ergodicMu solve P = .ok mu) :
    ∃ C, ∀ nu : Fin N → K, (∀ i, 0 ≤ nu i) → ∑ i, nu i = 1 → ∀ n : ℕ, n ≠ 0 → ∀ i,
      |(∑ t ∈ Finset.range n, evolve P nu t i) / n - mu i| ≤ C / n := by
  obtain ⟨h1, h2, -, -⟩ := C17_ergodic_distribution solve hsolve P hP hpos mu hmu
  have hN : N ≠ 0 := by
    rintro rfl
    simp [ergodicMu] at hmu
  rw [ergodicMu, if_neg hN] at hmu
  obtain ⟨C, hC0, hC⟩ := system_bound (ergodicSystem P) (hsolve _ _ _ hmu).2
  refine ⟨C, fun nu hn0 hn1 n hn i => ?_⟩
  have hnpos : (0 : K) < n := by exact_mod_cast Nat.pos_of_ne_zero hn
  have := hC (fun i => average P nu n i - mu i) (1 / n) (by
    intro i
    rw [ergodicSystem_rows]
    split_ifs
    · rw [Finset.sum_sub_distrib, average_sum P hP nu hn1 n hn, h2, sub_self, abs_zero]
      positivity
    · have e : (∑ j, (average P nu n j - mu j) * P j i) - (average P nu n i - mu i) =
          (evolve P nu n i - nu i) / n := by
        rw [← average_drift]
        simp only [sub_mul, Finset.sum_sub_distrib]
        rw [h1 i]
        ring
      rw [e, abs_div, abs_of_pos hnpos]
      apply div_le_div_of_nonneg_right _ hnpos.le
      have a1 := evolve_le_one P hP hpos nu hn0 hn1 n i
      have a2 := evolve_nonneg P hpos nu hn0 n i
      have a3 := evolve_le_one P hP hpos nu hn0 hn1 0 i
      have a4 := hn0 i
      have a5 : evolve P nu 0 i = nu i := rfl
      rw [abs_le]
      constructor <;> linarith) i
  rw [mul_one_div] at this
  exact this

/-- **C132** (convergence).  If, some number `n` of periods ahead, some state has positive probability from
every state, then the distribution itself converges to the solution, geometrically, from every initial
distribution. -/
theorem C132_convergence {N : ℕ} (solve : (Fin N → Fin N → K) → (Fin N → K) → Except Err (Fin N → K))
    (hsolve : SolveContract solve)
    (P : Fin N → Fin N → K) (hP : ∀ i, ∑ j, P i j = 1) (hpos : ∀ i j, 0 ≤ P i j) (mu : Fin N → K)
    (hmu : ergodicMu solve P = .ok mu) (n : ℕ) (j0 : Fin N)
    (hn : ∀ i, 0 < evolve P (fun k => if k = i then 1 else 0) n j0) :
    ∃ rho, 0 ≤ rho ∧ rho < 1 ∧ ∀ nu : Fin N → K, (∀ i, 0 ≤ nu i) → ∑ i, nu i = 1 → ∀ q s : ℕ,
      ∑ i, |evolve P nu (q * n + s) i - mu i| ≤ 2 * rho ^ q := by
  obtain ⟨h1, h2, h3, -⟩ := C17_ergodic_distribution solve hsolve P hP hpos mu hmu
  have : Nonempty (Fin N) := ⟨j0⟩
  obtain ⟨m, hm⟩ := Finite.exists_min fun i => evolve P (fun k => if k = i then 1 else 0) n j0
  have he1 : evolve P (fun k => if k = m then 1 else 0) n j0 ≤ 1 :=
    evolve_le_one P hP hpos _ (fun k => by split_ifs <;> norm_num) (by simp) n j0
  refine ⟨1 - evolve P (fun k => if k = m then 1 else 0) n j0, by linarith, by linarith [hn m], ?_⟩
  intro nu n0 n1 q s
  have hd : ∑ i, (nu i - mu i) = 0 := by rw [Finset.sum_sub_distrib, n1, h2, sub_self]
  have hl : ∀ i, evolve P nu (q * n + s) i - mu i =
      evolve P (evolve P (fun i => nu i - mu i) (q * n)) s i := by
    intro i
    rw [← evolve_add, evolve_linear, evolve_invariant P mu h1]
  simp only [hl]
  refine (evolve_l1 P hP hpos _ s).trans ((geometric P hP hpos n j0 _ he1 hm _ hd q).trans ?_)
  rw [mul_comm]
  apply mul_le_mul_of_nonneg_right _ (pow_nonneg (by linarith) _)
  calc ∑ j, |nu j - mu j| ≤ ∑ j, (nu j + mu j) := by
        apply Finset.sum_le_sum
        intro j _
        rw [abs_le]
        constructor <;> linarith [n0 j, h3 j]
    _ = 2 := by rw [Finset.sum_add_distrib, n1, h2]; norm_num

/-- A chain that alternates between two states has an ergodic distribution, though the distribution itself
does not converge: only frequencies do. -/
theorem C132_periodic (solve : (Fin 2 → Fin 2 → K) → (Fin 2 → K) → Except Err (Fin 2 → K))
    (hsolve : SolveContract solve) (htot : SolveTotal solve) :
    ∃ mu, ergodicMu solve (fun i j : Fin 2 => if i = j then (0 : K) else 1) = .ok mu ∧
      (∀ i, mu i = 1 / 2) ∧
      ∀ t i, evolve (fun i j : Fin 2 => if i = j then (0 : K) else 1) (fun k => if k = 0 then 1 else 0) t i =
        if (t + i.val) % 2 = 0 then 1 else 0 := by
  have hP : ∀ i : Fin 2, ∑ j, (if i = j then (0 : K) else 1) = 1 := by
    intro i
    rw [Fin.sum_univ_two]
    fin_cases i <;> simp
  have hpos : ∀ i j : Fin 2, (0 : K) ≤ if i = j then 0 else 1 := by
    intro i j
    split_ifs <;> norm_num
  obtain ⟨mu, hmu⟩ := (C132_solved_iff solve hsolve htot (fun i j : Fin 2 => if i = j then (0 : K) else 1)
    hP hpos).2 ⟨0, fun i => by
      fin_cases i
      · exact Relation.ReflTransGen.refl
      · exact Relation.ReflTransGen.single (by simp)⟩
  obtain ⟨-, -, -, h4⟩ := C17_ergodic_distribution solve hsolve _ hP hpos mu hmu
  refine ⟨mu, hmu, ?_, ?_⟩
  · have := h4 (fun _ => 1 / 2) (by intro j; rw [Fin.sum_univ_two]; fin_cases j <;> simp) (by
      rw [Fin.sum_univ_two]; norm_num)
    intro i
    rw [← this]
  · intro t
    induction t with
    | zero => intro i; fin_cases i <;> simp [evolve]
    | succ t ih =>
      intro i
      simp only [evolve, ih, Fin.sum_univ_two]
      rcases Nat.mod_two_eq_zero_or_one t with h | h <;> fin_cases i <;> simp [h, Nat.add_mod]

/-! ### C132: `ergodic_distribution` -/

theorem ergodicFinish_iff (solve : (N : ℕ) → (Fin N → Fin N → K) → (Fin N → K) → Except Err (Fin N → K))
    (grid : UniformGrid K) (pi : List (List K)) (hl : ∃ sl, linspaces grid.min grid.max grid.n = .ok sl)
    (hs : SolveContract (solve pi.length)) (ht : SolveTotal (solve pi.length))
    (hpi : StochasticRows pi.length pi) :
    (∃ r, ergodicFinish solve grid pi = .ok r) ↔ ∃ j, ∀ i, Reaches (asSquare pi) i j := by
  obtain ⟨g1, g2⟩ := asSquare_stochastic pi hpi
  obtain ⟨sl, hsl⟩ := hl
  rw [← C132_solved_iff (solve pi.length) hs ht (asSquare pi) g1 g2]
  constructor
  · rintro ⟨r, hr⟩
    cases hm : ergodicMu (solve pi.length) (asSquare pi) with
    | error e => simp [ergodicFinish, hm, bind, Except.bind] at hr
    | ok mu => exact ⟨mu, rfl⟩
  · rintro ⟨mu, hm⟩
    exact ⟨⟨pi, List.ofFn mu, sl⟩, by simp [ergodicFinish, hm, hsl, bind, Except.bind, pure, Except.pure]⟩

theorem ergodicFinish_long_run
    (solve : (N : ℕ) → (Fin N → Fin N → K) → (Fin N → K) → Except Err (Fin N → K))
    (grid : UniformGrid K) (pi : List (List K))
    (hs : SolveContract (solve pi.length)) (hpi : StochasticRows pi.length pi)
    (r : ErgodicResult K) (h : ergodicFinish solve grid pi = .ok r) :
    r.pi = pi ∧ ∃ C, ∀ nu : Fin r.pi.length → K, (∀ i, 0 ≤ nu i) → ∑ i, nu i = 1 → ∀ n : ℕ, n ≠ 0 → ∀ i,
      |(∑ t ∈ Finset.range n, evolve (asSquare r.pi) nu t i) / n - r.mu.getD i.val 0| ≤ C / n := by
  obtain ⟨g1, g2⟩ := asSquare_stochastic pi hpi
  cases hm : ergodicMu (solve pi.length) (asSquare pi) with
  | error e => simp [ergodicFinish, hm, bind, Except.bind] at h
  | ok mu =>
    cases hl : linspaces grid.min grid.max grid.n with
    | error e => simp [ergodicFinish, hm, hl, bind, Except.bind] at h
    | ok sl =>
      simp only [ergodicFinish, hm, hl, bind, Except.bind, pure, Except.pure, Except.ok.injEq] at h
      subst h
      refine ⟨rfl, ?_⟩
      obtain ⟨C, hC⟩ := C132_frequencies (solve pi.length) hs (asSquare pi) g1 g2 mu hm
      refine ⟨C, fun nu n0 n1 n hn i => ?_⟩
      have := hC nu n0 n1 n hn i
      have e : (List.ofFn mu).getD i.val 0 = mu i := by
        rw [List.getD_eq_getElem _ _ (by simp)]
        simp
      simp only [e]
      exact this

/-- **C132** (Markov chains).  With one or two states, `ergodic_distribution` returns a result exactly when
some pair (exogenous state, node) can be reached from every pair through the transition matrix, which is what
`compute_μ=False` returns; otherwise `numpy.linalg.solve` raises.  The result gives, up to `C / n`, the fraction of the first `n` periods
spent in each pair, whatever the initial distribution. -/
theorem C132_markov (solve : (N : ℕ) → (Fin N → Fin N → K) → (Fin N → K) → Except Err (Fin N → K))
    (mn mx : List K) (n : List ℕ) (grid : UniformGrid K)
    (hgrid : UniformGrid.mk' mn mx n = .ok grid) (h1 : mn.length = mx.length) (h2 : mn.length = n.length)
    (hd : n.length = 1 ∨ n.length = 2) (hn : ∀ m ∈ n, 2 ≤ m)
    (mnodes P : List (List K)) (hP : StochasticRows P.length P)
    (hs : SolveContract (solve (P.length * n.prod))) (ht : SolveTotal (solve (P.length * n.prod)))
    (dr : ℕ → List K → List K) (g : List K → List K → List K → List K → List K) :
    ∃ pi, ergodicTransMC grid mnodes P dr g = .ok pi ∧ pi.length = P.length * n.prod ∧
      ((∃ r, ergodicDistMC solve grid mnodes P dr g = .ok r) ↔ ∃ j, ∀ i, Reaches (asSquare pi) i j) ∧
      ∀ r, ergodicDistMC solve grid mnodes P dr g = .ok r → r.pi = pi ∧
        ∃ C, ∀ nu : Fin r.pi.length → K, (∀ i, 0 ≤ nu i) → ∑ i, nu i = 1 → ∀ n : ℕ, n ≠ 0 → ∀ i,
          |(∑ t ∈ Finset.range n, evolve (asSquare r.pi) nu t i) / n - r.mu.getD i.val 0| ≤ C / n := by
  obtain ⟨ρ, tr, zero, flat, shape, hsp, hz, hz0, hMC, -, -⟩ := hand_cases mn mx n grid hgrid h1 h2 hd hn
  have hne : n ≠ [] := by
    rintro rfl
    simp at hd
  obtain ⟨g', hg', hgmn, hgmx, hgn, hlen, -⟩ := C02_uniform_grid_nodes mn mx n hne h1 h2 hn
  rw [hgrid] at hg'
  cases hg'
  simp only [ergodicDistMC, ergodicTransMC, hMC, bind, Except.bind]
  generalize (fun i_m i_M n => renormaliseRow grid (g (mnodes.getD i_m []) (grid.nodes.getD n [])
    (dr i_m (grid.nodes.getD n [])) (mnodes.getD i_M []))) = S
  obtain ⟨hl, hst⟩ := C69_markov_stochastic tr zero flat shape grid.nodes.length hsp hz hz0 P hP S
  rw [← hl] at hst
  have hN : (ergodicMatrixMC tr zero flat P S grid.nodes.length).length = P.length * n.prod := by rw [hl, hlen]
  refine ⟨_, rfl, hN, ergodicFinish_iff solve grid _ ?_ (by rw [hN]; exact hs) (by rw [hN]; exact ht) hst, fun r hr =>
    ergodicFinish_long_run solve grid _ (by rw [hN]; exact hs) hst r hr⟩
  rw [hgmn, hgmx, hgn]
  exact linspaces_total mn mx n h1 h2

/-- **C132** (iid processes). -/
theorem C132_iid (solve : (N : ℕ) → (Fin N → Fin N → K) → (Fin N → K) → Except Err (Fin N → K))
    (mn mx : List K) (n : List ℕ) (grid : UniformGrid K)
    (hgrid : UniformGrid.mk' mn mx n = .ok grid) (h1 : mn.length = mx.length) (h2 : mn.length = n.length)
    (hd : n.length = 1 ∨ n.length = 2) (hn : ∀ m ∈ n, 2 ≤ m)
    (m0 : List K) (inodes : List (List K)) (ws : List K) (hsum : ws.sum = 1) (hpos : ∀ w ∈ ws, 0 ≤ w)
    (hs : SolveContract (solve n.prod)) (ht : SolveTotal (solve n.prod))
    (dr : List K → List K) (g : List K → List K → List K → List K → List K) :
    ∃ pi, ergodicTransIID grid m0 inodes ws dr g = .ok pi ∧ pi.length = n.prod ∧
      ((∃ r, ergodicDistIID solve grid m0 inodes ws dr g = .ok r) ↔ ∃ j, ∀ i, Reaches (asSquare pi) i j) ∧
      ∀ r, ergodicDistIID solve grid m0 inodes ws dr g = .ok r → r.pi = pi ∧
        ∃ C, ∀ nu : Fin r.pi.length → K, (∀ i, 0 ≤ nu i) → ∑ i, nu i = 1 → ∀ n : ℕ, n ≠ 0 → ∀ i,
          |(∑ t ∈ Finset.range n, evolve (asSquare r.pi) nu t i) / n - r.mu.getD i.val 0| ≤ C / n := by
  obtain ⟨ρ, tr, zero, flat, shape, hsp, hz, hz0, -, hI, -⟩ := hand_cases mn mx n grid hgrid h1 h2 hd hn
  have hne : n ≠ [] := by
    rintro rfl
    simp at hd
  obtain ⟨g', hg', hgmn, hgmx, hgn, hlen, -⟩ := C02_uniform_grid_nodes mn mx n hne h1 h2 hn
  rw [hgrid] at hg'
  cases hg'
  simp only [ergodicDistIID, ergodicTransIID, hI, bind, Except.bind]
  generalize (fun i_M n => renormaliseRow grid (g m0 (grid.nodes.getD n [])
    (dr (grid.nodes.getD n [])) (inodes.getD i_M []))) = S
  obtain ⟨hl, hst⟩ := C69_iid_stochastic tr zero flat shape grid.nodes.length hsp hz hz0 ws hsum hpos S
  nth_rewrite 1 [← hl] at hst
  have hN : (ergodicMatrixIID tr zero flat ws S grid.nodes.length).length = n.prod := by rw [hl, hlen]
  refine ⟨_, rfl, hN, ergodicFinish_iff solve grid _ ?_ (by rw [hN]; exact hs) (by rw [hN]; exact ht) hst, fun r hr =>
    ergodicFinish_long_run solve grid _ (by rw [hN]; exact hs) hst r hr⟩
  rw [hgmn, hgmx, hgn]
  exact linspaces_total mn mx n h1 h2

/-! ### Entries of the transition matrix -/

/-- The hat function: one at zero, decreasing linearly to zero at distance one. -/
def hat (y : K) : K := max 0 (1 - |y|)

theorem hat_cell (n : ℕ) (hn : 2 ≤ n) (x : K) (k : ℕ) :
    hat (clamp01 x * ((n : K) - 1) - k) =
      (1 - (clamp01 x * ((n : K) - 1) - (trembleCell n (clamp01 x) : K))) *
          (if trembleCell n (clamp01 x) = k then 1 else 0) +
        (clamp01 x * ((n : K) - 1) - (trembleCell n (clamp01 x) : K)) *
          (if trembleCell n (clamp01 x) + 1 = k then 1 else 0) := by
  obtain ⟨l0, l1⟩ := lam_bounds n hn (clamp01 x) (clamp_bounds x).1 (clamp_bounds x).2
  generalize clamp01 x * ((n : K) - 1) = y at *
  generalize trembleCell n (clamp01 x) = q at *
  unfold hat
  rcases lt_trichotomy q k with h | h | h
  · rw [if_neg (by omega)]
    by_cases hk : q + 1 = k
    · rw [if_pos hk, ← hk]
      push_cast
      rw [abs_of_nonpos (by linarith), max_eq_right (by linarith)]
      ring
    · rw [if_neg hk]
      have : (q : K) + 2 ≤ k := by exact_mod_cast (by omega : q + 2 ≤ k)
      rw [abs_of_nonpos (by linarith), max_eq_left (by linarith)]
      ring
  · rw [if_pos h, if_neg (by omega), ← h, abs_of_nonneg l0, max_eq_right (by linarith)]
    ring
  · rw [if_neg (by omega), if_neg (by omega)]
    have : (k : K) + 1 ≤ q := by exact_mod_cast (by omega : k + 1 ≤ q)
    rw [abs_of_nonneg (by linarith), max_eq_left (by linarith)]
    ring

theorem weighted_indicator (A : List K) (k : ℕ) (hk : k < A.length) :
    weighted (fun i => if i = k then 1 else 0) A = A.getD k 0 := by
  rw [weighted_eq_sum]
  simp [hk]

/-- **C18** (exact weights, one dimension).  Node `k` receives the weight times the hat function of its
distance to the clamped point, in grid steps. -/
theorem C18_hat1 (A : List K) (hA : 2 ≤ A.length) (x w : K) (k : ℕ) (hk : k < A.length) :
    (tremble1 A x w).getD k 0 = A.getD k 0 + w * hat (min (max x 0) 1 * ((A.length : K) - 1) - k) := by
  have h := C18_tremble1_effect A hA x w (fun i => if i = k then 1 else 0)
  rw [weighted_indicator A k hk, weighted_indicator _ k (by rw [(C18_tremble1 A hA x w).1]; exact hk)] at h
  rw [h]
  congr 2
  exact (hat_cell A.length hA x k).symm

theorem weighted2_eq_sum (c : ℕ → ℕ → K) (A : List (List K)) :
    weighted2 c A = ∑ i ∈ Finset.range A.length, weighted (c i) (A.getD i []) := by
  induction A generalizing c with
  | nil => simp [weighted2]
  | cons a r ih =>
    rw [weighted2, ih, List.length_cons, Finset.sum_range_succ']
    simp
    ring

theorem weighted_null (A : List K) : weighted (fun _ => 0) A = 0 := by
  rw [weighted_eq_sum]
  simp

theorem weighted2_indicator (A : List (List K)) (n1 : ℕ) (hA : ∀ row ∈ A, row.length = n1) (k l : ℕ)
    (hk : k < A.length) (hl : l < n1) :
    weighted2 (fun i j => if i = k ∧ j = l then 1 else 0) A = (A.getD k []).getD l 0 := by
  rw [weighted2_eq_sum, Finset.sum_eq_single k]
  · simp only [true_and]
    rw [weighted_indicator]
    rw [List.getD_eq_getElem _ _ hk, hA _ (List.getElem_mem hk)]
    exact hl
  · intro i _ hi
    simp only [hi, false_and, if_false]
    exact weighted_null _
  · intro h
    simp [hk] at h

/-- What the two-dimensional trembling hand adds, against any test function on the nodes. -/
theorem C18_tremble2_effect (n0 n1 : ℕ) (h0 : 2 ≤ n0) (h1 : 2 ≤ n1) (A : List (List K))
    (hA0 : A.length = n0) (hA1 : ∀ row ∈ A, row.length = n1) (x : K × K) (w : K) (c : ℕ → ℕ → K) :
    ∃ q0 q1 : ℕ, ∃ m0 m1 : K, q0 = trembleCell n0 (clamp01 x.1) ∧ q1 = trembleCell n1 (clamp01 x.2) ∧
      m0 = clamp01 x.1 * ((n0 : K) - 1) - (q0 : K) ∧ m1 = clamp01 x.2 * ((n1 : K) - 1) - (q1 : K) ∧
      weighted2 c (tremble2 n0 n1 A x w) = weighted2 c A + w * ((1 - m0) * (1 - m1) * c q0 q1 +
        (1 - m0) * m1 * c q0 (q1 + 1) + m0 * (1 - m1) * c (q0 + 1) q1 + m0 * m1 * c (q0 + 1) (q1 + 1)) := by
  obtain ⟨c0, -, -⟩ := C18_cell n0 h0 (clamp01 x.1) (clamp_bounds x.1).1 (clamp_bounds x.1).2
  obtain ⟨c1, -, -⟩ := C18_cell n1 h1 (clamp01 x.2) (clamp_bounds x.2).1 (clamp_bounds x.2).2
  have hn0 := n_pos (K := K) h0
  have hn1 := n_pos (K := K) h1
  have hlam : ∀ (n : ℕ) (y q : K), 0 < (n : K) - 1 →
      (y - q * (1 / ((n : K) - 1))) / (1 / ((n : K) - 1)) = y * ((n : K) - 1) - q := by
    intro n y q h
    field_simp
  refine ⟨_, _, _, _, rfl, rfl, rfl, rfl, ?_⟩
  simp only [tremble2]
  rw [hlam n0 _ _ hn0, hlam n1 _ _ hn1]
  generalize trembleCell n0 (clamp01 x.1) = q0 at *
  generalize trembleCell n1 (clamp01 x.2) = q1 at *
  set m0 := clamp01 x.1 * ((n0 : K) - 1) - (q0 : K) with hm0
  set m1 := clamp01 x.2 * ((n1 : K) - 1) - (q1 : K) with hm1
  set A1 := addAt2 A q0 q1 ((1 - m0) * (1 - m1) * w) with hA1'
  set A2 := addAt2 A1 q0 (q1 + 1) ((1 - m0) * m1 * w) with hA2'
  set A3 := addAt2 A2 (q0 + 1) q1 (m0 * (1 - m1) * w) with hA3'
  have s1 := addAt2_shape A q0 q1 ((1 - m0) * (1 - m1) * w) n1 hA1
  rw [← hA1'] at s1
  have s2 := addAt2_shape A1 q0 (q1 + 1) ((1 - m0) * m1 * w) n1 s1.2
  rw [← hA2'] at s2
  have s3 := addAt2_shape A2 (q0 + 1) q1 (m0 * (1 - m1) * w) n1 s2.2
  rw [← hA3'] at s3
  rw [weighted2_addAt2 _ _ _ _ _ (by omega) (fun row hr => by rw [s3.2 row hr]; omega), hA3',
    weighted2_addAt2 _ _ _ _ _ (by omega) (fun row hr => by rw [s2.2 row hr]; omega), hA2',
    weighted2_addAt2 _ _ _ _ _ (by omega) (fun row hr => by rw [s1.2 row hr]; omega), hA1',
    weighted2_addAt2 _ _ _ _ _ (by omega) (fun row hr => by rw [hA1 row hr]; omega)]
  ring

/-- **C18** (exact weights, two dimensions).  Node `(k, l)` receives the weight times the product of the hat
functions of its distances to the clamped point along both axes. -/
theorem C18_hat2 (n0 n1 : ℕ) (h0 : 2 ≤ n0) (h1 : 2 ≤ n1) (A : List (List K))
    (hA0 : A.length = n0) (hA1 : ∀ row ∈ A, row.length = n1) (x : K × K) (w : K) (k l : ℕ) (hk : k < n0)
    (hl : l < n1) :
    ((tremble2 n0 n1 A x w).getD k []).getD l 0 = (A.getD k []).getD l 0 +
      w * (hat (min (max x.1 0) 1 * ((n0 : K) - 1) - k) * hat (min (max x.2 0) 1 * ((n1 : K) - 1) - l)) := by
  obtain ⟨q0, q1, m0, m1, hq0, hq1, hm0, hm1, h⟩ :=
    C18_tremble2_effect n0 n1 h0 h1 A hA0 hA1 x w (fun i j => if i = k ∧ j = l then 1 else 0)
  obtain ⟨⟨s0, s1⟩, -⟩ := C18_tremble2 n0 n1 h0 h1 A hA0 hA1 x w
  rw [weighted2_indicator A n1 hA1 k l (by omega) hl, weighted2_indicator _ n1 s1 k l (by omega) hl] at h
  rw [h]
  have e0 := hat_cell n0 h0 x.1 k
  have e1 := hat_cell n1 h1 x.2 l
  rw [← hq0, ← hm0] at e0
  rw [← hq1, ← hm1] at e1
  have c0 : min (max x.1 0) 1 = clamp01 x.1 := rfl
  have c1 : min (max x.2 0) 1 = clamp01 x.2 := rfl
  rw [c0, c1, e0, e1]
  have key : ∀ (p q : Prop) [Decidable p] [Decidable q],
      (if p ∧ q then (1 : K) else 0) = (if p then 1 else 0) * (if q then 1 else 0) := by
    intro p q _ _
    by_cases hp : p <;> by_cases hq : q <;> simp [hp, hq]
  simp only [key]
  ring

/-- Distance in grid steps, from the unit interval to the bounds of the grid. -/
theorem hat_arg (a b s : K) (hab : a < b) (m k : ℕ) (hm : 2 ≤ m) :
    min (max (renormalise a b s) 0) 1 * ((m : K) - 1) - k =
      (min (max s a) b - spaced a b m k) / ((b - a) / ((m : K) - 1)) := by
  have hn := n_pos (K := K) hm
  have hba : b - a ≠ 0 := (sub_pos.2 hab).ne'
  rw [← clamp_state a b s hab, spaced_gridPos]
  unfold gridPos
  field_simp
  ring

/-- The product over the states of the hat functions of the distances, in grid steps, between node `l` and
the state `S` clamped to the grid. -/
def nodeWeight (mn mx : List K) (n : List ℕ) (node S : List K) : K :=
  ((List.range n.length).map fun d => hat (
    (min (max (S.getD d 0) (mn.getD d 0)) (mx.getD d 0) - node.getD d 0) /
      ((mx.getD d 0 - mn.getD d 0) / ((n.getD d 0 : K) - 1)))).prod

theorem hand_hat (mn mx : List K) (n : List ℕ) (grid : UniformGrid K)
    (hgrid : UniformGrid.mk' mn mx n = .ok grid) (h1 : mn.length = mx.length) (h2 : mn.length = n.length)
    (hd : n.length = 1 ∨ n.length = 2) (hn : ∀ m ∈ n, 2 ≤ m) (hlt : List.Forall₂ (· < ·) mn mx) :
    ∃ (ρ : Type) (tr : ρ → List K → K → ρ) (zero : ρ) (flat : ρ → List K) (shape : ρ → Prop),
      Spreads tr flat shape grid.nodes.length ∧ shape zero ∧ (∀ a ∈ flat zero, a = 0) ∧
      grid.nodes.length = n.prod ∧
      (∀ W T, ergodicPiMC grid.n W T grid.nodes.length =
        .ok (ergodicMatrixMC tr zero flat W T grid.nodes.length)) ∧
      (∀ W T, ergodicPiIID grid.n W T grid.nodes.length =
        .ok (ergodicMatrixIID tr zero flat W T grid.nodes.length)) ∧
      ∀ A S w l, shape A → S.length = n.length → l < n.prod →
        (flat (tr A (renormaliseRow grid S) w)).getD l 0 =
          (flat A).getD l 0 + w * nodeWeight mn mx n (grid.nodes.getD l []) S := by
  have hne : n ≠ [] := by
    rintro rfl
    simp at hd
  obtain ⟨g', hg', hgmn, hgmx, hgn, hlen, hnodes⟩ := C02_uniform_grid_nodes mn mx n hne h1 h2 hn
  rw [hgrid] at hg'
  cases hg'
  have hren : ∀ (d : ℕ) (S : List K) (a b : K), S.length = n.length → d < n.length → mn[d]? = some a →
      mx[d]? = some b → (renormaliseRow grid S).getD d 0 = renormalise a b (S.getD d 0) := by
    intro d S a b hS hdl ha hb
    exact renormaliseRow_getD grid _ d a b (by rw [hgmn]; exact ha) (by rw [hgmx]; exact hb) (by omega)
  rcases hd with hd | hd
  · obtain ⟨n0, rfl⟩ := List.length_eq_one_iff.mp hd
    obtain ⟨a, rfl⟩ := List.length_eq_one_iff.mp (h2.trans hd)
    obtain ⟨b, rfl⟩ := List.length_eq_one_iff.mp (h1.symm.trans (h2.trans hd))
    have hn0 : 2 ≤ n0 := hn n0 (by simp)
    have hN : grid.nodes.length = n0 := by simpa using hlen
    have hab : a < b := by simpa using hlt
    have hsp := spreads1 (K := K) n0 hn0
    refine ⟨List K, fun A x w => tremble1 A (x.getD 0 0) w, List.replicate n0 0, id, fun A => A.length = n0,
      ?_, by simp, fun a ha => List.eq_of_mem_replicate ha, hlen, ?_, ?_, ?_⟩
    · rw [hN]
      exact ⟨fun A x w => hsp.ok A _ w, hsp.len, fun A x w => hsp.mass A _ w, fun A x w => hsp.pos A _ w⟩
    · intro W T
      rw [hgn, ergodicPiMC, if_neg (by omega)]
    · intro W T
      rw [hgn, ergodicPiIID, if_neg (by omega)]
    · intro A S w l hA hS hl
      rw [List.prod_singleton] at hl
      have e := C18_hat1 A (by omega) ((renormaliseRow grid S).getD 0 0) w l (by omega)
      simp only [id]
      rw [e, hA, hren 0 _ a b hS (by simp) rfl rfl, hat_arg a b _ hab n0 l hn0]
      obtain ⟨row', hr', -, hrow'⟩ := hnodes [l] (.cons hl .nil)
      have hs := hrow' 0 a b n0 l rfl rfl rfl rfl
      have ef : flatIndex [n0] [l] = l := by simp [flatIndex]
      rw [ef] at hr'
      have hnode : (grid.nodes.getD l []).getD 0 0 = spaced a b n0 l := by
        simp only [List.getD_eq_getElem?_getD, hr', hs, Option.getD_some]
      rw [← hnode]
      simp [nodeWeight, List.range_succ]
  · obtain ⟨n0, n1, rfl⟩ := List.length_eq_two.mp hd
    obtain ⟨a0, a1, rfl⟩ := List.length_eq_two.mp (h2.trans hd)
    obtain ⟨b0, b1, rfl⟩ := List.length_eq_two.mp (h1.symm.trans (h2.trans hd))
    have hn0 : 2 ≤ n0 := hn n0 (by simp)
    have hn1 : 2 ≤ n1 := hn n1 (by simp)
    have hp : [n0, n1].prod = n0 * n1 := by simp
    have hN : grid.nodes.length = n0 * n1 := by rw [hlen, hp]
    have hab : a0 < b0 ∧ a1 < b1 := by simpa using hlt
    have hsp := spreads2 (K := K) n0 n1 hn0 hn1
    refine ⟨List (List K), fun A x w => tremble2 n0 n1 A (x.getD 0 0, x.getD 1 0) w,
      List.replicate n0 (List.replicate n1 0), List.flatten,
      fun A => A.length = n0 ∧ ∀ row ∈ A, row.length = n1, ?_, by simp +contextual, ?_, hlen, ?_, ?_, ?_⟩
    · rw [hN]
      exact ⟨fun A x w => hsp.ok A _ w, hsp.len, fun A x w => hsp.mass A _ w, fun A x w => hsp.pos A _ w⟩
    · intro a ha
      obtain ⟨row, hr, ha⟩ := List.mem_flatten.1 ha
      rw [List.eq_of_mem_replicate hr] at ha
      exact List.eq_of_mem_replicate ha
    · intro W T
      rw [hgn, ergodicPiMC, if_neg (by omega)]
    · intro W T
      rw [hgn, ergodicPiIID, if_neg (by omega)]
    · intro A S w l hA hS hl
      rw [hp] at hl
      have hl0 : l / n1 < n0 := Nat.div_lt_of_lt_mul (by rw [Nat.mul_comm]; exact hl)
      have hl1 : l % n1 < n1 := Nat.mod_lt _ (by omega)
      have hll : l / n1 * n1 + l % n1 = l := by rw [Nat.mul_comm]; exact Nat.div_add_mod l n1
      generalize hx : renormaliseRow grid S = x
      have e := C18_hat2 n0 n1 hn0 hn1 A hA.1 hA.2 (x.getD 0 0, x.getD 1 0) w (l / n1) (l % n1) hl0 hl1
      obtain ⟨⟨s0, s1⟩, -⟩ := C18_tremble2 n0 n1 hn0 hn1 A hA.1 hA.2 (x.getD 0 0, x.getD 1 0) w
      have hfl : ∀ (A : List (List K)), A.length = n0 → (∀ row ∈ A, row.length = n1) →
          A.flatten.getD l 0 = (A.getD (l / n1) []).getD (l % n1) 0 := by
        intro A hA0 hA1
        have hlenf : A.flatten.length = n0 * n1 := hsp.len A ⟨hA0, hA1⟩
        have h3 := weighted_indicator A.flatten l (by rw [hlenf]; exact hl)
        rw [weighted_flatten _ _ n1 hA1] at h3
        have h4 := weighted2_indicator A n1 hA1 (l / n1) (l % n1) (by rw [hA0]; exact hl0) hl1
        have h5 : weighted2 (fun i j => if i * n1 + j = l then (1 : K) else 0) A =
            weighted2 (fun i j => if i = l / n1 ∧ j = l % n1 then (1 : K) else 0) A := by
          rw [weighted2_eq_sum, weighted2_eq_sum]
          apply Finset.sum_congr rfl
          intro i hi
          apply weighted_congr
          intro j hj
          rw [Finset.mem_range] at hi
          rw [List.getD_eq_getElem _ _ hi, hA1 _ (List.getElem_mem hi)] at hj
          congr 1
          rw [eq_iff_iff]
          constructor
          · intro hij
            rw [← hij]
            constructor
            · rw [Nat.add_comm, Nat.add_mul_div_right _ _ (by omega), Nat.div_eq_of_lt hj, Nat.zero_add]
            · rw [Nat.add_comm, Nat.add_mul_mod_self_right, Nat.mod_eq_of_lt hj]
          · rintro ⟨rfl, rfl⟩
            exact hll
        rw [← h4, ← h5, h3]
      dsimp only
      rw [hfl _ s0 s1, hfl _ hA.1 hA.2, e, ← hx, hren 0 _ a0 b0 hS (by simp) rfl rfl,
        hren 1 _ a1 b1 hS (by simp) rfl rfl,
        hat_arg a0 b0 _ hab.1 n0 _ hn0, hat_arg a1 b1 _ hab.2 n1 _ hn1]
      obtain ⟨row', hr', -, hrow'⟩ := hnodes [l / n1, l % n1] (.cons hl0 (.cons hl1 .nil))
      have hs0 := hrow' 0 a0 b0 n0 (l / n1) rfl rfl rfl rfl
      have hs1 := hrow' 1 a1 b1 n1 (l % n1) rfl rfl rfl rfl
      have ef : flatIndex [n0, n1] [l / n1, l % n1] = l := by simp [flatIndex, hll]
      rw [ef] at hr'
      have hnode0 : (grid.nodes.getD l []).getD 0 0 = spaced a0 b0 n0 (l / n1) := by
        simp only [List.getD_eq_getElem?_getD, hr', hs0, Option.getD_some]
      have hnode1 : (grid.nodes.getD l []).getD 1 0 = spaced a1 b1 n1 (l % n1) := by
        simp only [List.getD_eq_getElem?_getD, hr', hs1, Option.getD_some]
      rw [← hnode0, ← hnode1]
      simp [nodeWeight, List.range_succ]

theorem getD_zero_list (A : List K) (h : ∀ a ∈ A, a = 0) (l : ℕ) : A.getD l 0 = 0 := by
  by_cases hl : l < A.length
  · rw [List.getD_eq_getElem _ _ hl, h _ (List.getElem_mem hl)]
  · rw [List.getD_eq_getElem?_getD, List.getElem?_eq_none (by omega)]
    rfl

/-- **C132** (entries of the transition matrix, Markov chains).  From exogenous state `i` and node `k`, the
probability of exogenous state `j` and node `l` is the probability of `j` after `i` times, for every state
variable, the hat function of the distance, in grid steps, between node `l` and the next state clamped to the
grid. -/
theorem C132_entry_markov (mn mx : List K) (n : List ℕ) (grid : UniformGrid K)
    (hgrid : UniformGrid.mk' mn mx n = .ok grid) (h1 : mn.length = mx.length) (h2 : mn.length = n.length)
    (hd : n.length = 1 ∨ n.length = 2) (hn : ∀ m ∈ n, 2 ≤ m) (hlt : List.Forall₂ (· < ·) mn mx)
    (mnodes P : List (List K))
    (dr : ℕ → List K → List K) (g : List K → List K → List K → List K → List K)
    (hg : ∀ m s x M, (g m s x M).length = n.length)
    (pi : List (List K)) (h : ergodicTransMC grid mnodes P dr g = .ok pi)
    (i j k l : ℕ) (ws : List K) (w : K) (hi : P[i]? = some ws) (hj : ws[j]? = some w)
    (hk : k < n.prod) (hl : l < n.prod) :
    ∃ row, pi[i * n.prod + k]? = some row ∧ row[j * n.prod + l]? = some (w *
      nodeWeight mn mx n (grid.nodes.getD l []) (g (mnodes.getD i []) (grid.nodes.getD k [])
        (dr i (grid.nodes.getD k [])) (mnodes.getD j []))) := by
  obtain ⟨ρ, tr, zero, flat, shape, hsp, hz, hz0, hlen, hMC, -, hW⟩ :=
    hand_hat mn mx n grid hgrid h1 h2 hd hn hlt
  simp only [ergodicTransMC, hMC, Except.ok.injEq] at h
  subst h
  rw [← hlen] at hk hl ⊢
  obtain ⟨row, hr, he⟩ := C69_markov_layout tr zero flat shape _ hsp hz P
    (fun i_m i_M n => renormaliseRow grid (g (mnodes.getD i_m []) (grid.nodes.getD n [])
      (dr i_m (grid.nodes.getD n [])) (mnodes.getD i_M []))) i k j l ws w hi hj hk hl
  refine ⟨row, hr, he.trans ?_⟩
  have e := hW zero (g (mnodes.getD i []) (grid.nodes.getD k [])
      (dr i (grid.nodes.getD k [])) (mnodes.getD j [])) w l hz (hg _ _ _ _) (by rw [← hlen]; exact hl)
  rw [getD_zero_list _ hz0, zero_add] at e
  rw [← e]
  have hll : l < (flat (tr zero (renormaliseRow grid (g (mnodes.getD i []) (grid.nodes.getD k [])
      (dr i (grid.nodes.getD k [])) (mnodes.getD j []))) w)).length := by
    rw [hsp.len _ (hsp.ok _ _ _ hz)]
    exact hl
  rw [List.getD_eq_getElem _ _ hll, List.getElem?_eq_getElem hll]

theorem fold_weight {ρ : Type} (tr : ρ → List K → K → ρ) (flat : ρ → List K) (shape : ρ → Prop) (N : ℕ)
    (hsp : Spreads tr flat shape N) (S : ℕ → List K) (l : ℕ) (φ : ℕ → K)
    (hφ : ∀ A w j, shape A → (flat (tr A (S j) w)).getD l 0 = (flat A).getD l 0 + w * φ j)
    (ws : List K) (A : ρ) (hA : shape A) (k0 : ℕ) :
    shape ((ws.zipIdx k0).foldl (fun A p => tr A (S p.2) p.1) A) ∧
    (flat ((ws.zipIdx k0).foldl (fun A p => tr A (S p.2) p.1) A)).getD l 0 =
      (flat A).getD l 0 + ∑ j ∈ Finset.range ws.length, ws.getD j 0 * φ (k0 + j) := by
  induction ws generalizing A k0 with
  | nil => simpa using hA
  | cons w ws ih =>
    rw [List.zipIdx_cons, List.foldl_cons]
    obtain ⟨i1, i2⟩ := ih (tr A (S k0) w) (hsp.ok _ _ _ hA) (k0 + 1)
    refine ⟨i1, ?_⟩
    rw [i2, hφ _ _ _ hA, List.length_cons, Finset.sum_range_succ', add_assoc]
    congr 1
    rw [add_comm]
    congr 1
    apply Finset.sum_congr rfl
    intro j _
    rw [List.getD_cons_succ, show k0 + 1 + j = k0 + (j + 1) by ring]

/-- **C132** (entries of the transition matrix, iid processes).  The probability of node `l` after node `k` is
the sum over the integration nodes of their weights times the hat functions. -/
theorem C132_entry_iid (mn mx : List K) (n : List ℕ) (grid : UniformGrid K)
    (hgrid : UniformGrid.mk' mn mx n = .ok grid) (h1 : mn.length = mx.length) (h2 : mn.length = n.length)
    (hd : n.length = 1 ∨ n.length = 2) (hn : ∀ m ∈ n, 2 ≤ m) (hlt : List.Forall₂ (· < ·) mn mx)
    (m0 : List K) (inodes : List (List K)) (ws : List K)
    (dr : List K → List K) (g : List K → List K → List K → List K → List K)
    (hg : ∀ m s x M, (g m s x M).length = n.length)
    (pi : List (List K)) (h : ergodicTransIID grid m0 inodes ws dr g = .ok pi)
    (k l : ℕ) (hk : k < n.prod) (hl : l < n.prod) :
    ∃ row, pi[k]? = some row ∧ row[l]? = some (∑ j ∈ Finset.range ws.length, ws.getD j 0 *
      nodeWeight mn mx n (grid.nodes.getD l []) (g m0 (grid.nodes.getD k [])
        (dr (grid.nodes.getD k [])) (inodes.getD j []))) := by
  obtain ⟨ρ, tr, zero, flat, shape, hsp, hz, hz0, hlen, -, hI, hW⟩ :=
    hand_hat mn mx n grid hgrid h1 h2 hd hn hlt
  simp only [ergodicTransIID, hI, Except.ok.injEq] at h
  subst h
  obtain ⟨f1, f2⟩ := fold_weight tr flat shape _ hsp
    (fun j => renormaliseRow grid (g m0 (grid.nodes.getD k []) (dr (grid.nodes.getD k [])) (inodes.getD j []))) l
    (fun j => nodeWeight mn mx n (grid.nodes.getD l []) (g m0 (grid.nodes.getD k [])
        (dr (grid.nodes.getD k [])) (inodes.getD j [])))
    (fun A w j hA => hW A _ w l hA (hg _ _ _ _) hl) ws zero hz 0
  refine ⟨flat ((ws.zipIdx 0).foldl (fun A p => tr A (renormaliseRow grid (g m0 (grid.nodes.getD k [])
    (dr (grid.nodes.getD k [])) (inodes.getD p.2 []))) p.1) zero), ?_, ?_⟩
  · unfold ergodicMatrixIID
    rw [List.getElem?_map, List.getElem?_range (by rw [hlen]; exact hk)]
    rfl
  · rw [getD_zero_list _ hz0, zero_add] at f2
    simp only [Nat.zero_add] at f2
    rw [← f2]
    have hll := hsp.len _ f1
    have hlt' : l < (flat ((ws.zipIdx 0).foldl (fun A p => tr A (renormaliseRow grid (g m0 (grid.nodes.getD k [])
        (dr (grid.nodes.getD k [])) (inodes.getD p.2 []))) p.1) zero)).length := by
      rw [hll, hlen]
      exact hl
    rw [List.getElem?_eq_getElem hlt', List.getD_eq_getElem _ _ hlt']

/-- A node gets weight exactly when it is less than one step away, along every axis, from the clamped state. -/
theorem C132_node_reached (mn mx : List K) (n : List ℕ) (hn : ∀ m ∈ n, 2 ≤ m)
    (h1 : mn.length = mx.length) (h2 : mn.length = n.length)
    (hlt : List.Forall₂ (· < ·) mn mx) (node S : List K) :
    0 ≤ nodeWeight mn mx n node S ∧
    (0 < nodeWeight mn mx n node S ↔ ∀ d < n.length,
      |min (max (S.getD d 0) (mn.getD d 0)) (mx.getD d 0) - node.getD d 0| <
        (mx.getD d 0 - mn.getD d 0) / ((n.getD d 0 : K) - 1)) := by
  have hat0 : ∀ y : K, 0 ≤ hat y := fun y => le_max_left _ _
  have hatp : ∀ y : K, 0 < hat y ↔ |y| < 1 := by
    intro y
    unfold hat
    rw [lt_max_iff]
    constructor
    · rintro (h | h)
      · exact absurd h (lt_irrefl _)
      · linarith
    · intro h
      right
      linarith
  have hprod : ∀ L : List K, (∀ y ∈ L, 0 ≤ y) → 0 ≤ L.prod ∧ (0 < L.prod ↔ ∀ y ∈ L, 0 < y) := by
    intro L
    induction L with
    | nil => intro _; simp
    | cons a L ih =>
      intro h
      obtain ⟨i1, i2⟩ := ih fun y hy => h y (List.mem_cons_of_mem _ hy)
      have ha := h a (by simp)
      rw [List.prod_cons]
      refine ⟨mul_nonneg ha i1, ?_⟩
      rw [List.forall_mem_cons, ← i2]
      constructor
      · intro hp
        constructor
        · refine lt_of_le_of_ne ha fun h0 => ?_
          rw [← h0, zero_mul] at hp
          exact lt_irrefl _ hp
        · refine lt_of_le_of_ne i1 fun h0 => ?_
          rw [← h0, mul_zero] at hp
          exact lt_irrefl _ hp
      · rintro ⟨p, q⟩
        exact mul_pos p q
  obtain ⟨p1, p2⟩ := hprod ((List.range n.length).map fun d => hat (
    (min (max (S.getD d 0) (mn.getD d 0)) (mx.getD d 0) - node.getD d 0) /
      ((mx.getD d 0 - mn.getD d 0) / ((n.getD d 0 : K) - 1)))) (by
    intro y hy
    obtain ⟨d, -, rfl⟩ := List.mem_map.1 hy
    exact hat0 _)
  refine ⟨p1, p2.trans ?_⟩
  simp only [List.forall_mem_map, List.mem_range, hatp]
  refine forall_congr' fun d => forall_congr' fun hdl => ?_
  have hstep : 0 < (mx.getD d 0 - mn.getD d 0) / ((n.getD d 0 : K) - 1) := by
    apply div_pos
    · have := (List.forall₂_iff_get.mp hlt).2 d (by omega) (by omega)
      rw [List.getD_eq_getElem _ _ (by omega), List.getD_eq_getElem _ _ (by omega)]
      exact sub_pos.2 this
    · have := hn n[d] (List.getElem_mem hdl)
      rw [List.getD_eq_getElem _ _ hdl]
      exact n_pos this
  rw [abs_div, abs_of_pos hstep, div_lt_one hstep]

/-! ### Non-vacuity -/

theorem ergExSolve_total : SolveTotal (ergExSolve 2) := by
  intro A B h
  by_cases hd : A 0 0 * A 1 1 - A 0 1 * A 1 0 = 0
  · exfalso
    have h1 := h (fun j => if j = 0 then A 1 1 else - A 1 0) (by
      intro i
      rw [Fin.sum_univ_two]
      fin_cases i
      · simp
        linear_combination hd
      · simp
        ring)
    have h2 := h (fun j => if j = 0 then - A 0 1 else A 0 0) (by
      intro i
      rw [Fin.sum_univ_two]
      fin_cases i
      · simp
        ring
      · simp
        linear_combination hd)
    have a11 := h1 0
    have a10 := h1 1
    have a01 := h2 0
    have a00 := h2 1
    simp only [if_true, if_neg (by decide : ¬ (1 : Fin 2) = 0)] at a11 a10 a01 a00
    have h3 := h (fun _ => 1) (by
      intro i
      rw [Fin.sum_univ_two]
      fin_cases i
      · simp only [Fin.mk_zero, Fin.zero_eta]
        linarith
      · simp only [Fin.mk_one]
        linarith) 0
    exact one_ne_zero h3
  · exact ⟨_, if_neg hd⟩

/-- A grid of two nodes over `[0, 3]`, one exogenous state, and the transition `s' = s / 3 + 1`: both nodes are
reached from both, and the hypotheses of `C132_markov` hold. -/
example : ∃ (grid : UniformGrid ℚ) (pi : List (List ℚ)), UniformGrid.mk' [0] [3] [2] = .ok grid ∧
    ergodicTransMC grid [[0]] [[1]] (fun _ _ => []) (fun _ s _ _ => [s.getD 0 0 / 3 + 1]) = .ok pi ∧
    pi = [[2 / 3, 1 / 3], [1 / 3, 2 / 3]] ∧
    SolveContract (ergExSolve ([[1]].length * [2].prod)) ∧ SolveTotal (ergExSolve ([[1]].length * [2].prod)) :=
  ⟨⟨[0], [3], [2], [[0], [3]]⟩, [[2 / 3, 1 / 3], [1 / 3, 2 / 3]], by decide +kernel, by decide +kernel, rfl,
    ergExSolve_contract, ergExSolve_total⟩

/-- With the transition `s' = s` every node is kept for ever: no node is reached from both, and the function
raises. -/
example : ∃ grid : UniformGrid ℚ, UniformGrid.mk' [0] [3] [2] = .ok grid ∧
    ergodicDistMC ergExSolve grid [[0]] [[1]] (fun _ _ => []) (fun _ s _ _ => s) = .error .linAlgError :=
  ⟨⟨[0], [3], [2], [[0], [3]]⟩, by decide +kernel, by decide +kernel⟩

end Dolo
