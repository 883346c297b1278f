import Mathlib.Data.List.GetD
import Verif.Model.ErgodicDriver
import Verif.Props.Ergodic
import Verif.Props.Cartesian

/-!
# C107: means under the ergodic distribution
-/

set_option linter.unusedSectionVars false

namespace Dolo

variable {K : Type} [Field K] [LinearOrder K] [IsStrictOrderedRing K] [FloorRing K]

/-! ### Specification vocabulary -/

/-- The mean of `f i n` under the distribution with values `mu`, listed in row-major order, over `Nm` exogenous
states and `Ns` nodes. -/
def ergMean (mu : List K) (Nm Ns : ℕ) (f : ℕ → ℕ → K) : K :=
  ∑ i ∈ Finset.range Nm, ∑ n ∈ Finset.range Ns, mu.getD (i * Ns + n) 0 * f i n

/-- The values are those of a probability distribution over `N` points. -/
def IsDistribution (N : ℕ) (mu : List K) : Prop := mu.length = N ∧ mu.sum = 1 ∧ ∀ p ∈ mu, 0 ≤ p

/-! ### Helper lemmas -/

theorem weighted_eq_sum (c : ℕ → K) (A : List K) :
    weighted c A = ∑ i ∈ Finset.range A.length, A.getD i 0 * c i := by
  induction A generalizing c with
  | nil => simp [weighted]
  | cons a r ih =>
    rw [weighted, ih, List.length_cons, Finset.sum_range_succ']
    simp
    ring

theorem weighted_append (c : ℕ → K) (A B : List K) :
    weighted c (A ++ B) = weighted c A + weighted (fun i => c (A.length + i)) B := by
  induction A generalizing c with
  | nil => simp [weighted]
  | cons a r ih =>
    simp only [List.cons_append, weighted, ih, List.length_cons]
    rw [add_assoc]
    congr 3
    funext i
    congr 1
    ring

theorem weighted_flatten (c : ℕ → K) (A : List (List K)) (m : ℕ) (h : ∀ row ∈ A, row.length = m) :
    weighted c A.flatten = weighted2 (fun i j => c (i * m + j)) A := by
  induction A generalizing c with
  | nil => rfl
  | cons a r ih =>
    rw [List.flatten_cons, weighted_append, weighted2, ih _ fun row hr => h row (by simp [hr]), h a (by simp)]
    congr 1
    · congr 1
      funext j
      simp
    · congr 1
      funext i j
      congr 1
      ring

theorem weighted_linear (c : ℕ → K) (p q : K) (A : List K) :
    weighted (fun i => p + q * c i) A = p * A.sum + q * weighted c A := by
  induction A generalizing c with
  | nil => simp [weighted]
  | cons x r ih =>
    simp only [weighted, List.sum_cons]
    rw [ih (fun i => c (i + 1))]
    ring

theorem weighted_mul (d : K) (c : ℕ → K) (A : List K) : weighted (fun i => d * c i) A = d * weighted c A := by
  simpa using weighted_linear c 0 d A

theorem weighted2_linear (c : ℕ → ℕ → K) (p q : K) (A : List (List K)) :
    weighted2 (fun i j => p + q * c i j) A = p * A.flatten.sum + q * weighted2 c A := by
  induction A generalizing c with
  | nil => simp [weighted2]
  | cons x r ih =>
    simp only [weighted2, List.flatten_cons, List.sum_append]
    rw [ih (fun i => c (i + 1)), weighted_linear]
    ring

theorem sum_range_mul' (m n : ℕ) (f : ℕ → K) :
    ∑ q ∈ Finset.range (m * n), f q = ∑ i ∈ Finset.range m, ∑ j ∈ Finset.range n, f (i * n + j) := by
  induction m with
  | zero => simp
  | succ m ih => rw [Nat.succ_mul, Finset.sum_range_add, ih, Finset.sum_range_succ]

/-- One row of the matrix of a Markov chain, summed against `d j * c k`. -/
theorem mc_row {ρ α : Type} (tr : ρ → α → K → ρ) (zero : ρ) (flat : ρ → List K)
    (shape : ρ → Prop) (Ns : ℕ) (h : Spreads tr flat shape Ns) (hz : shape zero) (hz0 : ∀ a ∈ flat zero, a = 0)
    (c : ℕ → K) (φ : α → K)
    (hφ : ∀ A x w, shape A → weighted c (flat (tr A x w)) = weighted c (flat A) + w * φ x)
    (S : ℕ → α) (d : ℕ → K) (ws : List K) (C : ℕ → K) (k0 : ℕ)
    (hC : ∀ j k, k < Ns → C (j * Ns + k) = d (k0 + j) * c k) :
    weighted C ((ws.zipIdx k0).flatMap fun (p : K × ℕ) => flat (tr zero (S p.2) p.1)) =
      ∑ j ∈ Finset.range ws.length, ws.getD j 0 * (d (k0 + j) * φ (S (k0 + j))) := by
  induction ws generalizing k0 C with
  | nil => simp [weighted]
  | cons w r ih =>
    rw [List.zipIdx_cons, List.flatMap_cons, weighted_append, h.len _ (h.ok _ _ _ hz),
      ih (fun i => C (Ns + i)) (k0 + 1)]
    · rw [List.length_cons, Finset.sum_range_succ']
      have e1 : weighted C (flat (tr zero (S k0) w)) = w * (d k0 * φ (S k0)) := by
        have : weighted C (flat (tr zero (S k0) w)) = weighted (fun k => d k0 * c k) (flat (tr zero (S k0) w)) := by
          rw [weighted_eq_sum, weighted_eq_sum]
          apply Finset.sum_congr rfl
          intro k hk
          rw [h.len _ (h.ok _ _ _ hz), Finset.mem_range] at hk
          have := hC 0 k hk
          rw [Nat.zero_mul, Nat.zero_add, Nat.add_zero] at this
          rw [this]
        rw [this, weighted_mul, hφ _ _ _ hz]
        have : weighted c (flat zero) = 0 := by
          rw [weighted_eq_sum]
          apply Finset.sum_eq_zero
          intro k hk
          rw [Finset.mem_range] at hk
          rw [List.getD_eq_getElem _ _ hk, hz0 _ (List.getElem_mem hk), zero_mul]
        rw [this]
        ring
      rw [e1, add_comm]
      congr 1
      apply Finset.sum_congr rfl
      intro j _
      rw [List.getD_cons_succ, show k0 + 1 + j = k0 + (j + 1) by ring]
    · intro j k hk
      have := hC (j + 1) k hk
      rw [show Ns + (j * Ns + k) = (j + 1) * Ns + k by ring, this, show k0 + 1 + j = k0 + (j + 1) by ring]

/-- An invariant vector gives the same mean to a function and to its mean after a transition. -/
theorem invariant_mean (P : List (List K)) (hP : ∀ row ∈ P, row.length = P.length) (mu : Fin P.length → K)
    (hinv : Invariant (asSquare P) mu) (C : ℕ → K) :
    ∑ r ∈ Finset.range P.length, (List.ofFn mu).getD r 0 * weighted C (P.getD r []) =
      ∑ q ∈ Finset.range P.length, (List.ofFn mu).getD q 0 * C q := by
  have hmu : ∀ i : Fin P.length, (List.ofFn mu).getD i.val 0 = mu i := by
    intro i
    simp
  rw [← Fin.sum_univ_eq_sum_range (fun r => (List.ofFn mu).getD r 0 * weighted C (P.getD r [])),
    ← Fin.sum_univ_eq_sum_range (fun q => (List.ofFn mu).getD q 0 * C q)]
  calc ∑ i : Fin P.length, (List.ofFn mu).getD i.val 0 * weighted C (P.getD i.val [])
      = ∑ i, ∑ j, mu i * asSquare P i j * C j.val := by
        apply Finset.sum_congr rfl
        intro i _
        rw [hmu, weighted_eq_sum, List.getD_eq_getElem _ _ i.isLt, hP _ (List.getElem_mem i.isLt),
          ← Fin.sum_univ_eq_sum_range (fun q => P[i.val].getD q 0 * C q), Finset.mul_sum]
        apply Finset.sum_congr rfl
        intro j _
        unfold asSquare
        rw [mul_assoc]
    _ = ∑ j, (∑ i, mu i * asSquare P i j) * C j.val := by
        rw [Finset.sum_comm]
        apply Finset.sum_congr rfl
        intro j _
        rw [Finset.sum_mul]
    _ = _ := by
        apply Finset.sum_congr rfl
        intro j _
        rw [hinv j, hmu]

/-- Balance of an invariant vector of the matrix of a Markov chain. -/
theorem mc_balance {ρ α : Type} (tr : ρ → α → K → ρ) (zero : ρ) (flat : ρ → List K)
    (shape : ρ → Prop) (Ns : ℕ) (h : Spreads tr flat shape Ns) (hz : shape zero) (hz0 : ∀ a ∈ flat zero, a = 0)
    (c : ℕ → K) (φ : α → K)
    (hφ : ∀ A x w, shape A → weighted c (flat (tr A x w)) = weighted c (flat A) + w * φ x)
    (weights : List (List K)) (hw : StochasticRows weights.length weights) (S : ℕ → ℕ → ℕ → α)
    (mu : Fin (ergodicMatrixMC tr zero flat weights S Ns).length → K)
    (hinv : Invariant (asSquare (ergodicMatrixMC tr zero flat weights S Ns)) mu) (d : ℕ → K) :
    ergMean (List.ofFn mu) weights.length Ns (fun i n =>
        ∑ j ∈ Finset.range weights.length, (weights.getD i []).getD j 0 * (d j * φ (S i j n))) =
      ergMean (List.ofFn mu) weights.length Ns (fun j k => d j * c k) := by
  obtain ⟨hlen, hst⟩ := C69_markov_stochastic tr zero flat shape Ns h hz hz0 weights hw S
  have := invariant_mean _ (fun row hr => by rw [hlen]; exact (hst row hr).1) mu hinv
    (fun q => d (q / Ns) * c (q % Ns))
  generalize List.ofFn mu = L at this ⊢
  rw [hlen, sum_range_mul', sum_range_mul'] at this
  unfold ergMean
  convert this using 1
  · apply Finset.sum_congr rfl
    intro i hi
    rw [Finset.mem_range] at hi
    apply Finset.sum_congr rfl
    intro n hn
    rw [Finset.mem_range] at hn
    congr 1
    have hrow : (ergodicMatrixMC tr zero flat weights S Ns).getD (i * Ns + n) [] =
        (weights[i].zipIdx 0).flatMap fun (p : K × ℕ) => flat (tr zero (S i p.2 n) p.1) := by
      rw [List.getD_eq_getElem?_getD]
      unfold ergodicMatrixMC
      rw [getElem?_flatMap_block _ _ Ns i n (by intro a _; simp) hn]
      simp [hi, hn]
    rw [hrow, mc_row tr zero flat shape Ns h hz hz0 c φ hφ (fun j => S i j n) d weights[i] _ 0]
    · beta_reduce
      rw [List.getD_eq_getElem _ _ hi, (hw _ (List.getElem_mem hi)).1]
      simp
    · intro j k hk
      rw [Nat.zero_add, mul_comm j, Nat.mul_add_div (by omega), Nat.mul_add_mod, Nat.div_eq_of_lt hk,
        Nat.mod_eq_of_lt hk, Nat.add_zero]
  · apply Finset.sum_congr rfl
    intro i _
    apply Finset.sum_congr rfl
    intro n hn
    rw [Finset.mem_range] at hn
    rw [mul_comm i, Nat.mul_add_div (by omega), Nat.mul_add_mod, Nat.div_eq_of_lt hn,
      Nat.mod_eq_of_lt hn, Nat.add_zero]

/-- Balance of an invariant vector of the matrix of an iid process. -/
theorem iid_balance {ρ α : Type} (tr : ρ → α → K → ρ) (zero : ρ) (flat : ρ → List K)
    (shape : ρ → Prop) (Ns : ℕ) (h : Spreads tr flat shape Ns) (hz : shape zero) (hz0 : ∀ a ∈ flat zero, a = 0)
    (c : ℕ → K) (φ : α → K)
    (hφ : ∀ A x w, shape A → weighted c (flat (tr A x w)) = weighted c (flat A) + w * φ x)
    (ws : List K) (hs : ws.sum = 1) (hp : ∀ p ∈ ws, 0 ≤ p) (S : ℕ → ℕ → α)
    (mu : Fin (ergodicMatrixIID tr zero flat ws S Ns).length → K)
    (hinv : Invariant (asSquare (ergodicMatrixIID tr zero flat ws S Ns)) mu) :
    ergMean (List.ofFn mu) 1 Ns (fun _ n => ∑ j ∈ Finset.range ws.length, ws.getD j 0 * φ (S j n)) =
      ergMean (List.ofFn mu) 1 Ns (fun _ k => c k) := by
  obtain ⟨hlen, hst⟩ := C69_iid_stochastic tr zero flat shape Ns h hz hz0 ws hs hp S
  have := invariant_mean _ (fun row hr => by rw [hlen]; exact (hst row hr).1) mu hinv c
  generalize List.ofFn mu = L at this ⊢
  rw [hlen] at this
  unfold ergMean
  simp only [Finset.range_one, Finset.sum_singleton, Nat.zero_mul, Nat.zero_add]
  rw [← this]
  apply Finset.sum_congr rfl
  intro n hn
  rw [Finset.mem_range] at hn
  congr 1
  have hrow : (ergodicMatrixIID tr zero flat ws S Ns).getD n [] =
      flat ((ws.zipIdx 0).foldl (fun A (p : K × ℕ) => tr A (S p.2 n) p.1) zero) := by
    rw [List.getD_eq_getElem?_getD]
    unfold ergodicMatrixIID
    simp [hn]
  have key : ∀ (ws : List K) (k : ℕ) (A : ρ), shape A →
      weighted c (flat ((ws.zipIdx k).foldl (fun A (p : K × ℕ) => tr A (S p.2 n) p.1) A)) =
        weighted c (flat A) + ∑ j ∈ Finset.range ws.length, ws.getD j 0 * φ (S (k + j) n) := by
    intro ws
    induction ws with
    | nil => intro k A _; simp
    | cons w r ih =>
      intro k A hA
      rw [List.zipIdx_cons, List.foldl_cons, ih (k + 1) _ (h.ok _ _ _ hA), hφ _ _ _ hA, List.length_cons,
        Finset.sum_range_succ', add_assoc]
      congr 1
      rw [add_comm]
      congr 1
      apply Finset.sum_congr rfl
      intro j _
      rw [List.getD_cons_succ, show k + 1 + j = k + (j + 1) by ring]
  rw [hrow, key ws 0 zero hz]
  have : weighted c (flat zero) = 0 := by
    rw [weighted_eq_sum]
    apply Finset.sum_eq_zero
    intro k hk
    rw [Finset.mem_range] at hk
    rw [List.getD_eq_getElem _ _ hk, hz0 _ (List.getElem_mem hk), zero_mul]
  rw [this, zero_add]
  simp


theorem weighted_congr (c c' : ℕ → K) (A : List K) (h : ∀ k < A.length, c k = c' k) :
    weighted c A = weighted c' A := by
  rw [weighted_eq_sum, weighted_eq_sum]
  apply Finset.sum_congr rfl
  intro k hk
  rw [h k (Finset.mem_range.mp hk)]

theorem spaced_gridPos (a b : K) (n k : ℕ) : spaced a b n k = a + (b - a) * gridPos n k := by
  unfold spaced gridPos
  ring

theorem clamp_state (a b s : K) (hab : a < b) :
    a + (b - a) * min (max (renormalise a b s) 0) 1 = min (max s a) b := by
  have hba : 0 < b - a := by linarith
  rw [add_comm]
  unfold renormalise
  rw [mul_min_of_nonneg _ _ hba.le, mul_max_of_nonneg _ _ hba.le, mul_zero, mul_one,
    mul_div_cancel₀ _ hba.ne', ← min_add_add_right, ← max_add_add_right]
  simp

/-- How weights are spread over a grid with one or two states, and which means they have. -/
theorem hand_cases (mn mx : List K) (n : List ℕ) (grid : UniformGrid K)
    (hgrid : UniformGrid.mk' mn mx n = .ok grid) (h1 : mn.length = mx.length) (h2 : mn.length = n.length)
    (hd : n.length = 1 ∨ n.length = 2) (hn : ∀ m ∈ n, 2 ≤ m) :
    ∃ (ρ : Type) (tr : ρ → List K → K → ρ) (zero : ρ) (flat : ρ → List K) (shape : ρ → Prop),
      Spreads tr flat shape grid.nodes.length ∧ shape zero ∧ (∀ a ∈ flat zero, a = 0) ∧
      (∀ W T, ergodicPiMC grid.n W T grid.nodes.length =
        .ok (ergodicMatrixMC tr zero flat W T grid.nodes.length)) ∧
      (∀ W T, ergodicPiIID grid.n W T grid.nodes.length =
        .ok (ergodicMatrixIID tr zero flat W T grid.nodes.length)) ∧
      ∀ (d : ℕ) (a b : K), mn[d]? = some a → mx[d]? = some b → ∀ A x w, shape A →
        weighted (fun k => (grid.nodes.getD k []).getD d 0) (flat (tr A x w)) =
          weighted (fun k => (grid.nodes.getD k []).getD d 0) (flat A) +
            w * (a + (b - a) * min (max (x.getD d 0) 0) 1) := by
  have hne : n ≠ [] := by
    rintro rfl
    simp at hd
  obtain ⟨g', hg', -, -, hgn, hlen, hnodes⟩ := C02_uniform_grid_nodes mn mx n hne h1 h2 hn
  rw [hgrid] at hg'
  cases hg'
  rcases hd with hd | hd
  · obtain ⟨n0, rfl⟩ := List.length_eq_one_iff.mp hd
    have hn0 : 2 ≤ n0 := hn n0 (by simp)
    have hN : grid.nodes.length = n0 := by simpa using hlen
    refine ⟨List K, fun A x w => tremble1 A (x.getD 0 0) w, List.replicate n0 0, id, fun A => A.length = n0,
      ?_, by simp, fun a ha => List.eq_of_mem_replicate ha, ?_, ?_, ?_⟩
    · rw [hN]
      have := spreads1 (K := K) n0 hn0
      exact ⟨fun A x w => this.ok A _ w, this.len, fun A x w => this.mass A _ w, fun A x w => this.pos A _ w⟩
    · intro W T
      rw [hgn, ergodicPiMC, if_neg (by omega)]
    · intro W T
      rw [hgn, ergodicPiIID, if_neg (by omega)]
    · intro d a b ha hb A x w hA
      have hd0 : d = 0 := by
        have := (List.getElem?_eq_some_iff.mp ha).1
        simp only [h2, List.length_singleton] at this
        omega
      subst hd0
      have hc : ∀ k < n0, (grid.nodes.getD k []).getD 0 0 = a + (b - a) * gridPos n0 k := by
        intro k hk
        obtain ⟨row, hr, -, hrow⟩ := hnodes [k] (.cons hk .nil)
        have := hrow 0 a b n0 k ha hb rfl rfl
        have e : flatIndex [n0] [k] = k := by simp [flatIndex]
        rw [e] at hr
        simp only [List.getD_eq_getElem?_getD, hr, this, Option.getD_some, spaced_gridPos]
      obtain ⟨t1, t2, t3, -⟩ := C18_tremble1 A (by omega) (x.getD 0 0) w
      simp only [id]
      rw [weighted_congr _ (fun k => a + (b - a) * gridPos n0 k) A (fun k hk => hc k (by omega)),
        weighted_congr _ (fun k => a + (b - a) * gridPos n0 k) (tremble1 A (x.getD 0 0) w)
          (fun k hk => hc k (by omega)), weighted_linear, weighted_linear, t2]
      rw [hA] at t3
      rw [t3]
      ring
  · obtain ⟨n0, n1, rfl⟩ := List.length_eq_two.mp hd
    have hn0 : 2 ≤ n0 := hn n0 (by simp)
    have hn1 : 2 ≤ n1 := hn n1 (by simp)
    have hN : grid.nodes.length = n0 * n1 := by simpa using hlen
    refine ⟨List (List K), fun A x w => tremble2 n0 n1 A (x.getD 0 0, x.getD 1 0) w,
      List.replicate n0 (List.replicate n1 0), List.flatten,
      fun A => A.length = n0 ∧ ∀ row ∈ A, row.length = n1, ?_, by simp +contextual, ?_, ?_, ?_, ?_⟩
    · rw [hN]
      have := spreads2 (K := K) n0 n1 hn0 hn1
      exact ⟨fun A x w => this.ok A _ w, this.len, fun A x w => this.mass A _ w, fun A x w => this.pos A _ w⟩
    · intro a ha
      obtain ⟨row, hr, ha⟩ := List.mem_flatten.1 ha
      rw [List.eq_of_mem_replicate hr] at ha
      exact List.eq_of_mem_replicate ha
    · intro W T
      rw [hgn, ergodicPiMC, if_neg (by omega)]
    · intro W T
      rw [hgn, ergodicPiIID, if_neg (by omega)]
    · intro d a b ha hb A x w hA
      have hd0 : d < 2 := by
        have := (List.getElem?_eq_some_iff.mp ha).1
        simp only [h2, List.length_cons, List.length_nil] at this
        omega
      have hrow : ∀ i j, i < n0 → j < n1 → ∃ row : List K, grid.nodes[i * n1 + j]? = some row ∧
          ∀ (k : ℕ) (a b : K) (m l : ℕ), mn[k]? = some a → mx[k]? = some b → [n0, n1][k]? = some m →
            [i, j][k]? = some l → row[k]? = some (spaced a b m l) := by
        intro i j hi hj
        obtain ⟨row, hr, -, hrow⟩ := hnodes [i, j] (.cons hi (.cons hj .nil))
        have e : flatIndex [n0, n1] [i, j] = i * n1 + j := by simp [flatIndex]
        rw [e] at hr
        exact ⟨row, hr, hrow⟩
      obtain ⟨⟨s0, s1⟩, t2, t3, t4, -⟩ := C18_tremble2 n0 n1 hn0 hn1 A hA.1 hA.2 (x.getD 0 0, x.getD 1 0) w
      rw [weighted_flatten _ _ n1 hA.2, weighted_flatten _ _ n1 s1]
      have hcongr : ∀ (c c' : ℕ → ℕ → K) (B : List (List K)), B.length = n0 → (∀ row ∈ B, row.length = n1) →
          (∀ i < n0, ∀ j < n1, c i j = c' i j) → weighted2 c B = weighted2 c' B := by
        clear * -
        intro c c' B hB hB' h
        induction B generalizing n0 c c' with
        | nil => rfl
        | cons r B ih =>
          simp only [weighted2]
          rw [weighted_congr (c 0) (c' 0) r fun k hk => h 0 (by simp at hB; omega) k
              (by rw [hB' r (by simp)] at hk; exact hk),
            ih (n0 - 1) _ (fun i => c' (i + 1)) (by simp at hB; omega) (fun row hr => hB' row (by simp [hr]))
              fun i hi j hj => h (i + 1) (by omega) j hj]
      have hd2 : d = 0 ∨ d = 1 := by omega
      rcases hd2 with rfl | rfl
      · have hc : ∀ i < n0, ∀ j < n1, (grid.nodes.getD (i * n1 + j) []).getD 0 0 =
            (fun (i _ : ℕ) => a + (b - a) * gridPos n0 i) i j := by
          intro i hi j hj
          obtain ⟨row, hr, hrow⟩ := hrow i j hi hj
          have := hrow 0 a b n0 i ha hb rfl rfl
          simp only [List.getD_eq_getElem?_getD, hr, this, Option.getD_some, spaced_gridPos]
        rw [hcongr _ (fun i _ => a + (b - a) * gridPos n0 i) A hA.1 hA.2 hc,
          hcongr _ (fun i _ => a + (b - a) * gridPos n0 i) _ s0 s1 hc,
          weighted2_linear (fun i _ => gridPos n0 i), weighted2_linear (fun i _ => gridPos n0 i), t2, t3]
        ring
      · have hc : ∀ i < n0, ∀ j < n1, (grid.nodes.getD (i * n1 + j) []).getD 1 0 =
            (fun (_ j : ℕ) => a + (b - a) * gridPos n1 j) i j := by
          intro i hi j hj
          obtain ⟨row, hr, hrow⟩ := hrow i j hi hj
          have := hrow 1 a b n1 j ha hb rfl rfl
          simp only [List.getD_eq_getElem?_getD, hr, this, Option.getD_some, spaced_gridPos]
        rw [hcongr _ (fun _ j => a + (b - a) * gridPos n1 j) A hA.1 hA.2 hc,
          hcongr _ (fun _ j => a + (b - a) * gridPos n1 j) _ s0 s1 hc,
          weighted2_linear (fun _ j => gridPos n1 j), weighted2_linear (fun _ j => gridPos n1 j), t2, t4]
        ring

theorem renormaliseRow_getD (grid : UniformGrid K) (S : List K) (d : ℕ) (a b : K)
    (ha : grid.min[d]? = some a) (hb : grid.max[d]? = some b) (hS : d < S.length) :
    (renormaliseRow grid S).getD d 0 = renormalise a b (S.getD d 0) := by
  rw [List.getD_eq_getElem?_getD, List.getD_eq_getElem?_getD]
  unfold renormaliseRow
  have : (grid.min.zip grid.max)[d]? = some (a, b) := List.getElem?_zip_eq_some.mpr ⟨ha, hb⟩
  rw [List.getElem?_zipWith, this, List.getElem?_eq_getElem hS]
  rfl

/-- What the end of the function returns. -/
theorem ergodicFinish_ok (solve : (N : ℕ) → (Fin N → Fin N → K) → (Fin N → K) → Except Err (Fin N → K))
    (grid : UniformGrid K) (pi : List (List K)) (r : ErgodicResult K) (h : ergodicFinish solve grid pi = .ok r)
    (hs : SolveContract (solve pi.length)) (hpi : StochasticRows pi.length pi) :
    ∃ mu : Fin pi.length → K, r.pi = pi ∧ r.mu = List.ofFn mu ∧ Invariant (asSquare pi) mu ∧
      IsDistribution pi.length r.mu ∧ linspaces grid.min grid.max grid.n = .ok r.labels := by
  unfold ergodicFinish at h
  cases hm : ergodicMu (solve pi.length) (asSquare pi) with
  | error e => simp [hm, bind, Except.bind] at h
  | ok mu =>
    cases hl : linspaces grid.min grid.max grid.n with
    | error e => simp [hm, hl, bind, Except.bind] at h
    | ok labels =>
      simp only [hm, hl, bind, Except.bind, pure, Except.pure, Except.ok.injEq] at h
      subst h
      obtain ⟨i1, i2, i3⟩ := C17_ergodic_of_rows pi hpi (solve pi.length) hs mu hm
      refine ⟨mu, rfl, rfl, i1, ⟨by simp, ?_, ?_⟩, rfl⟩
      · simp only [List.sum_ofFn]
        exact i2
      · intro p hp
        simp only at hp
        obtain ⟨i, rfl⟩ := (List.mem_ofFn' mu p).mp hp
        exact i3 i

/-! ### C107 -/

/-- **C107** (Markov chains).  What `ergodic_distribution` returns, with one or two states, is a probability
distribution over the exogenous states and the nodes of the grid.  Under it, the exogenous state has the
distribution it has one period later, and the mean of every state is the mean of its value one period later,
clamped to the grid. -/
theorem C107_markov (solve : (N : ℕ) → (Fin N → Fin N → K) → (Fin N → K) → Except Err (Fin N → K))
    (mn mx : List K) (n : List ℕ) (grid : UniformGrid K)
    (hgrid : UniformGrid.mk' mn mx n = .ok grid) (h1 : mn.length = mx.length) (h2 : mn.length = n.length)
    (hd : n.length = 1 ∨ n.length = 2) (hn : ∀ m ∈ n, 2 ≤ m) (hlt : List.Forall₂ (· < ·) mn mx)
    (mnodes P : List (List K)) (hP : StochasticRows P.length P)
    (hs : SolveContract (solve (P.length * n.prod)))
    (dr : ℕ → List K → List K) (g : List K → List K → List K → List K → List K)
    (hg : ∀ m s x M, (g m s x M).length = n.length)
    (r : ErgodicResult K) (h : ergodicDistMC solve grid mnodes P dr g = .ok r) :
    IsDistribution (P.length * n.prod) r.mu ∧
    (∀ j < P.length, ergMean r.mu P.length n.prod (fun i _ => (P.getD i []).getD j 0) =
      ergMean r.mu P.length n.prod (fun i _ => if i = j then 1 else 0)) ∧
    ∀ (d : ℕ) (a b : K), mn[d]? = some a → mx[d]? = some b →
      ergMean r.mu P.length n.prod (fun i k => ∑ j ∈ Finset.range P.length, (P.getD i []).getD j 0 *
        min (max ((g (mnodes.getD i []) (grid.nodes.getD k []) (dr i (grid.nodes.getD k []))
          (mnodes.getD j [])).getD d 0) a) b) =
      ergMean r.mu P.length n.prod (fun _ k => (grid.nodes.getD k []).getD d 0) := by
  obtain ⟨ρ, tr, zero, flat, shape, hsp, hz, hz0, hMC, -, hφ⟩ := hand_cases mn mx n grid hgrid h1 h2 hd hn
  have hne : n ≠ [] := by
    rintro rfl
    simp at hd
  obtain ⟨g', hg', hgmn, hgmx, hgn, hlen, -⟩ := C02_uniform_grid_nodes mn mx n hne h1 h2 hn
  rw [hgrid] at hg'
  cases hg'
  simp only [ergodicDistMC, hMC, bind, Except.bind] at h
  generalize hS : (fun i_m i_M n => renormaliseRow grid (g (mnodes.getD i_m []) (grid.nodes.getD n [])
    (dr i_m (grid.nodes.getD n [])) (mnodes.getD i_M []))) = S at h
  obtain ⟨hl, hst⟩ := C69_markov_stochastic tr zero flat shape grid.nodes.length hsp hz hz0 P hP S
  rw [← hl] at hst
  have hN : (ergodicMatrixMC tr zero flat P S grid.nodes.length).length = P.length * n.prod := by rw [hl, hlen]
  obtain ⟨mu, -, hmu, hinv, hdist, -⟩ := ergodicFinish_ok solve grid _ r h (by rw [hN]; exact hs) hst
  rw [hN] at hdist
  refine ⟨hdist, ?_, ?_⟩
  · intro j hj
    have := mc_balance tr zero flat shape grid.nodes.length hsp hz hz0 (fun _ => 1) (fun _ => 1)
      (by
        intro A x w hA
        rw [weighted_one, weighted_one, hsp.mass A x w hA, mul_one]) P hP S mu hinv (fun i => if i = j then 1 else 0)
    rw [← hmu, hlen] at this
    rw [show (fun (i _ : ℕ) => if i = j then (1 : K) else 0) = fun i _ => (if i = j then 1 else 0) * 1 from by
      funext i _; rw [mul_one], ← this]
    unfold ergMean
    apply Finset.sum_congr rfl
    intro i _
    apply Finset.sum_congr rfl
    intro k _
    congr 1
    simp [hj]
  · intro d a b ha hb
    have hab : a < b := (List.forall₂_iff_get.mp hlt).2 d (List.getElem?_eq_some_iff.mp ha).1
      (List.getElem?_eq_some_iff.mp hb).1 |> fun h => by
        simpa [(List.getElem?_eq_some_iff.mp ha).2, (List.getElem?_eq_some_iff.mp hb).2] using h
    have hdl : d < n.length := by
      rw [← h2]
      exact (List.getElem?_eq_some_iff.mp ha).1
    have := mc_balance tr zero flat shape grid.nodes.length hsp hz hz0 _ _ (hφ d a b ha hb) P hP S mu hinv
      (fun _ => 1)
    rw [← hmu, hlen] at this
    simp only [one_mul] at this
    rw [← this]
    unfold ergMean
    apply Finset.sum_congr rfl
    intro i _
    apply Finset.sum_congr rfl
    intro k _
    congr 1
    apply Finset.sum_congr rfl
    intro j _
    rw [← hS]
    simp only
    rw [renormaliseRow_getD grid _ d a b (by rw [hgmn]; exact ha) (by rw [hgmx]; exact hb) (by rw [hg]; exact hdl),
      clamp_state _ _ _ hab]

/-- **C107** (iid processes). -/
theorem C107_iid (solve : (N : ℕ) → (Fin N → Fin N → K) → (Fin N → K) → Except Err (Fin N → K))
    (mn mx : List K) (n : List ℕ) (grid : UniformGrid K)
    (hgrid : UniformGrid.mk' mn mx n = .ok grid) (h1 : mn.length = mx.length) (h2 : mn.length = n.length)
    (hd : n.length = 1 ∨ n.length = 2) (hn : ∀ m ∈ n, 2 ≤ m) (hlt : List.Forall₂ (· < ·) mn mx)
    (m0 : List K) (inodes : List (List K)) (ws : List K) (hsum : ws.sum = 1) (hpos : ∀ w ∈ ws, 0 ≤ w)
    (hs : SolveContract (solve n.prod))
    (dr : List K → List K) (g : List K → List K → List K → List K → List K)
    (hg : ∀ m s x M, (g m s x M).length = n.length)
    (r : ErgodicResult K) (h : ergodicDistIID solve grid m0 inodes ws dr g = .ok r) :
    IsDistribution n.prod r.mu ∧
    ∀ (d : ℕ) (a b : K), mn[d]? = some a → mx[d]? = some b →
      ergMean r.mu 1 n.prod (fun _ k => ∑ j ∈ Finset.range ws.length, ws.getD j 0 *
        min (max ((g m0 (grid.nodes.getD k []) (dr (grid.nodes.getD k [])) (inodes.getD j [])).getD d 0) a) b) =
      ergMean r.mu 1 n.prod (fun _ k => (grid.nodes.getD k []).getD d 0) := by
  obtain ⟨ρ, tr, zero, flat, shape, hsp, hz, hz0, -, hI, hφ⟩ := hand_cases mn mx n grid hgrid h1 h2 hd hn
  have hne : n ≠ [] := by
    rintro rfl
    simp at hd
  obtain ⟨g', hg', hgmn, hgmx, hgn, hlen, -⟩ := C02_uniform_grid_nodes mn mx n hne h1 h2 hn
  rw [hgrid] at hg'
  cases hg'
  simp only [ergodicDistIID, hI, bind, Except.bind] at h
  generalize hS : (fun i_M n => renormaliseRow grid (g m0 (grid.nodes.getD n [])
    (dr (grid.nodes.getD n [])) (inodes.getD i_M []))) = S at h
  obtain ⟨hl, hst⟩ := C69_iid_stochastic tr zero flat shape grid.nodes.length hsp hz hz0 ws hsum hpos S
  nth_rewrite 1 [← hl] at hst
  have hN : (ergodicMatrixIID tr zero flat ws S grid.nodes.length).length = n.prod := by rw [hl, hlen]
  obtain ⟨mu, -, hmu, hinv, hdist, -⟩ := ergodicFinish_ok solve grid _ r h (by rw [hN]; exact hs) hst
  rw [hN] at hdist
  refine ⟨hdist, ?_⟩
  intro d a b ha hb
  have hab : a < b := (List.forall₂_iff_get.mp hlt).2 d (List.getElem?_eq_some_iff.mp ha).1
    (List.getElem?_eq_some_iff.mp hb).1 |> fun h => by
      simpa [(List.getElem?_eq_some_iff.mp ha).2, (List.getElem?_eq_some_iff.mp hb).2] using h
  have hdl : d < n.length := by
    rw [← h2]
    exact (List.getElem?_eq_some_iff.mp ha).1
  have := iid_balance tr zero flat shape grid.nodes.length hsp hz hz0 _ _ (hφ d a b ha hb) ws hsum hpos S mu hinv
  rw [← hmu, hlen] at this
  rw [← this]
  unfold ergMean
  apply Finset.sum_congr rfl
  intro i _
  apply Finset.sum_congr rfl
  intro k _
  congr 1
  apply Finset.sum_congr rfl
  intro j _
  rw [← hS]
  simp only
  rw [renormaliseRow_getD grid _ d a b (by rw [hgmn]; exact ha) (by rw [hgmx]; exact hb) (by rw [hg]; exact hdl),
    clamp_state _ _ _ hab]


private theorem finish_axes (solve : (N : ℕ) → (Fin N → Fin N → K) → (Fin N → K) → Except Err (Fin N → K))
    (mn mx : List K) (n : List ℕ) (grid : UniformGrid K)
    (hgrid : UniformGrid.mk' mn mx n = .ok grid) (h1 : mn.length = mx.length) (h2 : mn.length = n.length)
    (hne : n ≠ []) (hn : ∀ m ∈ n, 2 ≤ m) (pi : List (List K))
    (r : ErgodicResult K) (h : ergodicFinish solve grid pi = .ok r)
    (idx : List ℕ) (hi : ValidIdx n idx) (d : ℕ) (hd : d < n.length) :
    ∃ row axis v, grid.nodes[flatIndex n idx]? = some row ∧ r.labels[d]? = some axis ∧
      row[d]? = some v ∧ axis[idx.getD d 0]? = some v := by
  obtain ⟨g', hg', hgmn, hgmx, hgn, hlen, hnodes⟩ := C02_uniform_grid_nodes mn mx n hne h1 h2 hn
  rw [hgrid] at hg'
  cases hg'
  have hl : linspaces mn mx n = .ok r.labels := by
    unfold ergodicFinish at h
    simp only [bind, Except.bind] at h
    cases hm : ergodicMu (solve pi.length) (asSquare pi) with
    | error e => simp [hm] at h
    | ok mu =>
      rw [hgmn, hgmx, hgn] at h
      cases hls : linspaces mn mx n with
      | error e => simp [hm, hls] at h
      | ok labels =>
        simp only [hm, hls, pure, Except.pure, Except.ok.injEq] at h
        rw [← h]
  obtain ⟨row, hr, hrl, hrow⟩ := hnodes idx hi
  have hdm : d < mn.length := by omega
  have hdx : d < mx.length := by omega
  have hil : idx.length = n.length := hi.length_eq.symm
  have hlt : idx[d] < n[d] := (List.forall₂_iff_get.mp hi).2 d hd (by omega)
  have hv := hrow d mn[d] mx[d] n[d] idx[d] (by simp) (by simp) (by simp) (by simp)
  have hax : r.labels[d]? = some (linspace mn[d] mx[d] n[d]) := by
    clear hrow hr hrl hlen hnodes hgrid h hlt hv hi hil hne hn hgmn hgmx hgn
    generalize r.labels = labels at hl
    induction mn generalizing mx n d labels with
    | nil => simp at hdm
    | cons a mn ih =>
      cases mx with
      | nil => simp at hdx
      | cons b mx =>
        cases n with
        | nil => simp at hd
        | cons m n =>
          cases hls : linspaces mn mx n with
          | error e => simp [linspaces, hls, bind, Except.bind] at hl
          | ok sl =>
            simp only [linspaces, hls, bind, Except.bind, pure, Except.pure, Except.ok.injEq] at hl
            subst hl
            cases d with
            | zero => rfl
            | succ d =>
              simpa using ih mx n (by simpa using h1) (by simpa using h2) d (by simpa using hd) (by simpa using hdm)
                (by simpa using hdx) sl hls
  refine ⟨row, _, _, hr, hax, hv, ?_⟩
  have h2n : 2 ≤ n[d] := hn _ (List.getElem_mem hd)
  rw [List.getD_eq_getElem _ _ (by omega)]
  have : ¬ n[d] ≤ 1 := by omega
  simp [linspace, hlt, this, spaced]

/-- **C107** (axes).  The coordinates along the axes of the distribution are those of the nodes of the grid. -/
theorem C107_labels (solve : (N : ℕ) → (Fin N → Fin N → K) → (Fin N → K) → Except Err (Fin N → K))
    (mn mx : List K) (n : List ℕ) (grid : UniformGrid K)
    (hgrid : UniformGrid.mk' mn mx n = .ok grid) (h1 : mn.length = mx.length) (h2 : mn.length = n.length)
    (hne : n ≠ []) (hn : ∀ m ∈ n, 2 ≤ m) (mnodes P : List (List K))
    (dr : ℕ → List K → List K) (g : List K → List K → List K → List K → List K)
    (r : ErgodicResult K) (h : ergodicDistMC solve grid mnodes P dr g = .ok r)
    (idx : List ℕ) (hi : ValidIdx n idx) (d : ℕ) (hd : d < n.length) :
    ∃ row axis v, grid.nodes[flatIndex n idx]? = some row ∧ r.labels[d]? = some axis ∧
      row[d]? = some v ∧ axis[idx.getD d 0]? = some v := by
  unfold ergodicDistMC at h
  simp only [bind, Except.bind] at h
  split at h
  · simp at h
  · exact finish_axes solve mn mx n grid hgrid h1 h2 hne hn _ r h idx hi d hd

/-- **C107** (axes, iid processes). -/
theorem C107_labels_iid (solve : (N : ℕ) → (Fin N → Fin N → K) → (Fin N → K) → Except Err (Fin N → K))
    (mn mx : List K) (n : List ℕ) (grid : UniformGrid K)
    (hgrid : UniformGrid.mk' mn mx n = .ok grid) (h1 : mn.length = mx.length) (h2 : mn.length = n.length)
    (hne : n ≠ []) (hn : ∀ m ∈ n, 2 ≤ m) (m0 : List K)
    (inodes : List (List K)) (ws : List K) (dr : List K → List K) (g : List K → List K → List K → List K → List K)
    (r : ErgodicResult K) (h : ergodicDistIID solve grid m0 inodes ws dr g = .ok r)
    (idx : List ℕ) (hi : ValidIdx n idx) (d : ℕ) (hd : d < n.length) :
    ∃ row axis v, grid.nodes[flatIndex n idx]? = some row ∧ r.labels[d]? = some axis ∧
      row[d]? = some v ∧ axis[idx.getD d 0]? = some v := by
  unfold ergodicDistIID at h
  simp only [bind, Except.bind] at h
  split at h
  · simp at h
  · exact finish_axes solve mn mx n grid hgrid h1 h2 hne hn _ r h idx hi d hd

/-- Three states or more are not supported. -/
theorem C107_unsupported (solve : (N : ℕ) → (Fin N → Fin N → K) → (Fin N → K) → Except Err (Fin N → K))
    (grid : UniformGrid K) (h : 3 ≤ grid.n.length) (mnodes P : List (List K))
    (dr : ℕ → List K → List K) (g : List K → List K → List K → List K → List K) :
    ergodicDistMC solve grid mnodes P dr g = .error (.exception "Unsupported.") := by
  unfold ergodicDistMC
  cases hn : grid.n with
  | nil => simp [hn] at h
  | cons a l =>
    cases l with
    | nil => simp [hn] at h
    | cons b l =>
      cases l with
      | nil => simp [hn] at h
      | cons c l => rfl

/-- Three states or more are not supported with iid processes either. -/
theorem C107_unsupported_iid (solve : (N : ℕ) → (Fin N → Fin N → K) → (Fin N → K) → Except Err (Fin N → K))
    (grid : UniformGrid K) (h : 3 ≤ grid.n.length) (m0 : List K) (inodes : List (List K)) (ws : List K)
    (dr : List K → List K) (g : List K → List K → List K → List K → List K) :
    ergodicDistIID solve grid m0 inodes ws dr g = .error (.exception "Unsupported.") := by
  unfold ergodicDistIID
  cases hn : grid.n with
  | nil => simp [hn] at h
  | cons a l =>
    cases l with
    | nil => simp [hn] at h
    | cons b l =>
      cases l with
      | nil => simp [hn] at h
      | cons c l => rfl


deriving instance DecidableEq for UniformGrid, ErgodicResult

/-- Cramer's rule for two equations, as an instance of `numpy.linalg.solve`. -/
def ergExSolve : (N : ℕ) → (Fin N → Fin N → ℚ) → (Fin N → ℚ) → Except Err (Fin N → ℚ)
  | 2, A, B =>
    let det := A 0 0 * A 1 1 - A 0 1 * A 1 0
    if det = 0 then .error .linAlgError
    else .ok fun i => if i = 0 then (B 0 * A 1 1 - A 0 1 * B 1) / det else (A 0 0 * B 1 - B 0 * A 1 0) / det
  | _, _, _ => .error .linAlgError

theorem ergExSolve_contract : SolveContract (ergExSolve 2) := by
  intro A B x h
  simp only [ergExSolve] at h
  by_cases hd : A 0 0 * A 1 1 - A 0 1 * A 1 0 = 0
  · simp [hd] at h
  · rw [if_neg hd] at h
    cases h
    constructor
    · intro i
      rw [Fin.sum_univ_two]
      fin_cases i
      · change A 0 0 * ((B 0 * A 1 1 - A 0 1 * B 1) / _) + A 0 1 * ((A 0 0 * B 1 - B 0 * A 1 0) / _) = B 0
        rw [mul_div_assoc', mul_div_assoc', ← add_div, div_eq_iff hd]
        ring
      · change A 1 0 * ((B 0 * A 1 1 - A 0 1 * B 1) / _) + A 1 1 * ((A 0 0 * B 1 - B 0 * A 1 0) / _) = B 1
        rw [mul_div_assoc', mul_div_assoc', ← add_div, div_eq_iff hd]
        ring
    · intro v hv j
      have h0 := hv 0
      have h1 := hv 1
      rw [Fin.sum_univ_two] at h0 h1
      have e0 : (A 0 0 * A 1 1 - A 0 1 * A 1 0) * v 0 = 0 := by linear_combination A 1 1 * h0 - A 0 1 * h1
      have e1 : (A 0 0 * A 1 1 - A 0 1 * A 1 0) * v 1 = 0 := by linear_combination A 0 0 * h1 - A 1 0 * h0
      fin_cases j
      · exact (mul_eq_zero.mp e0).resolve_left hd
      · exact (mul_eq_zero.mp e1).resolve_left hd

/-- Non-vacuity: a grid of two nodes over `[0, 3]`, one exogenous state, and the transition `s' = s / 3 + 1`,
which moves 0 to 1 and 3 to 2. -/
example : ∃ (grid : UniformGrid ℚ) (r : ErgodicResult ℚ), UniformGrid.mk' [0] [3] [2] = .ok grid ∧
    ergodicDistMC ergExSolve grid [[0]] [[1]] (fun _ _ => []) (fun _ s _ _ => [s.getD 0 0 / 3 + 1]) = .ok r ∧
    r.mu = [1 / 2, 1 / 2] ∧ r.labels = [[0, 3]] := by
  refine ⟨⟨[0], [3], [2], [[0], [3]]⟩, ⟨[[2 / 3, 1 / 3], [1 / 3, 2 / 3]], [1 / 2, 1 / 2], [[0, 3]]⟩, ?_, ?_, rfl, rfl⟩
  · decide +kernel
  · decide +kernel

end Dolo
