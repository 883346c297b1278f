import Mathlib.Tactic.IntervalCases
import Mathlib.Tactic.FinCases
import Verif.Lemmas.Relabel
import Verif.Model.Simulation
import Verif.Props.PFBounds

/-!
# C136: the order of variables, equations and grid points does not matter

`Permutes n σ` says that `σ` permutes `0, …, n - 1`; `VecIn n σ v' v`, `ArrIn N n δ σ x' x` and `FunIn` (Lemmas/Relabel)
say that a vector, an array or a function is another one with its entries in another order.
-/

set_option linter.unusedSectionVars false

namespace Dolo

section
variable {K : Type} [Field K] [LinearOrder K] [IsStrictOrderedRing K]

/-- **C136, `newton`.**  With points, unknowns and equations in any other order, `newton` from the reordered start makes
the same number of iterations, warns in the same cases, and returns the reordered point, provided that the Jacobians met
on the way are invertible. -/
theorem C136_newton {N n : ℕ} {δ π τ : ℕ → ℕ} (hδ : Permutes N δ) (hπ : Permutes n π) (hτ : Permutes n τ)
    {f f' : (ℕ → ℕ → K) → (ℕ → ℕ → K) × (ℕ → ℕ → ℕ → K)} (hf : FunIn N n δ π τ f' f) (tol : K) (maxit : ℕ)
    {x x' : ℕ → ℕ → K} (hx : ArrIn N n δ π x' x)
    (hns : ∀ j < maxit, ∀ p < N, Nonsingular n ((f ((serialProblem N n f).next^[j] x)).2 p)) :
    (newton (serialProblem N n f') tol maxit x').it = (newton (serialProblem N n f) tol maxit x).it ∧
    (newton (serialProblem N n f') tol maxit x').warned = (newton (serialProblem N n f) tol maxit x).warned ∧
    ArrIn N n δ π (newton (serialProblem N n f') tol maxit x').x (newton (serialProblem N n f) tol maxit x).x :=
  newtonLoop_relabel hδ hπ hτ hf tol maxit 0 x x' hx hns

/-- **C136, the function that `newton` gets.**  Numerical derivatives of a reordered function are the reordered
derivatives, so that the hypothesis of `C136_newton` on `f'` is met by wrapping reordered residuals. -/
theorem C136_derivatives {N n : ℕ} {δ π τ : ℕ → ℕ} (hδ : Permutes N δ) (hπ : Permutes n π) (hτ : Permutes n τ)
    {fn fn' : (ℕ → ℕ → K) → ℕ → ℕ → K} (h : ∀ x' x, ArrIn N n δ π x' x → ArrIn N n δ τ (fn' x') (fn x)) (eps : K) :
    FunIn N n δ π τ (diffFun N n (onRows N n fn') eps) (diffFun N n (onRows N n fn) eps) :=
  diffFun_relabel hδ hπ hτ h eps

end

/-- **C136, `ncpsolve`.**  The same with bounds, when every equation stays with its unknown. -/
theorem C136_ncpsolve {N n : ℕ} {δ π : ℕ → ℕ} (hδ : Permutes N δ) (hπ : Permutes n π)
    {f f' : (ℕ → ℕ → ℝ) → (ℕ → ℕ → ℝ) × (ℕ → ℕ → ℕ → ℝ)} (hf : FunIn N n δ π π f' f)
    {a a' b b' : ℕ → ℕ → Option ℝ} (ha : ArrIn N n δ π a' a) (hb : ArrIn N n δ π b' b) (tol : ℝ) (maxit : ℕ)
    {x x' : ℕ → ℕ → ℝ} (hx : ArrIn N n δ π x' x)
    (hns : ∀ j < maxit, ∀ p < N,
      Nonsingular n ((serialFcmp f a b ((serialProblem N n (serialFcmp f a b)).next^[j] x)).2 p)) :
    (serialNcpsolve N n f' a' b' tol maxit x').it = (serialNcpsolve N n f a b tol maxit x).it ∧
    (serialNcpsolve N n f' a' b' tol maxit x').warned = (serialNcpsolve N n f a b tol maxit x).warned ∧
    ArrIn N n δ π (serialNcpsolve N n f' a' b' tol maxit x').x (serialNcpsolve N n f a b tol maxit x).x :=
  C136_newton hδ hπ hπ (serialFcmp_relabel hπ hf ha hb) tol maxit hx hns

/-! ### Time iteration -/

/-- The orders of a model: exogenous variables, states, controls; exogenous nodes, grid points, and integration nodes. -/
structure Orders where
  exo : ℕ → ℕ
  sta : ℕ → ℕ
  con : ℕ → ℕ
  node : ℕ → ℕ
  point : ℕ → ℕ
  inode : ℕ → ℕ → ℕ

section
variable {K : Type} [Field K] [LinearOrder K] [IsStrictOrderedRing K]

/-- `M'` is the model `M`, with `ne` exogenous variables and `ns` states, written in other orders. -/
structure TIModel.In (M' M : TIModel K) (ne ns : ℕ) (o : Orders) : Prop where
  exo : Permutes ne o.exo
  sta : Permutes ns o.sta
  con : Permutes M.nx o.con
  node : Permutes M.dp.nNodes o.node
  point : Permutes M.N o.point
  inode : ∀ i < M.dp.nNodes, Permutes (M.dp.nInodes i) (o.inode i)
  N_eq : M'.N = M.N
  nx_eq : M'.nx = M.nx
  nodes_eq : M'.dp.nNodes = M.dp.nNodes
  grid : ∀ n < M.N, VecIn ns o.sta (M'.s n) (M.s (o.point n))
  start : VecIn M.nx o.con M'.x0 M.x0
  nodes : ∀ i < M.dp.nNodes, VecIn ne o.exo (M'.dp.node i) (M.dp.node (o.node i))
  inodes_eq : ∀ i < M.dp.nNodes, M'.dp.nInodes i = M.dp.nInodes (o.node i)
  inodes : ∀ i < M.dp.nNodes, ∀ j < M.dp.nInodes (o.node i),
    VecIn ne o.exo (M'.dp.inode i j) (M.dp.inode (o.node i) (o.inode (o.node i) j)) ∧
      M'.dp.iweight i j = M.dp.iweight (o.node i) (o.inode (o.node i) j)
  g : ∀ m' m s' s x' x e' e, VecIn ne o.exo m' m → VecIn ns o.sta s' s → VecIn M.nx o.con x' x → VecIn ne o.exo e' e →
    VecIn ns o.sta (M'.g m' s' x' e') (M.g m s x e)
  f : ∀ m' m s' s x' x e' e z' z y' y, VecIn ne o.exo m' m → VecIn ns o.sta s' s → VecIn M.nx o.con x' x →
    VecIn ne o.exo e' e → VecIn ns o.sta z' z → VecIn M.nx o.con y' y →
    VecIn M.nx o.con (M'.f m' s' x' e' z' y') (M.f m s x e z y)
  lb : (M'.lb = none ∧ M.lb = none) ∨ ∃ l' l, M'.lb = some l' ∧ M.lb = some l ∧
    ∀ m' m s' s, VecIn ne o.exo m' m → VecIn ns o.sta s' s → VecIn M.nx o.con (l' m' s') (l m s)
  ub : (M'.ub = none ∧ M.ub = none) ∨ ∃ u' u, M'.ub = some u' ∧ M.ub = some u ∧
    ∀ m' m s' s, VecIn ne o.exo m' m → VecIn ns o.sta s' s → VecIn M.nx o.con (u' m' s') (u m s)
  /-- interpolation of the reordered table gives reordered controls -/
  interp : ∀ t' t : Table K, (∀ i < M.dp.nNodes, ∀ n < M.N, VecIn M.nx o.con (t' i n) (t (o.node i) (o.point n))) →
    ∀ i < M.dp.nNodes, ∀ j < M.dp.nInodes (o.node i), ∀ s' s, VecIn ns o.sta s' s →
      VecIn M.nx o.con (M'.interp t' i j s') (M.interp t (o.node i) (o.inode (o.node i) j) s)

/-- The order of the rows `i * N + n`. -/
def Orders.row (o : Orders) (N : ℕ) (r : ℕ) : ℕ := o.node (r / N) * N + o.point (r % N)

theorem row_permutes {o : Orders} {nm N : ℕ} (hn : Permutes nm o.node) (hp : Permutes N o.point) :
    Permutes (nm * N) (o.row N) := by
  have key : ∀ r < nm * N, 0 < N ∧ r / N < nm ∧ r % N < N := by
    intro r hr
    have hN : 0 < N := Nat.pos_of_ne_zero fun h => by simp [h] at hr
    exact ⟨hN, Nat.div_lt_of_lt_mul (by rwa [Nat.mul_comm] at hr), Nat.mod_lt _ hN⟩
  have dm : ∀ a b, b < N → (a * N + b) / N = a ∧ (a * N + b) % N = b := by
    intro a b hb
    have hN : 0 < N := by omega
    constructor
    · rw [Nat.mul_comm, Nat.mul_add_div hN, Nat.div_eq_of_lt hb, Nat.add_zero]
    · rw [Nat.mul_comm, Nat.mul_add_mod, Nat.mod_eq_of_lt hb]
  refine ⟨fun r hr => ?_, fun r hr q hq e => ?_, fun r hr => ?_⟩
  · obtain ⟨-, h1, h2⟩ := key r hr
    have h3 := hn.lt h1
    have h4 := hp.lt h2
    have : (o.node (r / N) + 1) * N ≤ nm * N := Nat.mul_le_mul_right _ h3
    simp only [Set.mem_Iio, Orders.row]
    rw [Nat.add_mul] at this
    omega
  · obtain ⟨-, h1, h2⟩ := key r hr
    obtain ⟨-, h3, h4⟩ := key q hq
    simp only [Orders.row] at e
    have a := dm (o.node (r / N)) _ (hp.lt h2)
    have b := dm (o.node (q / N)) _ (hp.lt h4)
    rw [e] at a
    have e1 : r / N = q / N := hn.inj h1 h3 (a.1.symm.trans b.1)
    have e2 : r % N = q % N := hp.inj h2 h4 (a.2.symm.trans b.2)
    rw [← Nat.div_add_mod r N, ← Nat.div_add_mod q N, e1, e2]
  · obtain ⟨-, h1, h2⟩ := key r hr
    obtain ⟨i, hi, ei⟩ := hn.surj h1
    obtain ⟨k, hk, ek⟩ := hp.surj h2
    refine ⟨i * N + k, ?_, ?_⟩
    · have : (i + 1) * N ≤ nm * N := Nat.mul_le_mul_right _ hi
      rw [Nat.add_mul] at this
      simp only [Set.mem_Iio]
      omega
    · simp only [Orders.row]
      rw [(dm i k hk).1, (dm i k hk).2, ei, ek, Nat.mul_comm, Nat.div_add_mod]

theorem foldl_add_sum (w : ℕ → K) (n : ℕ) : (List.range n).foldl (fun r j => r + w j) 0 = ∑ j ∈ Finset.range n, w j := by
  induction n with
  | zero => rfl
  | succ n ih => rw [List.range_succ, List.foldl_append, ih, Finset.sum_range_succ]; rfl

variable {M' M : TIModel K} {ne ns : ℕ} {o : Orders}

/-- A table read as rows. -/
theorem table_of_rows (h : M'.In M ne ns o) {x' x : ℕ → ℕ → K}
    (hx : ArrIn (M.dp.nNodes * M.N) M.nx (o.row M.N) o.con x' x) :
    ∀ i < M.dp.nNodes, ∀ n < M.N,
      VecIn M.nx o.con (ofRows M.N x' i n) (ofRows M.N x (o.node i) (o.point n)) := by
  intro i hi n hn
  have h1 : i * M.N + n < M.dp.nNodes * M.N := by
    have : (i + 1) * M.N ≤ M.dp.nNodes * M.N := Nat.mul_le_mul_right _ hi
    rw [Nat.add_mul] at this
    omega
  have := hx _ h1
  have hN : 0 < M.N := by omega
  have e1 : (i * M.N + n) / M.N = i := by
    rw [Nat.mul_comm, Nat.mul_add_div hN, Nat.div_eq_of_lt hn, Nat.add_zero]
  have e2 : (i * M.N + n) % M.N = n := by rw [Nat.mul_comm, Nat.mul_add_mod, Nat.mod_eq_of_lt hn]
  rw [Orders.row, e1, e2] at this
  exact this

theorem rows_of_table (h : M'.In M ne ns o) {α : Type} {t' t : ℕ → ℕ → ℕ → α}
    (ht : ∀ i < M.dp.nNodes, ∀ n < M.N, VecIn M.nx o.con (t' i n) (t (o.node i) (o.point n))) :
    ArrIn (M.dp.nNodes * M.N) M.nx (o.row M.N) o.con (toRows M.N t') (toRows M.N t) := by
  intro r hr
  have hN : 0 < M.N := Nat.pos_of_ne_zero fun h => by simp [h] at hr
  have h1 : r / M.N < M.dp.nNodes := Nat.div_lt_of_lt_mul (by rwa [Nat.mul_comm] at hr)
  have h2 := Nat.mod_lt r hN
  have e1 : (o.node (r / M.N) * M.N + o.point (r % M.N)) / M.N = o.node (r / M.N) := by
    rw [Nat.mul_comm, Nat.mul_add_div hN, Nat.div_eq_of_lt (h.point.lt h2), Nat.add_zero]
  have e2 : (o.node (r / M.N) * M.N + o.point (r % M.N)) % M.N = o.point (r % M.N) := by
    rw [Nat.mul_comm, Nat.mul_add_mod, Nat.mod_eq_of_lt (h.point.lt h2)]
  have := ht _ h1 _ h2
  intro k hk
  simp only [toRows, Orders.row]
  rw [e1, e2]
  exact this k hk

/-- **C136, residuals.**  The residuals of the reordered model at the reordered table are the reordered residuals: sums
over integration nodes are taken in another order, everything else is the same. -/
theorem C136_residuals (h : M'.In M ne ns o) {t' t c' c : Table K}
    (ht : ∀ i < M.dp.nNodes, ∀ n < M.N, VecIn M.nx o.con (t' i n) (t (o.node i) (o.point n)))
    (hc : ∀ i < M.dp.nNodes, ∀ n < M.N, VecIn M.nx o.con (c' i n) (c (o.node i) (o.point n))) :
    ∀ i < M.dp.nNodes, ∀ n < M.N, VecIn M.nx o.con
      (residualsSimple M'.f M'.g M'.s t' (M'.interp c') M'.dp i n)
      (residualsSimple M.f M.g M.s t (M.interp c) M.dp (o.node i) (o.point n)) := by
  intro i hi n hn k hk
  unfold residualsSimple
  simp only
  rw [foldl_add_sum (fun j => M'.dp.iweight i j * M'.f (M'.dp.node i) (M'.s n) (t' i n) (M'.dp.inode i j)
      (M'.g (M'.dp.node i) (M'.s n) (t' i n) (M'.dp.inode i j))
      (M'.interp c' i j (M'.g (M'.dp.node i) (M'.s n) (t' i n) (M'.dp.inode i j))) k),
    foldl_add_sum (fun j => M.dp.iweight (o.node i) j * M.f (M.dp.node (o.node i)) (M.s (o.point n))
      (t (o.node i) (o.point n)) (M.dp.inode (o.node i) j)
      (M.g (M.dp.node (o.node i)) (M.s (o.point n)) (t (o.node i) (o.point n)) (M.dp.inode (o.node i) j))
      (M.interp c (o.node i) j (M.g (M.dp.node (o.node i)) (M.s (o.point n)) (t (o.node i) (o.point n))
        (M.dp.inode (o.node i) j))) (o.con k)),
    h.inodes_eq i hi, ← (h.inode _ (h.node.lt hi)).sum fun j => M.dp.iweight (o.node i) j * M.f (M.dp.node (o.node i))
      (M.s (o.point n)) (t (o.node i) (o.point n)) (M.dp.inode (o.node i) j)
      (M.g (M.dp.node (o.node i)) (M.s (o.point n)) (t (o.node i) (o.point n)) (M.dp.inode (o.node i) j))
      (M.interp c (o.node i) j (M.g (M.dp.node (o.node i)) (M.s (o.point n)) (t (o.node i) (o.point n))
        (M.dp.inode (o.node i) j))) (o.con k)]
  refine Finset.sum_congr rfl fun j hj => ?_
  have hj := Finset.mem_range.1 hj
  obtain ⟨h1, h2⟩ := h.inodes i hi j hj
  have hg := h.g _ _ _ _ _ _ _ _ (h.nodes i hi) (h.grid n hn) (ht i hi n hn) h1
  have hX := h.interp c' c hc i hi j hj _ _ hg
  rw [h2, h.f _ _ _ _ _ _ _ _ _ _ _ _ (h.nodes i hi) (h.grid n hn) (ht i hi n hn) h1 hg hX k hk]

end

/-- The function solved by the inner solver in an iteration of `time_iteration` from `controls_0`. -/
noncomputable def tiInner (M : TIModel ℝ) (eps : ℝ) (b : Option ((ℕ → ℕ → Option ℝ) × (ℕ → ℕ → Option ℝ)))
    (controls_0 : ℕ → ℕ → ℝ) : (ℕ → ℕ → ℝ) → (ℕ → ℕ → ℝ) × (ℕ → ℕ → ℕ → ℝ) :=
  let R := M.dp.nNodes * M.N
  let f := diffFun R M.nx (onRows R M.nx (tiFn M controls_0)) eps
  b.elim f fun lu => serialFcmp f lu.1 lu.2

/-- All Jacobians met in a run of `time_iteration` from `x0` are invertible: in outer iteration `k`, inner iteration `j`,
at row `p`. -/
def RegularRun (M : TIModel ℝ) (S : TISolvers ℝ) (eps : ℝ) (b : Option ((ℕ → ℕ → Option ℝ) × (ℕ → ℕ → Option ℝ)))
    (x0 : ℕ → ℕ → ℝ) : Prop :=
  ∀ k j : ℕ, ∀ p < M.dp.nNodes * M.N, Nonsingular M.nx
    ((tiInner M eps b ((tiUpdate M S b)^[k] x0)
      ((serialProblem (M.dp.nNodes * M.N) M.nx (tiInner M eps b ((tiUpdate M S b)^[k] x0))).next^[j]
        ((tiUpdate M S b)^[k] x0))).2 p)

section
variable {M' M : TIModel ℝ} {ne ns : ℕ} {o : Orders}

theorem tiFn_relabel (h : M'.In M ne ns o) {c' c : ℕ → ℕ → ℝ}
    (hc : ArrIn (M.dp.nNodes * M.N) M.nx (o.row M.N) o.con c' c) (x' x : ℕ → ℕ → ℝ)
    (hx : ArrIn (M.dp.nNodes * M.N) M.nx (o.row M.N) o.con x' x) :
    ArrIn (M.dp.nNodes * M.N) M.nx (o.row M.N) o.con (tiFn M' c' x') (tiFn M c x) := by
  unfold tiFn
  rw [h.N_eq]
  exact rows_of_table h (C136_residuals h (table_of_rows h hx) (table_of_rows h hc))

/-- Bounds of the two models. -/
def BoundsIn (M : TIModel ℝ) (o : Orders) (b' b : Option ((ℕ → ℕ → Option ℝ) × (ℕ → ℕ → Option ℝ))) : Prop :=
  (b' = none ∧ b = none) ∨ ∃ lu' lu, b' = some lu' ∧ b = some lu ∧
    ArrIn (M.dp.nNodes * M.N) M.nx (o.row M.N) o.con lu'.1 lu.1 ∧
    ArrIn (M.dp.nNodes * M.N) M.nx (o.row M.N) o.con lu'.2 lu.2

theorem tiUpdate_relabel (h : M'.In M ne ns o) {eps nt ct : ℝ} {inner : ℕ}
    {b' b : Option ((ℕ → ℕ → Option ℝ) × (ℕ → ℕ → Option ℝ))} (hb : BoundsIn M o b' b) {c' c : ℕ → ℕ → ℝ}
    (hc : ArrIn (M.dp.nNodes * M.N) M.nx (o.row M.N) o.con c' c)
    (hns : ∀ j < inner, ∀ p < M.dp.nNodes * M.N, Nonsingular M.nx
      ((tiInner M eps b c ((serialProblem (M.dp.nNodes * M.N) M.nx (tiInner M eps b c)).next^[j] c)).2 p)) :
    ArrIn (M.dp.nNodes * M.N) M.nx (o.row M.N) o.con
      (tiUpdate M' (tiSolvers (M.dp.nNodes * M.N) M.nx eps nt ct inner) b' c')
      (tiUpdate M (tiSolvers (M.dp.nNodes * M.N) M.nx eps nt ct inner) b c) := by
  have hrow := row_permutes h.node h.point
  have hd := C136_derivatives (K := ℝ) hrow h.con h.con (tiFn_relabel h hc) eps
  rcases hb with ⟨rfl, rfl⟩ | ⟨lu', lu, rfl, rfl, h1, h2⟩
  · exact (C136_newton hrow h.con h.con hd nt inner hc hns).2.2
  · exact (C136_ncpsolve hrow h.con hd h1 h2 ct inner hc hns).2.2

theorem tiLoop_relabel {X X' : Type} (R : X' → X → Prop) (u' : X' → X') (u : X → X) (d' : X' → X' → ℝ) (d : X → X → ℝ)
    (hd : ∀ a' a b' b, R a' a → R b' b → d' a' b' = d a b) (tol : ℝ) (k : ℕ) :
    ∀ (it : ℕ) (err : ℝ) (x' : X') (x : X) (l' : Option X') (l : Option X), R x' x →
      ((l' = none ∧ l = none) ∨ ∃ a' a, l' = some a' ∧ l = some a ∧ R a' a) →
      (∀ j a', R a' (u^[j] x) → R (u' a') (u (u^[j] x))) →
      (tiLoop u' d' tol k it err x' l').1 = (tiLoop u d tol k it err x l).1 ∧
      (tiLoop u' d' tol k it err x' l').2.1 = (tiLoop u d tol k it err x l).2.1 ∧
      (((tiLoop u' d' tol k it err x' l').2.2 = none ∧ (tiLoop u d tol k it err x l).2.2 = none) ∨
        ∃ a' a, (tiLoop u' d' tol k it err x' l').2.2 = some a' ∧ (tiLoop u d tol k it err x l).2.2 = some a ∧ R a' a) := by
  induction k with
  | zero => intro it err x' x l' l _ hl _; exact ⟨rfl, rfl, hl⟩
  | succ k ih =>
    intro it err x' x l' l hx hl hu
    rw [tiLoop, tiLoop]
    by_cases he : err > tol
    · rw [if_pos he, if_pos he]
      have h1 := hu 0 x' hx
      simp only [Function.iterate_zero, id_eq] at h1
      simp only [hd _ _ _ _ h1 hx]
      refine ih _ _ _ _ _ _ h1 (Or.inr ⟨_, _, rfl, rfl, h1⟩) fun j a' ha => ?_
      have := hu (j + 1) a'
      rw [Function.iterate_succ_apply] at this
      exact this ha
    · rw [if_neg he, if_neg he]
      exact ⟨rfl, rfl, hl⟩

/-- **C136, `time_iteration`.**  Whatever the orders in which exogenous variables, states and controls (with their equations
and bounds) are declared, and in which grid points, exogenous nodes and integration nodes are therefore listed, and whatever
the options (from the default initial guess): the two runs raise the same exception, or make the same number of iterations,
report the same error and the same status, and return the same controls, in the other order. -/
theorem C136_time_iteration (h : M'.In M ne ns o) (eps nt ct : ℝ) (inner : ℕ) (opts : TIOpts ℝ) (hdr : opts.dr0 = none)
    (hreg : ∀ b, tiBounds M opts = .ok b →
      RegularRun M (tiSolvers (M.dp.nNodes * M.N) M.nx eps nt ct inner) eps b (toRows M.N fun _ _ k => M.x0 k)) :
    (∃ e, timeIterationFull M' (tiSolvers (M.dp.nNodes * M.N) M.nx eps nt ct inner) opts = .error e ∧
      timeIterationFull M (tiSolvers (M.dp.nNodes * M.N) M.nx eps nt ct inner) opts = .error e) ∨
    ∃ r' r, timeIterationFull M' (tiSolvers (M.dp.nNodes * M.N) M.nx eps nt ct inner) opts = .ok r' ∧
      timeIterationFull M (tiSolvers (M.dp.nNodes * M.N) M.nx eps nt ct inner) opts = .ok r ∧
      r'.iterations = r.iterations ∧ r'.err = r.err ∧ r'.x_converged = r.x_converged ∧
      r'.complementarities = r.complementarities ∧
      ∀ i < M.dp.nNodes, ∀ n < M.N, ∀ k < M.nx, r'.dr i n k = r.dr (o.node i) (o.point n) (o.con k) := by
  have hi : ∀ m : TIModel ℝ, tiInit m opts = .ok fun _ _ k => m.x0 k := fun m => by unfold tiInit; rw [hdr]
  have hb : (∃ e, tiBounds M' opts = .error e ∧ tiBounds M opts = .error e) ∨
      ∃ b' b, tiBounds M' opts = .ok b' ∧ tiBounds M opts = .ok b ∧ BoundsIn M o b' b := by
    unfold tiBounds
    rcases h.lb with ⟨e1, e2⟩ | ⟨l', l, e1, e2, hl⟩
    · rw [e1, e2]
      exact .inr ⟨none, none, rfl, rfl, .inl ⟨rfl, rfl⟩⟩
    · rw [e1, e2]
      simp only
      by_cases hw : opts.wanted = true
      · rw [if_pos hw, if_pos hw]
        rcases h.ub with ⟨e3, e4⟩ | ⟨u', u, e3, e4, hu⟩
        · rw [e3, e4]
          exact .inl ⟨_, rfl, rfl⟩
        · rw [e3, e4, h.N_eq]
          refine .inr ⟨_, _, rfl, rfl, .inr ⟨_, _, rfl, rfl, ?_, ?_⟩⟩
          · refine rows_of_table h (t' := fun i n => l' (M'.dp.node i) (M'.s n))
              (t := fun i n => l (M.dp.node i) (M.s n)) fun i hi n hn => ?_
            exact hl _ _ _ _ (h.nodes i hi) (h.grid n hn)
          · refine rows_of_table h (t' := fun i n => u' (M'.dp.node i) (M'.s n))
              (t := fun i n => u (M.dp.node i) (M.s n)) fun i hi n hn => ?_
            exact hu _ _ _ _ (h.nodes i hi) (h.grid n hn)
      · rw [if_neg hw, if_neg hw]
        exact .inr ⟨none, none, rfl, rfl, .inl ⟨rfl, rfl⟩⟩
  unfold timeIterationFull
  rw [hi M', hi M]
  rcases hb with ⟨e, e1, e2⟩ | ⟨b', b, e1, e2, hbb⟩
  · rw [e1, e2]
    exact .inl ⟨e, rfl, rfl⟩
  rw [e1, e2, h.N_eq, h.nx_eq, h.nodes_eq]
  have hreg := hreg b e2
  generalize hS : tiSolvers (M.dp.nNodes * M.N) M.nx eps nt ct inner = S at hreg ⊢
  have hx0 : ArrIn (M.dp.nNodes * M.N) M.nx (o.row M.N) o.con (toRows M.N fun _ _ k => M'.x0 k)
      (toRows M.N fun _ _ k => M.x0 k) := rows_of_table h fun _ _ _ _ => h.start
  obtain ⟨g1, g2, g3⟩ := tiLoop_relabel (ArrIn (M.dp.nNodes * M.N) M.nx (o.row M.N) o.con) (tiUpdate M' S b')
    (tiUpdate M S b) (fun a b => maxAbs (M.dp.nNodes * M.N) M.nx fun r k => a r k - b r k)
    (fun a b => maxAbs (M.dp.nNodes * M.N) M.nx fun r k => a r k - b r k)
    (fun a' a b' b ha hb => maxAbs_relabel (row_permutes h.node h.point) h.con fun p hp i hi => by
      simp only [ha p hp i hi, hb p hp i hi]) opts.tol opts.maxit 0 10 _ _ none none hx0 (.inl ⟨rfl, rfl⟩)
    (fun j a' ha => by
      subst hS
      exact tiUpdate_relabel h hbb ha fun q _ p hp => hreg j q p hp)
  have hiso : b'.isSome = b.isSome := by
    rcases hbb with ⟨rfl, rfl⟩ | ⟨_, _, rfl, rfl, -, -⟩ <;> rfl
  simp only [timeIteration, bind, Except.bind]
  generalize tiLoop (tiUpdate M' S b') (fun a b => maxAbs (M.dp.nNodes * M.N) M.nx fun r k => a r k - b r k) opts.tol
    opts.maxit 0 10 (toRows M.N fun _ _ k => M'.x0 k) none = R' at g1 g2 g3 ⊢
  generalize tiLoop (tiUpdate M S b) (fun a b => maxAbs (M.dp.nNodes * M.N) M.nx fun r k => a r k - b r k) opts.tol
    opts.maxit 0 10 (toRows M.N fun _ _ k => M.x0 k) none = R at g1 g2 g3 ⊢
  obtain ⟨it', err', l'⟩ := R'
  obtain ⟨it, err, l⟩ := R
  simp only at g1 g2 g3
  subst g1 g2
  rcases g3 with ⟨rfl, rfl⟩ | ⟨a', a, rfl, rfl, ha⟩
  · exact .inl ⟨.nameError, rfl, rfl⟩
  · exact .inr ⟨_, _, rfl, rfl, rfl, rfl, rfl, hiso, fun i hi n hn => table_of_rows h ha i hi n hn⟩

end

/-! ### Simulation -/

/-- **C136, `simulate`.**  With states, controls and exogenous variables in other orders (`S`, `X`, `E` turn a vector into
the reordered one), the reordered rule and transitions give the reordered path, or the same exception. -/
theorem C136_simulate {A B C A' B' C' : Type} (E : A → A') (S : B → B') (X : C → C')
    (g : A → B → C → A → B) (g' : A' → B' → C' → A' → B') (dr : A → B → C) (dr' : A' → B' → C')
    (hg : ∀ m s x e, g' (E m) (S s) (X x) (E e) = S (g m s x e)) (hdr : ∀ m s, dr' (E m) (S s) = X (dr m s))
    (s0 : B) (m0 : A) (T : ℕ) (ms : List A) :
    simulateProcess g' dr' (S s0) (E m0) T (ms.map E)
      = (simulateProcess g dr s0 m0 T ms).map fun path => path.map fun sx => (S sx.1, X sx.2) := by
  have key : ∀ (l : List A) (m : A) (s : B), simLoop g' dr' (E m) (S s) (l.map E)
      = (simLoop g dr m s l).map fun sx => (S sx.1, X sx.2) := by
    intro l
    induction l with
    | nil => intro m s; rfl
    | cons a l ih =>
      intro m s
      simp only [List.map_cons, simLoop, hdr, hg, ih]
  unfold simulateProcess firstRows
  by_cases hT : T = 0
  · simp [hT, Except.map]
  · rw [if_neg hT, if_neg hT, List.length_map]
    by_cases hl : ms.length < T
    · rw [if_pos hl, if_pos hl]; rfl
    · rw [if_neg hl, if_neg hl]
      simp only [bind, Except.bind, pure, Except.pure, Except.map, ← List.map_take, key]

/-! ### Perfect foresight -/

/-- **C136, `deterministic_solve`, the equations.**  The stacked system of the reordered model is the reordered system. -/
theorem C136_stacked_system {K S X E S' X' E' : Type} [Field K] (eS : S' ≃ S) (eX : X' ≃ X) (eE : E' ≃ E)
    (g : (E → K) → (S → K) → (X → K) → (E → K) → S → K)
    (g' : (E' → K) → (S' → K) → (X' → K) → (E' → K) → S' → K)
    (f : (E → K) → (S → K) → (X → K) → (E → K) → (S → K) → (X → K) → X → K)
    (f' : (E' → K) → (S' → K) → (X' → K) → (E' → K) → (S' → K) → (X' → K) → X' → K)
    (hg : ∀ m s x e, g' (m ∘ eE) (s ∘ eS) (x ∘ eX) (e ∘ eE) = g m s x e ∘ eS)
    (hf : ∀ m s x e z y, f' (m ∘ eE) (s ∘ eS) (x ∘ eX) (e ∘ eE) (z ∘ eS) (y ∘ eX) = f m s x e z y ∘ eX)
    (N : ℕ) (guess : ℕ → S ⊕ X → K) (start : S → K) (shocks : ℕ → E → K) :
    detResidual g' f' N (fun t => guess t ∘ Sum.map eS eX) (start ∘ eS) (fun t => shocks t ∘ eE)
      = (detResidual g f N guess start shocks).map fun r t => r t ∘ Sum.map eS eX := by
  unfold detResidual
  by_cases hN : N < 2
  · rw [if_pos hN, if_pos hN]; rfl
  · rw [if_neg hN, if_neg hN]
    simp only [Except.map]
    congr 1
    funext t c
    have e1 : ∀ t, stOf (fun t => guess t ∘ Sum.map eS eX) t = stOf guess t ∘ eS := fun t => rfl
    have e2 : ∀ t, ctOf (fun t => guess t ∘ Sum.map eS eX) t = ctOf guess t ∘ eX := fun t => rfl
    simp only [e1, e2, hg, hf]
    rcases c with c | c <;> simp only [putRows, Sum.getLeft?, Sum.getRight?, Function.comp_apply, Sum.map_inl, Sum.map_inr]

/-- **C136 fails for the check of the bounds in `deterministic_solve`**: two controls, the first without bounds, the second
with a bound that varies along the guess.  In this order the bounds are accepted; with the two controls exchanged the same
model is refused. -/
theorem C136_bounds_check_fails : ∃ (T : ℕ) (lb ub : ℕ → Fin 2 → XF),
    checkBounds T lb ub = .ok () ∧
    checkBounds T (fun t k => lb t (Equiv.swap 0 1 k)) (fun t k => ub t (Equiv.swap 0 1 k))
      = .error (.exception boundsMessage) := by
  have hz : ∀ t k, (fun (_ : ℕ) (k : Fin 2) => if k = 0 then XF.ninf else .fin 0) t k ≠ .nan := fun _ k => by
    dsimp only; split_ifs <;> simp
  have hu : ∀ t k, (fun (t : ℕ) (k : Fin 2) => if k = 0 then XF.pinf else .fin t) t k ≠ .nan := fun _ k => by
    dsimp only; split_ifs <;> simp
  refine ⟨1, fun _ k => if k = 0 then .ninf else .fin 0, fun t k => if k = 0 then .pinf else .fin t, ?_, ?_⟩
  · obtain ⟨h1, h2⟩ := C127_refused_iff 1 (fun (_ : ℕ) (k : Fin 2) => if k = 0 then XF.ninf else .fin 0)
      (fun (t : ℕ) (k : Fin 2) => if k = 0 then XF.pinf else .fin t) (fun t _ => hz t) (fun t _ => hu t)
    refine h2 fun h3 => ?_
    rcases h1.1 h3 with ⟨h4, -⟩ | ⟨h4, -⟩
    · exact h4 (by first | exact .inl fun _ _ => rfl | exact .inr fun _ _ => rfl)
    · exact h4 (by first | exact .inl fun _ _ => rfl | exact .inr fun _ _ => rfl)
  · refine (C127_refused_iff 1 _ _ (fun t _ k => hz t _) (fun t _ k => hu t _)).1.2 (.inr ⟨?_, 0, 1, le_rfl, 0, by norm_num, ?_⟩)
    · rintro (h | h)
      · have := h 0 (by norm_num); simp at this
      · have := h 0 (by norm_num); simp at this
    · simp [XF.sub, XF.gt]
      norm_num

/-! ### Witnesses -/

/-- A model with two states, two controls and two grid points. -/
noncomputable def demoOrder (c : ℕ → ℝ) (s : ℕ → ℕ → ℝ) : TIModel ℝ where
  N := 2
  s := s
  nx := 2
  x0 := c
  dp := ⟨1, fun _ => 1, fun _ _ => 0, fun _ _ _ => 0, fun _ _ => 1⟩
  f := fun _ s x _ _ X k => x k - s k - X k / 4 - c k
  g := fun _ s x _ k => s k / 2 + x k
  lb := none
  ub := none
  interp := fun t i _ s k => t i 0 k + t i 1 k + s k

/-- States, controls and grid points in the reverse order. -/
def demoOrders : Orders := ⟨id, fun k => 1 - k, fun k => 1 - k, id, fun k => 1 - k, fun _ => id⟩

theorem permutes_flip : Permutes 2 (fun k => 1 - k) := by
  refine ⟨fun k hk => ?_, fun k hk l hl e => ?_, fun k hk => ⟨1 - k, ?_, ?_⟩⟩ <;>
    simp only [Set.mem_Iio] at * <;> omega

theorem permutes_id (n : ℕ) : Permutes n id := Set.bijOn_id _

theorem demo_in : (demoOrder (fun k => ((1 - k : ℕ) : ℝ)) (fun n k => ((1 - n : ℕ) : ℝ) + 10 * ((1 - k : ℕ) : ℝ))).In
    (demoOrder (fun k => (k : ℝ)) (fun n k => (n : ℝ) + 10 * (k : ℝ))) 1 2 demoOrders where
  exo := permutes_id _
  sta := permutes_flip
  con := permutes_flip
  node := permutes_id _
  point := permutes_flip
  inode := fun _ _ => permutes_id _
  N_eq := rfl
  nx_eq := rfl
  nodes_eq := rfl
  grid := fun _ _ _ _ => rfl
  start := fun _ _ => rfl
  nodes := fun _ _ _ _ => rfl
  inodes_eq := fun _ _ => rfl
  inodes := fun _ _ _ _ => ⟨fun _ _ => rfl, rfl⟩
  g := fun m' m s' s x' x e' e _ hs hx _ k hk => by
    change s' k / 2 + x' k = _
    rw [hs k hk, hx k hk]; rfl
  f := fun m' m s' s x' x e' e z' z y' y _ hs hx _ _ hy k hk => by
    change x' k - s' k - y' k / 4 - ((1 - k : ℕ) : ℝ) = _
    rw [hs k hk, hx k hk, hy k hk]; rfl
  lb := .inl ⟨rfl, rfl⟩
  ub := .inl ⟨rfl, rfl⟩
  interp := fun t' t ht i hi j _ s' s hs k hk => by
    change t' i 0 k + t' i 1 k + s' k = t i 0 (1 - k) + t i 1 (1 - k) + s (1 - k)
    have h0 : t' i 0 k = t i 1 (1 - k) := ht i hi 0 (by norm_num [demoOrder]) k hk
    have h1 : t' i 1 k = t i 0 (1 - k) := ht i hi 1 (by norm_num [demoOrder]) k hk
    have h2 : s' k = s (1 - k) := hs k hk
    rw [h0, h1, h2]
    ring

/-- The Jacobians of this model are three quarters of the identity, at all points, so that the hypotheses of `C136_time_iteration` are met. -/
example (S : TISolvers ℝ) (eps : ℝ) (he : eps ≠ 0) (x0 : ℕ → ℕ → ℝ) :
    RegularRun (demoOrder (fun k => (k : ℝ)) (fun n k => (n : ℝ) + 10 * (k : ℝ))) S eps none x0 := by
  intro k j p hp
  generalize (tiUpdate (demoOrder (fun k => (k : ℝ)) (fun n k => (n : ℝ) + 10 * (k : ℝ))) S none)^[k] x0 = c
  generalize ((serialProblem _ _ (tiInner (demoOrder (fun k => (k : ℝ)) (fun n k => (n : ℝ) + 10 * (k : ℝ))) eps none
    c)).next^[j] c) = z
  intro v hv i hi
  have hp : p < 2 := hp
  have hi : i < 2 := hi
  have e : ∀ l < 2, ∀ q < 2, (tiInner (demoOrder (fun k => (k : ℝ)) (fun n k => (n : ℝ) + 10 * (k : ℝ))) eps none c z).2 p l q
      = if l = q then 3 / 4 else 0 := by
    intro l hl q hq
    have := (diffFun_onRows (K := ℝ) (N := 2) (n := 2)
      (tiFn (demoOrder (fun k => (k : ℝ)) (fun n k => (n : ℝ) + 10 * (k : ℝ))) c) eps z hp hl).2 q hq
    have hmod : p / 2 * 2 + p % 2 = p := by omega
    have ht : tiInner (demoOrder (fun k => (k : ℝ)) (fun n k => (n : ℝ) + 10 * (k : ℝ))) eps none c
        = diffFun 2 2 (onRows 2 2 (tiFn (demoOrder (fun k => (k : ℝ)) (fun n k => (n : ℝ) + 10 * (k : ℝ))) c)) eps := by
      unfold tiInner
      rfl
    rw [ht, this]
    simp only [tiFn, demoOrder, toRows, ofRows, residualsSimple, List.range_one, List.foldl_cons, List.foldl_nil, hmod,
      rowAt_rowsOf _ hp hl]
    by_cases h : l = q
    · subst h
      simp only [if_true]
      rw [div_eq_iff he]
      ring
    · simp [h]
  have h1 := hv i hi
  rw [show (demoOrder (fun k => (k : ℝ)) (fun n k => (n : ℝ) + 10 * (k : ℝ))).nx = 2 from rfl,
    Finset.sum_congr rfl (fun q hq => by rw [e i hi q (Finset.mem_range.1 hq)])] at h1
  simpa [hi] using h1

end Dolo
