import Verif.Lemmas.ItiConv

/-!
# C123: improved time iteration converges near a regular solution
-/

set_option linter.unusedSectionVars false

namespace Dolo

open Filter Topology

noncomputable section

/-- The controls at all grid points, as a vector. -/
abbrev Ctrl (P : ItiProblem) : Type := Fin (P.nm * P.N * P.nx) → ℝ

/-- A vector of controls as an array. -/
abbrev ItiProblem.tab (P : ItiProblem) (v : Ctrl P) : Table ℝ := reshape3 P.nm P.N P.nx v

/-- The residuals of the arbitrage equations, as a function of today's controls and of tomorrow's rule. -/
def ItiProblem.euler (P : ItiProblem) (p : Ctrl P × Ctrl P) : Ctrl P :=
  flatten3 P.nm P.N P.nx (residualsSimple P.f P.g P.s (P.tab p.1) (P.interp (P.tab p.2)) P.dp)

/-- `xs` is a regular solution of the model.  The conditions on bounds are those of strict complementarity. -/
structure ItiRegular (P : ItiProblem) (xs : Ctrl P) : Prop where
  /-- there is something to solve -/
  size : 0 < P.nm * P.N * P.nx
  /-- interpolation is linear in the values, and uses the values on the grid only -/
  linear : InterpLinear P.interp
  local_ : ∀ t u : Table ℝ, (∀ i < P.nm, ∀ n < P.N, ∀ k < P.nx, t i n k = u i n k) → P.interp t = P.interp u
  /-- the residuals are continuously differentiable -/
  smooth : ContDiffAt ℝ 1 P.euler (xs, xs)
  /-- the derivatives computed are those of the residuals -/
  deriv : ∀ᶠ v in 𝓝 xs, ItiDeriv P.nm P.nim P.N P.nx P.f P.g P.s P.interp P.dp v (P.dres (P.tab v)) (P.jres (P.tab v))
  /-- the equations hold at `xs` -/
  zero : P.constrained = false → ∀ i < P.nm, ∀ n < P.N, ∀ k < P.nx, P.raw (P.tab xs) i n k = 0
  /-- with complementarities: the conditions hold at `xs` ... -/
  mcp : P.constrained = true → ∀ i < P.nm, ∀ n < P.N, ∀ k < P.nx,
    SolvesMCP (P.lb i n k) (P.ub i n k) (P.tab xs i n k) (P.raw (P.tab xs) i n k)
  /-- ... bounds are different, residuals are not zero at the bounds, and slacks are not at the threshold from which
  bounds are considered infinite -/
  strict : P.constrained = true → ∀ i < P.nm, ∀ n < P.N, ∀ k < P.nx,
    (∀ l ∈ P.lb i n k, ∀ u ∈ P.ub i n k, l < u) ∧
    (∀ l ∈ P.lb i n k, (P.tab xs i n k = l → P.raw (P.tab xs) i n k ≠ 0) ∧ P.tab xs i n k - l ≠ 100000) ∧
    (∀ u ∈ P.ub i n k, (P.tab xs i n k = u → P.raw (P.tab xs) i n k ≠ 0) ∧ u - P.tab xs i n k ≠ 100000)
  /-- the small linear systems are not singular -/
  nonsingular : ∀ i < P.nm, ∀ n < P.N, Nonsingular P.nx ((P.arrays (P.tab xs)).dres i n)

/-- The solver of the small systems solves those that are not singular. -/
def ItiSolvers.Exact (S : ItiSolvers) (nx : ℕ) : Prop :=
  ∀ A b, Nonsingular nx A → Solves nx A b (S.solve A b)

/-- The matrix of the operator `Operator(jres, fut_S, ddr_filt)` at the rule `v`: with the derivatives after the treatment
of complementarities and the multiplication by the inverse of `dres`. -/
def ItiProblem.opMatrix (P : ItiProblem) (S : ItiSolvers) (v : Ctrl P) :
    Matrix (Fin (P.nm * P.N * P.nx)) (Fin (P.nm * P.N * P.nx)) ℝ :=
  reportedMatrix P.nm P.nim P.N P.nx P.g P.s P.interp P.dp v (premultiplied S (P.arrays (P.tab v)))

/-! ### The residual of the main loop -/

variable {P : ItiProblem} {xs : Ctrl P}

private def ii (P : ItiProblem) (r : Fin (P.nm * P.N * P.nx)) : ℕ := r.1 / P.nx / P.N
private def nn (P : ItiProblem) (r : Fin (P.nm * P.N * P.nx)) : ℕ := r.1 / P.nx % P.N
private def kk (P : ItiProblem) (r : Fin (P.nm * P.N * P.nx)) : ℕ := r.1 % P.nx

private theorem tab_r (v : Ctrl P) (r) : P.tab v (ii P r) (nn P r) (kk P r) = v r := by
  obtain ⟨h1, h2, h3, h4⟩ := flat3_of_lt r.2
  rw [show P.tab v (ii P r) (nn P r) (kk P r) = _ from tabOf_at v h1 h2 h3]
  congr 1
  exact Fin.ext h4

/-- The residual after the treatment of complementarities. -/
private def Rs (P : ItiProblem) (p : Ctrl P × Ctrl P) : Ctrl P := fun r =>
  if P.constrained then smooth2 (P.lb (ii P r) (nn P r) (kk P r)) (P.ub (ii P r) (nn P r) (kk P r)) (P.euler p r) (p.1 r)
  else P.euler p r

private theorem Rs_arrays (v : Ctrl P) : flatten3 P.nm P.N P.nx (P.arrays (P.tab v)).res = Rs P (v, v) := by
  funext r
  have ht := tab_r v r
  unfold ii nn kk at ht
  unfold Rs ItiProblem.arrays
  by_cases hc : P.constrained
  · simp only [hc, if_true, flatten3, ravel3, negArrays, smoothArrays, smooth2, ItiProblem.euler, ItiProblem.raw, mul_neg,
      mul_one, ht, ii, nn, kk]
  · simp only [hc, flatten3, ravel3, ItiProblem.euler, ItiProblem.raw, Bool.false_eq_true, if_false]

private theorem err_eq (v : Ctrl P) : P.err (P.tab v) = ‖Rs P (v, v)‖ := by
  rw [← Rs_arrays]
  unfold ItiProblem.err
  apply le_antisymm
  · rw [tableMax_le_iff _ _ _ _ _ (norm_nonneg _)]
    intro i hi n hn k hk
    have := norm_le_pi_norm (flatten3 P.nm P.N P.nx (P.arrays (P.tab v)).res) ⟨_, flat3_lt hi hn hk⟩
    obtain ⟨e1, e2, e3⟩ := flat3_parts (i := i) hn hk
    simpa only [flatten3, ravel3, e1, e2, e3, Real.norm_eq_abs] using this
  · rw [pi_norm_le_iff_of_nonneg (tableMax_nonneg _ _ _ _)]
    intro r
    obtain ⟨h1, h2, h3, h4⟩ := flat3_of_lt r.2
    exact (tableMax_le_iff _ _ _ _ _ (tableMax_nonneg _ _ _ _)).1 le_rfl _ h1 _ h2 _ h3

private theorem kink (h : ItiRegular P xs) (hc : P.constrained = true) (r) :
    NoKink2 (P.lb (ii P r) (nn P r) (kk P r)) (P.ub (ii P r) (nn P r) (kk P r)) (P.euler (xs, xs) r) (xs r) := by
  obtain ⟨h1, h2, h3, h4⟩ := flat3_of_lt r.2
  obtain ⟨s1, s2, s3⟩ := h.strict hc _ h1 _ h2 _ h3
  obtain ⟨m1, m2, m3, m4⟩ := h.mcp hc _ h1 _ h2 _ h3
  have ht := tab_r xs r
  change ∀ l ∈ P.lb (ii P r) (nn P r) (kk P r), ∀ u ∈ P.ub (ii P r) (nn P r) (kk P r), l < u at s1
  have hraw : P.raw (P.tab xs) (ii P r) (nn P r) (kk P r) = P.euler (xs, xs) r := rfl
  change ∀ l ∈ P.lb (ii P r) (nn P r) (kk P r), (P.tab xs (ii P r) (nn P r) (kk P r) = l → P.raw (P.tab xs) (ii P r) (nn P r) (kk P r) ≠ 0) ∧ P.tab xs (ii P r) (nn P r) (kk P r) - l ≠ 100000 at s2
  change ∀ l ∈ P.ub (ii P r) (nn P r) (kk P r), (P.tab xs (ii P r) (nn P r) (kk P r) = l → P.raw (P.tab xs) (ii P r) (nn P r) (kk P r) ≠ 0) ∧ l - P.tab xs (ii P r) (nn P r) (kk P r) ≠ 100000 at s3
  change ∀ l ∈ P.lb (ii P r) (nn P r) (kk P r), l ≤ P.tab xs (ii P r) (nn P r) (kk P r) at m1
  change 0 < P.raw (P.tab xs) (ii P r) (nn P r) (kk P r) → P.lb (ii P r) (nn P r) (kk P r) = some (P.tab xs (ii P r) (nn P r) (kk P r)) at m3
  rw [hraw, ht] at s2 s3 m3
  rw [ht] at m1
  clear m2 m4
  generalize P.lb (ii P r) (nn P r) (kk P r) = lb at *
  generalize P.ub (ii P r) (nn P r) (kk P r) = ub at *
  generalize P.euler (xs, xs) r = a at *
  generalize xs r = x at *
  refine ⟨fun d hd => ?_, fun d hd => ?_⟩
  · obtain ⟨l, hl, rfl⟩ := Option.mem_map.1 hd
    refine ⟨?_, (s2 l hl).2⟩
    by_cases hx : x = l
    · exact Or.inl ((s2 l hl).1 hx)
    · exact Or.inr (sub_ne_zero.2 hx)
  · obtain ⟨u, hu, rfl⟩ := Option.mem_map.1 hd
    refine ⟨?_, (s3 u hu).2⟩
    by_cases hx : u = x
    · left
      subst hx
      have ha := (s3 u hu).1 rfl
      have hneg : a < 0 := by
        rcases lt_or_gt_of_ne ha with h | h
        · exact h
        · exact absurd (s1 u (m3 h) u hu) (lt_irrefl _)
      rw [neg_ne_zero]
      cases lb with
      | none => simpa [itiH, dinf] using ha
      | some l =>
        have hl := m1 l rfl
        rw [Option.map_some]
        unfold itiH dinf
        by_cases hd : 100000 < u - l
        · rw [if_pos (by simpa using hd)]; exact ha
        · rw [if_neg (by simpa using hd)]
          have : u - l ≤ √(a ^ 2 + (u - l) ^ 2) := Real.le_sqrt_of_sq_le (by nlinarith [sq_nonneg a])
          have h2 : a + (u - l) - √(a ^ 2 + (u - l) ^ 2) < 0 := by linarith
          exact h2.ne
    · exact Or.inr (sub_ne_zero.2 hx)

private theorem Rs_zero (h : ItiRegular P xs) : Rs P (xs, xs) = 0 := by
  funext r
  obtain ⟨h1, h2, h3, h4⟩ := flat3_of_lt r.2
  unfold Rs
  by_cases hc : P.constrained
  · simp only [hc, if_true]
    obtain ⟨s1, -, -⟩ := h.strict hc _ h1 _ h2 _ h3
    have m := h.mcp hc _ h1 _ h2 _ h3
    have ht := tab_r xs r
    change SolvesMCP (P.lb (ii P r) (nn P r) (kk P r)) (P.ub (ii P r) (nn P r) (kk P r)) (P.tab xs (ii P r) (nn P r) (kk P r)) (P.euler (xs, xs) r) at m
    rw [ht] at m
    have := (C20_improved_time_iteration (n := 1) ⟨fun _ => P.euler (xs, xs) r, fun _ _ => 0, fun _ _ => 0⟩ (fun _ => xs r)
      (fun _ => P.lb (ii P r) (nn P r) (kk P r)) (fun _ => P.ub (ii P r) (nn P r) (kk P r)) 0
      (fun l hl u hu => (s1 l hl u hu).le)).2 m
    simpa [itiComplement, itiNeg, itiSmooth, smooth2] using this
  · simp only [hc]
    exact h.zero (by simpa using hc) _ h1 _ h2 _ h3

private theorem euler_comp (h : ItiRegular P xs) (r) : ContDiffAt ℝ 1 (fun p => P.euler p r) (xs, xs) :=
  contDiffAt_pi.1 h.smooth r

private theorem fst_comp (z : Ctrl P × Ctrl P) (r) : ContDiffAt ℝ 1 (fun p : Ctrl P × Ctrl P => p.1 r) z :=
  contDiffAt_pi.1 contDiffAt_fst r

private theorem Rs_smooth (h : ItiRegular P xs) : ContDiffAt ℝ 1 (Rs P) (xs, xs) := by
  rw [contDiffAt_pi]
  intro r
  by_cases hc : P.constrained
  · have := smooth2_contDiff (euler_comp h r) (fst_comp (xs, xs) r) _ _ (kink h hc r)
    simpa only [Rs, hc, if_true] using this
  · simpa only [Rs, hc, Bool.false_eq_true, if_false] using euler_comp h r

/-- The derivative of the residual with respect to today's controls, as computed. -/
private def Bm (P : ItiProblem) (v : Ctrl P) : Ctrl P →L[ℝ] Ctrl P :=
  mulVecCLM (blockMat P.nm P.N P.nx (P.arrays (P.tab v)).dres)

/-- The derivative of the residual with respect to tomorrow's controls, as computed. -/
private def Jm (P : ItiProblem) (v : Ctrl P) : Ctrl P →L[ℝ] Ctrl P :=
  mulVecCLM (reportedMatrix P.nm P.nim P.N P.nx P.g P.s P.interp P.dp v (P.arrays (P.tab v)).jres)

private theorem block_row (hc : P.constrained = true) (v u : Ctrl P) (r) :
    (blockMat P.nm P.N P.nx (P.arrays (P.tab v)).dres).mulVec u r
      = smooth2A (P.lb (ii P r) (nn P r) (kk P r)) (P.ub (ii P r) (nn P r) (kk P r)) (P.euler (v, v) r) (v r)
          * (blockMat P.nm P.N P.nx (P.dres (P.tab v))).mulVec u r
        + smooth2B (P.lb (ii P r) (nn P r) (kk P r)) (P.ub (ii P r) (nn P r) (kk P r)) (P.euler (v, v) r) (v r) * u r := by
  have ht := tab_r v r
  have hraw : P.raw (P.tab v) (ii P r) (nn P r) (kk P r) = P.euler (v, v) r := rfl
  have hrow : ∀ q, blockMat P.nm P.N P.nx (P.arrays (P.tab v)).dres r q
      = smooth2A (P.lb (ii P r) (nn P r) (kk P r)) (P.ub (ii P r) (nn P r) (kk P r)) (P.euler (v, v) r) (v r)
          * blockMat P.nm P.N P.nx (P.dres (P.tab v)) r q
        + if q = r then smooth2B (P.lb (ii P r) (nn P r) (kk P r)) (P.ub (ii P r) (nn P r) (kk P r)) (P.euler (v, v) r) (v r)
          else 0 := by
    intro q
    unfold blockMat
    by_cases hq : q.1 / P.nx = r.1 / P.nx
    · have hiff : (r.1 % P.nx = q.1 % P.nx) ↔ q = r := by
        constructor
        · intro h
          apply Fin.ext
          rw [← Nat.div_add_mod q.1 P.nx, ← Nat.div_add_mod r.1 P.nx, hq, h]
        · rintro rfl; rfl
      rw [if_pos hq, if_pos hq]
      unfold ItiProblem.arrays
      simp only [hc, if_true, negArrays, smoothArrays, hiff]
      unfold smooth2A smooth2B
      rw [← hraw, ← ht]
      unfold ii nn kk
      by_cases e : q = r
      · simp only [e, if_true]; ring_nf
      · simp only [e, if_false]; ring_nf
    · have : q ≠ r := by rintro rfl; exact hq rfl
      rw [if_neg hq, if_neg hq, if_neg this]; ring
  simp only [Matrix.mulVec, dotProduct, hrow, add_mul, Finset.sum_add_distrib, ite_mul, zero_mul, Finset.sum_ite_eq',
    Finset.mem_univ, if_true, Finset.mul_sum, mul_assoc]

private theorem future_row (hlin : InterpLinear P.interp) (hc : P.constrained = true) (v u : Ctrl P) (r) :
    (reportedMatrix P.nm P.nim P.N P.nx P.g P.s P.interp P.dp v (P.arrays (P.tab v)).jres).mulVec u r
      = smooth2A (P.lb (ii P r) (nn P r) (kk P r)) (P.ub (ii P r) (nn P r) (kk P r)) (P.euler (v, v) r) (v r)
          * (reportedMatrix P.nm P.nim P.N P.nx P.g P.s P.interp P.dp v (P.jres (P.tab v))).mulVec u r := by
  have ht := tab_r v r
  have hraw : P.raw (P.tab v) (ii P r) (nn P r) (kk P r) = P.euler (v, v) r := rfl
  rw [reportedMatrix_mulVec hlin, reportedMatrix_mulVec hlin]
  simp only [Finset.mul_sum]
  refine Finset.sum_congr rfl fun j _ => Finset.sum_congr rfl fun l _ => ?_
  unfold ItiProblem.arrays
  simp only [hc, if_true, negArrays, smoothArrays, scaleJres]
  unfold smooth2A
  rw [← hraw, ← ht]
  unfold ii nn kk
  ring_nf

private theorem Rs_deriv (h : ItiRegular P xs) :
    ∀ᶠ v in 𝓝 xs, HasFDerivAt (Rs P) ((Bm P v).comp (.fst ℝ _ _) + (Jm P v).comp (.snd ℝ _ _)) (v, v) := by
  by_cases hc : P.constrained
  · have hk : ∀ᶠ v in 𝓝 xs, ∀ r,
        NoKink2 (P.lb (ii P r) (nn P r) (kk P r)) (P.ub (ii P r) (nn P r) (kk P r)) (P.euler (v, v) r) (v r) := by
      rw [eventually_all]
      intro r
      have h1 := noKink2_eventually (euler_comp h r) (fst_comp (xs, xs) r) _ _ (kink h hc r)
      have h2 : ContinuousAt (fun v : Ctrl P => (v, v)) xs := continuousAt_id.prodMk continuousAt_id
      exact h2.tendsto.eventually h1
    filter_upwards [h.deriv, hk] with v hv hkv
    have h0 : HasFDerivAt P.euler _ (v, v) := total_derivative hv
    rw [hasFDerivAt_pi']
    intro r
    have h1 := (hasFDerivAt_pi'.1 h0) r
    have h2 : HasFDerivAt (fun p : Ctrl P × Ctrl P => p.1 r)
        ((ContinuousLinearMap.proj r).comp (ContinuousLinearMap.fst ℝ (Ctrl P) (Ctrl P))) (v, v) :=
      ((ContinuousLinearMap.proj r).comp (ContinuousLinearMap.fst ℝ (Ctrl P) (Ctrl P))).hasFDerivAt
    have h3 := smooth2_fderiv h1 h2 _ _ (hkv r)
    have e : (fun p => Rs P p r) = fun p => smooth2 (P.lb (ii P r) (nn P r) (kk P r)) (P.ub (ii P r) (nn P r) (kk P r))
        (P.euler p r) (p.1 r) := by
      funext p
      simp only [Rs, hc, if_true]
    rw [e]
    refine h3.congr_fderiv (ContinuousLinearMap.ext fun p => ?_)
    have b1 := block_row hc v p.1 r
    have b2 := future_row h.linear hc v p.2 r
    simp only [_root_.add_apply, _root_.smul_apply, ContinuousLinearMap.comp_apply, ContinuousLinearMap.proj_apply,
      ContinuousLinearMap.coe_fst', ContinuousLinearMap.coe_snd', Bm, Jm, mulVecCLM_apply, Pi.add_apply, smul_eq_mul]
    rw [b1, b2]
    ring
  · filter_upwards [h.deriv] with v hv
    have h0 : HasFDerivAt P.euler _ (v, v) := total_derivative hv
    have e : Rs P = P.euler := by
      funext p r
      simp only [Rs, hc, Bool.false_eq_true, if_false]
    have e1 : (P.arrays (P.tab v)).dres = P.dres (P.tab v) := by simp [ItiProblem.arrays, hc]
    have e2 : (P.arrays (P.tab v)).jres = P.jres (P.tab v) := by simp [ItiProblem.arrays, hc]
    rw [e, Bm, Jm, e1, e2]
    exact h0

private theorem diag_continuous (h : ItiRegular P xs) :
    ContinuousAt (fun v : Ctrl P => fderiv ℝ (Rs P) (v, v)) xs := by
  have h1 : ContinuousAt (fderiv ℝ (Rs P)) (xs, xs) := ((Rs_smooth h).fderiv_right (m := 0) le_rfl).continuousAt
  have h2 : ContinuousAt (fun v : Ctrl P => (v, v)) xs := continuousAt_id.prodMk continuousAt_id
  exact ContinuousAt.comp (f := fun v : Ctrl P => (v, v)) h1 h2

private theorem Bm_continuous (h : ItiRegular P xs) : ContinuousAt (Bm P) xs := by
  have h1 : ContinuousAt (fun v : Ctrl P => (fderiv ℝ (Rs P) (v, v)).comp (.inl ℝ (Ctrl P) (Ctrl P))) xs :=
    (diag_continuous h).clm_comp continuousAt_const
  refine h1.congr ?_
  filter_upwards [Rs_deriv h] with v hv
  rw [hv.fderiv]
  ext u r
  simp

private theorem Jm_continuous (h : ItiRegular P xs) : ContinuousAt (Jm P) xs := by
  have h1 : ContinuousAt (fun v : Ctrl P => (fderiv ℝ (Rs P) (v, v)).comp (.inr ℝ (Ctrl P) (Ctrl P))) xs :=
    (diag_continuous h).clm_comp continuousAt_const
  refine h1.congr ?_
  filter_upwards [Rs_deriv h] with v hv
  rw [hv.fderiv]
  ext u r
  simp

/-- The residual of the main loop as a function of the controls. -/
private def Gs (P : ItiProblem) (v : Ctrl P) : Ctrl P := Rs P (v, v)

private theorem Gs_deriv (h : ItiRegular P xs) : HasFDerivAt (Gs P) (Bm P xs + Jm P xs) xs := by
  have h1 := (Rs_deriv h).self_of_nhds
  have h2 : HasFDerivAt (fun v : Ctrl P => (v, v)) ((ContinuousLinearMap.id ℝ (Ctrl P)).prod (.id ℝ (Ctrl P))) xs :=
    (hasFDerivAt_id xs).prodMk (hasFDerivAt_id xs)
  refine (HasFDerivAt.comp xs (f := fun v : Ctrl P => (v, v)) h1 h2).congr_fderiv ?_
  ext u r
  simp

/-- The inverse of the derivative with respect to today's controls. -/
private theorem Bm_inverse (h : ItiRegular P xs) : ∃ Bi : Ctrl P →L[ℝ] Ctrl P, ∀ v, Bi (Bm P xs v) = v := by
  have hu := block_unit (nm := P.nm) (N := P.N) (nx := P.nx) h.nonsingular
  refine ⟨mulVecCLM (blockMat P.nm P.N P.nx (P.arrays (P.tab xs)).dres)⁻¹, fun v => ?_⟩
  simp only [Bm, mulVecCLM_apply, Matrix.mulVec_mulVec, Matrix.nonsing_inv_mul _ hu, Matrix.one_mulVec]

/-- Blocks of an injective block-diagonal matrix are not singular. -/
private theorem nonsingular_of_injective {nm N nx : ℕ} (D : ℕ → ℕ → ℕ → ℕ → ℝ)
    (hinj : ∀ v : Fin (nm * N * nx) → ℝ, (blockMat nm N nx D).mulVec v = 0 → v = 0) :
    ∀ i < nm, ∀ n < N, Nonsingular nx (D i n) := by
  intro i hi n hn w hw k hk
  set v : Fin (nm * N * nx) → ℝ := fun r => if r.1 / nx = i * N + n then w (r.1 % nx) else 0 with hv
  have hz : v = 0 := by
    apply hinj
    funext r
    obtain ⟨a1, a2, a3, a4⟩ := flat3_of_lt r.2
    have hb := blockMat_mulVec (nm := nm) D (fun q => if q / nx = i * N + n then w (q % nx) else 0) r
    have hb2 : (blockMat nm N nx D).mulVec v r
        = ∑ q : Fin (nm * N * nx), blockMat nm N nx D r q * (if q.1 / nx = i * N + n then w (q.1 % nx) else 0) := rfl
    rw [hb2, hb, Pi.zero_apply]
    have hnx : 0 < nx := lt_of_le_of_lt (Nat.zero_le _) a3
    have hdiv : ∀ l ∈ Finset.range nx, (r.1 / nx * nx + l) / nx = r.1 / nx ∧ (r.1 / nx * nx + l) % nx = l := by
      intro l hl
      have hl' := Finset.mem_range.1 hl
      refine ⟨?_, ?_⟩
      · rw [Nat.add_comm, Nat.add_mul_div_right _ _ hnx, Nat.div_eq_of_lt hl', Nat.zero_add]
      · rw [Nat.add_comm, Nat.add_mul_mod_self_right, Nat.mod_eq_of_lt hl']
    by_cases hr : r.1 / nx = i * N + n
    · have e1 : r.1 / nx / N = i := by
        rw [hr, Nat.add_comm, Nat.add_mul_div_right _ _ (by omega), Nat.div_eq_of_lt hn, Nat.zero_add]
      have e2 : r.1 / nx % N = n := by rw [hr, Nat.add_comm, Nat.add_mul_mod_self_right, Nat.mod_eq_of_lt hn]
      rw [e1, e2]
      refine Eq.trans (Finset.sum_congr rfl fun l hl => ?_) (hw (r.1 % nx) a3)
      rw [(hdiv l hl).1, (hdiv l hl).2, if_pos hr]
    · refine Finset.sum_eq_zero fun l hl => ?_
      rw [(hdiv l hl).1, if_neg hr, mul_zero]
  have := congrFun hz ⟨_, flat3_lt hi hn hk⟩
  simp only [hv, Pi.zero_apply] at this
  obtain ⟨e1, e2, e3⟩ := flat3_parts (i := i) hn hk
  have e0 : ((i * N + n) * nx + k) / nx = i * N + n := by
    rw [Nat.add_comm, Nat.add_mul_div_right _ _ (by omega), Nat.div_eq_of_lt hk, Nat.zero_add]
  rwa [e0, if_pos rfl, e3] at this

private theorem nonsingular_near (h : ItiRegular P xs) :
    ∀ᶠ v in 𝓝 xs, ∀ i < P.nm, ∀ n < P.N, Nonsingular P.nx ((P.arrays (P.tab v)).dres i n) := by
  obtain ⟨Bi, hBi⟩ := Bm_inverse h
  obtain ⟨c, hc, ε, hε, hlow⟩ := lower_near (Bm P) xs (Bm_continuous h) Bi hBi
  filter_upwards [Metric.ball_mem_nhds xs hε] with v hv
  rw [Metric.mem_ball, dist_eq_norm] at hv
  refine nonsingular_of_injective _ fun w hw => ?_
  have h1 := hlow v hv w
  have h2 : Bm P v w = 0 := hw
  rw [h2, norm_zero, mul_zero] at h1
  exact norm_le_zero_iff.1 h1

variable {S : ItiSolvers}

/-- The linear map of the operator. -/
private def Lm (P : ItiProblem) (S : ItiSolvers) (v : Ctrl P) : Ctrl P →L[ℝ] Ctrl P := mulVecCLM (P.opMatrix S v)

private theorem Bm_Lm (h : ItiRegular P xs) (hS : S.Exact P.nx) : ∀ᶠ v in 𝓝 xs, Bm P v * Lm P S v = -Jm P v := by
  filter_upwards [nonsingular_near h] with v hv
  have := block_mul (nm := P.nm) (nim := P.nim) (N := P.N) (nx := P.nx) (g := P.g) (s := P.s) (dp := P.dp) (xs := v)
    (D := (P.arrays (P.tab v)).dres) (J := (P.arrays (P.tab v)).jres) (M := premultiplied S (P.arrays (P.tab v))) h.linear
    (fun i hi j _ n hn q _ => by
      have := hS _ (fun k => (P.arrays (P.tab v)).jres i j n k q * -1) (hv i hi n hn)
      simpa only [premultiplied, mul_neg, mul_one] using this)
  refine ContinuousLinearMap.ext fun u => ?_
  have h2 := congrArg (fun M : Matrix _ _ ℝ => M.mulVec u) this
  simp only [← Matrix.mulVec_mulVec, Matrix.neg_mulVec] at h2
  exact h2

private theorem Lm_continuous (h : ItiRegular P xs) (hS : S.Exact P.nx) : ContinuousAt (Lm P S) xs := by
  obtain ⟨Bi, hBi⟩ := Bm_inverse h
  exact quotient_continuous (Bm P) (Jm P) (Lm P S) xs (Bm_continuous h) (Jm_continuous h) Bi hBi (Bm_Lm h hS)

private theorem Gs_deriv' (h : ItiRegular P xs) (hS : S.Exact P.nx) :
    HasFDerivAt (Gs P) (Bm P xs * (1 - Lm P S xs)) xs := by
  have h1 := (Bm_Lm (S := S) h hS).self_of_nhds
  rw [mul_sub, mul_one, h1, sub_neg_eq_add]
  exact Gs_deriv h

/-- The direction without the discounted future, `solve_gu(dres, res)`. -/
private def dvec (P : ItiProblem) (S : ItiSolvers) (v : Ctrl P) : Ctrl P :=
  flatten3 P.nm P.N P.nx fun i n => S.solve ((P.arrays (P.tab v)).dres i n) ((P.arrays (P.tab v)).res i n)

private theorem Bm_dvec (h : ItiRegular P xs) (hS : S.Exact P.nx) : ∀ᶠ v in 𝓝 xs, Bm P v (dvec P S v) = Gs P v := by
  filter_upwards [nonsingular_near h] with v hv
  funext r
  obtain ⟨a1, a2, a3, a4⟩ := flat3_of_lt r.2
  have hs := hS _ ((P.arrays (P.tab v)).res (r.1 / P.nx / P.N) (r.1 / P.nx % P.N)) (hv _ a1 _ a2) _ a3
  unfold Gs
  rw [← Rs_arrays]
  refine Eq.trans ?_ hs
  have hb := blockMat_mulVec (nm := P.nm) (P.arrays (P.tab v)).dres (ravel3 P.N P.nx fun i n =>
    S.solve ((P.arrays (P.tab v)).dres i n) ((P.arrays (P.tab v)).res i n)) r
  refine Eq.trans (show Bm P v (dvec P S v) r = _ from hb) (Finset.sum_congr rfl fun l hl => ?_)
  have hl' := Finset.mem_range.1 hl
  have e : r.1 / P.nx * P.nx + l = (r.1 / P.nx / P.N * P.N + r.1 / P.nx % P.N) * P.nx + l := by
    rw [Nat.div_add_mod' (r.1 / P.nx) P.N]
  obtain ⟨e1, e2, e3⟩ := flat3_parts (i := r.1 / P.nx / P.N) a2 hl'
  simp only [ravel3, e, e1, e2, e3]

/-- The operator on arrays. -/
private def Ls (P : ItiProblem) (S : ItiSolvers) (v : Ctrl P) : Table ℝ → Table ℝ :=
  dFiltDx P.nim P.nx (premultiplied S (P.arrays (P.tab v))) (P.filt (P.tab v))

private theorem Ls_add (h : InterpLinear P.interp) (v : Ctrl P) (a b : Table ℝ) :
    Ls P S v (a + b) = Ls P S v a + Ls P S v b := by
  funext i n k
  simp only [Ls, dFiltDx_sum, Pi.add_apply, ← Finset.sum_add_distrib]
  refine Finset.sum_congr rfl fun j _ => Finset.sum_congr rfl fun l _ => ?_
  have : P.filt (P.tab v) (a + b) i j n l = P.filt (P.tab v) a i j n l + P.filt (P.tab v) b i j n l := by
    have h1 := h 1 a b i j (P.g (P.dp.node i) (P.s n) (P.tab v i n) (P.dp.inode i j)) l
    simp only [one_mul] at h1
    exact h1
  rw [this, mul_add]

private theorem tab_flat (t : Table ℝ) {i n k : ℕ} (hi : i < P.nm) (hn : n < P.N) (hk : k < P.nx) :
    P.tab (flatten3 P.nm P.N P.nx t) i n k = t i n k := by
  rw [show P.tab _ i n k = _ from tabOf_at (flatten3 P.nm P.N P.nx t) hi hn hk]
  obtain ⟨e1, e2, e3⟩ := flat3_parts (i := i) hn hk
  simp only [flatten3, ravel3, e1, e2, e3]

private theorem flatten_Ls (h : ItiRegular P xs) (v : Ctrl P) (t : Table ℝ) :
    flatten3 P.nm P.N P.nx (Ls P S v t) = Lm P S v (flatten3 P.nm P.N P.nx t) := by
  funext r
  refine Eq.trans ?_ (reportedMatrix_mulVec (nm := P.nm) (nim := P.nim) (N := P.N) (nx := P.nx) (g := P.g) (s := P.s)
    (dp := P.dp) (xs := v) h.linear (premultiplied S (P.arrays (P.tab v))) (flatten3 P.nm P.N P.nx t) r).symm
  simp only [flatten3, ravel3, Ls, dFiltDx_sum, ItiProblem.filt]
  refine Finset.sum_congr rfl fun j _ => Finset.sum_congr rfl fun l _ => ?_
  have : P.interp (tabOf P.nm P.N P.nx (flatten3 P.nm P.N P.nx t)) = P.interp t :=
    h.local_ _ _ fun i hi n hn k hk => tab_flat t hi hn hk
  rw [this]
  rfl

private theorem flatten_iter (h : ItiRegular P xs) (v : Ctrl P) (t : Table ℝ) (m : ℕ) :
    flatten3 P.nm P.N P.nx ((Ls P S v)^[m] t) = (Lm P S v ^ m) (flatten3 P.nm P.N P.nx t) := by
  induction m with
  | zero => rfl
  | succ m ih =>
    rw [Function.iterate_succ_apply', flatten_Ls h, ih, pow_succ']
    rfl

private theorem flatten_sum (f : ℕ → Table ℝ) (m : ℕ) :
    flatten3 P.nm P.N P.nx (∑ t ∈ Finset.range m, f t) = ∑ t ∈ Finset.range m, flatten3 P.nm P.N P.nx (f t) := by
  induction m with
  | zero => rfl
  | succ m ih => rw [Finset.sum_range_succ, Finset.sum_range_succ, ← ih]; rfl

/-- The step of the default variant. -/
private theorem tot_iti (h : ItiRegular P xs) (tol : ℝ) (smaxit : ℕ) (hm : 1 ≤ smaxit) (v : Ctrl P) :
    ∃ m, flatten3 P.nm P.N P.nx (P.tot S .iti tol smaxit (P.tab v))
      = ∑ t ∈ Finset.range (m + 1), (Lm P S v ^ t) (dvec P S v) := by
  obtain ⟨tot, nn, h1, -, h2, -⟩ := C30_neumann (Ls P S v) (Ls_add h.linear v) (tableMax P.nm P.N P.nx) tol smaxit hm
    (fun i n => S.solve ((P.arrays (P.tab v)).dres i n) ((P.arrays (P.tab v)).res i n))
  refine ⟨nn + 1, ?_⟩
  have h3 : P.tot S .iti tol smaxit (P.tab v) = tot := by
    unfold Ls at h1
    simp only [ItiProblem.tot, h1]
  rw [h3, h2, flatten_sum]
  exact Finset.sum_congr rfl fun t _ => flatten_iter h v _ t

private theorem trial_eq (method : InvMethod) (tol : ℝ) (smaxit : ℕ) (v : Ctrl P) (c : ℕ) :
    flatten3 P.nm P.N P.nx (P.trial S method tol smaxit (P.tab v) c)
      = v - (1 / 2 : ℝ) ^ c • flatten3 P.nm P.N P.nx (P.tot S method tol smaxit (P.tab v)) := by
  funext r
  have ht := tab_r v r
  unfold ii nn kk at ht
  simp only [flatten3, ravel3, ItiProblem.trial, Pi.sub_apply, Pi.smul_apply, smul_eq_mul, ht]
  ring

private theorem run_eq (method : InvMethod) (tol : ℝ) (smaxit maxbsteps maxit : ℕ) (x0 : Ctrl P) :
    P.run S method tol smaxit maxbsteps maxit x0 = improvedTimeIteration (fun v => ‖Gs P v‖)
      (fun v c => v - (1 / 2 : ℝ) ^ c • flatten3 P.nm P.N P.nx (P.tot S method tol smaxit (P.tab v))) maxbsteps tol maxit
      x0 := by
  unfold ItiProblem.run
  congr 1
  · funext v; exact err_eq v
  · funext v c; exact trial_eq method tol smaxit v c

private theorem deriv_inverse (h : ItiRegular P xs) {Li : Ctrl P →L[ℝ] Ctrl P} (hLi : ∀ v, Li ((1 - Lm P S xs) v) = v) :
    ∃ Ai : Ctrl P →L[ℝ] Ctrl P, ∀ v, Ai ((Bm P xs * (1 - Lm P S xs)) v) = v := by
  obtain ⟨Bi, hBi⟩ := Bm_inverse h
  refine ⟨Li * Bi, fun v => ?_⟩
  change Li (Bi (Bm P xs ((1 - Lm P S xs) v))) = v
  rw [hBi, hLi]

private theorem not_eigen (hne : ¬ IsEigenvalue (P.opMatrix S xs) 1) :
    ∃ Li : Ctrl P →L[ℝ] Ctrl P, ∀ v, Li ((1 - Lm P S xs) v) = v := by
  have hu : IsUnit (1 - P.opMatrix S xs).det := by
    rw [isUnit_iff_ne_zero]
    intro hdet
    obtain ⟨v, hv, hz⟩ := Matrix.exists_mulVec_eq_zero_iff.mpr hdet
    apply hne
    rw [Matrix.sub_mulVec, Matrix.one_mulVec, sub_eq_zero] at hz
    refine ⟨fun r => (v r : ℂ), fun h0 => hv ?_, ?_⟩
    · funext r
      have := congrFun h0 r
      simpa using this
    · funext r
      have := congrArg (fun x : ℝ => (x : ℂ)) (congrFun hz r)
      simp only [Matrix.mulVec, dotProduct, Matrix.map_apply, one_smul]
      rw [this]
      simp [Matrix.mulVec, dotProduct]
  refine ⟨mulVecCLM (1 - P.opMatrix S xs)⁻¹, fun v => ?_⟩
  have : (1 - Lm P S xs) v = (1 - P.opMatrix S xs).mulVec v := by
    rw [Matrix.sub_mulVec, Matrix.one_mulVec]; rfl
  rw [this, mulVecCLM_apply, Matrix.mulVec_mulVec, Matrix.nonsing_inv_mul _ hu, Matrix.one_mulVec]

/-- **C123, default variant.**  Let the eigenvalues of the operator at a regular solution be below one in modulus (the
radius reported is their largest modulus).  From every initial rule close enough to the solution, improved time
iteration reports convergence for every tolerance, after a number of passes that grows with the logarithm of the
tolerance, whatever the number of sweeps (at least one); the distance of the rule returned to the solution is at most a
multiple of the error reported. -/
theorem C123_default (h : ItiRegular P xs) (hS : S.Exact P.nx)
    (hrad : ∀ z, IsEigenvalue (P.opMatrix S xs) z → ‖z‖ < 1) (b : ℕ) :
    ∃ ε > 0, ∃ C > 0, ∃ ρ, 0 ≤ ρ ∧ ρ < 1 ∧ ∀ x0 : Ctrl P, dist x0 xs < ε → ∀ smaxit, 1 ≤ smaxit → ∀ tol, 0 < tol →
      ∀ n0 : ℕ, C * ρ ^ n0 < tol → ∀ maxit, n0 < maxit → ∃ r,
        P.run S .iti tol smaxit (b + 1) maxit x0 = .ok r ∧ r.converged = true ∧ r.it ≤ n0 ∧
        r.err_0 < tol ∧ r.err_0 = P.err (P.tab r.x) ∧ dist r.x xs ≤ C * r.err_0 := by
  have : Nonempty (Fin (P.nm * P.N * P.nx)) := ⟨⟨0, h.size⟩⟩
  obtain ⟨Li, hLi⟩ := not_eigen (P := P) (S := S) (xs := xs) fun h1 => by
    have := hrad 1 h1
    simp at this
  obtain ⟨Ai, hAi⟩ := deriv_inverse h hLi
  obtain ⟨Bi, hBi⟩ := Bm_inverse h
  obtain ⟨k, hk, hpow'⟩ : ∃ k, 1 ≤ k ∧ ‖Lm P S xs ^ k‖ < 1 := exists_pow_clm_lt_one _ hrad
  obtain ⟨p, cl, cu, q, hp, hq0, hq1, hq⟩ := exists_adapted (Lm P S xs) hk hpow'
  obtain ⟨κ, hκ0, hκ1, ε1, hε1, hstep⟩ := newton_neumann (Gs P) (Bm P) (Lm P S) xs (Rs_zero h) (Gs_deriv' h hS)
    (Bm_continuous h) (Lm_continuous h hS) Bi hBi hp hq0 hq1 hq
  obtain ⟨ε2, hε2, hd⟩ := Metric.eventually_nhds_iff.1 (Bm_dvec h hS)
  obtain ⟨δ, hδ, C, hC, ρ, hρ0, hρ1, hrun⟩ := search_run (Gs P) _ xs (Rs_zero h) (Gs_deriv' h hS) Ai hAi
    (fun (i : ℝ × {m : ℕ // 1 ≤ m}) v => flatten3 P.nm P.N P.nx (P.tot S .iti i.1 i.2 (P.tab v))) hp hκ0 hκ1
    (lt_min hε1 hε2) (fun i v hv => by
      obtain ⟨m, hm⟩ := tot_iti (S := S) h i.1 i.2 i.2.2 v
      rw [hm]
      exact hstep v _ m (hv.trans_le (min_le_left _ _)) (hd (by rw [dist_eq_norm]; exact hv.trans_le (min_le_right _ _)))) b
  refine ⟨δ, hδ, C, hC, ρ, hρ0, hρ1, fun x0 hx0 smaxit hs tol htol n0 hn0 maxit hmax => ?_⟩
  obtain ⟨r, h1, h2, h3, h4, h5, h6⟩ := hrun x0 hx0 (tol, ⟨smaxit, hs⟩) tol htol n0 hn0 maxit hmax
  exact ⟨r, by rw [run_eq]; exact h1, h2, h3, h4, by rw [err_eq]; exact h5, h6⟩

/-- `scipy`'s `gmres` solves linear systems with an invertible matrix up to its relative tolerance; the constant accounts
for the norm that it uses. -/
def ItiSolvers.Gmres (S : ItiSolvers) (n : ℕ) (c : ℝ) : Prop :=
  ∀ (A : Matrix (Fin n) (Fin n) ℝ) (op : (ℕ → ℝ) → ℕ → ℝ), (∀ (v : ℕ → ℝ) (r : Fin n), op v r = ∑ q : Fin n, A r q * v q) →
    IsUnit A.det → ∀ (b : ℕ → ℝ) (tol : ℝ), 0 ≤ tol → ∀ r : Fin n,
      |op (S.gmres op b tol) r - b r| ≤ c * tol * ‖fun q : Fin n => b q‖

private theorem tot_gmres (h : ItiRegular P xs) {c : ℝ} (hc0 : 0 ≤ c) (hg : S.Gmres (P.nm * P.N * P.nx) c) (tol : ℝ)
    (smaxit : ℕ) (v : Ctrl P) (hinj : ∀ w, (1 - Lm P S v) w = 0 → w = 0) :
    ‖(1 - Lm P S v) (flatten3 P.nm P.N P.nx (P.tot S .gmres tol smaxit (P.tab v))) - dvec P S v‖
      ≤ c * (‖Gs P v‖ / 100) * ‖dvec P S v‖ := by
  have hmul : ∀ w, (1 - Lm P S v) w = (1 - P.opMatrix S v).mulVec w := by
    intro w
    rw [Matrix.sub_mulVec, Matrix.one_mulVec]; rfl
  have hu : IsUnit (1 - P.opMatrix S v).det := by
    rw [isUnit_iff_ne_zero]
    intro hdet
    obtain ⟨w, hw, hz⟩ := Matrix.exists_mulVec_eq_zero_iff.mpr hdet
    exact hw (hinj w (by rw [hmul]; exact hz))
  set L : ItiOperator ℝ := ⟨P.nm, P.nim, P.N, P.nx, premultiplied S (P.arrays (P.tab v)), P.filt (P.tab v), true, 0⟩ with hL
  have hfl : FiltLinear L.filt := fun a t u i j n l => h.linear a t u i j _ l
  have hop : ∀ (w : ℕ → ℝ) (r : Fin (P.nm * P.N * P.nx)), (L.matvec w).1 r
      = ∑ q : Fin (P.nm * P.N * P.nx), (1 - P.opMatrix S v) r q * w q := by
    intro w r
    rw [(C103_matvec L hfl w r r.2).1]
    have e1 : ∑ q : Fin (P.nm * P.N * P.nx), (1 - P.opMatrix S v) r q * w q
        = w r - ∑ q : Fin (P.nm * P.N * P.nx), P.opMatrix S v r q * w q := by
      simp only [Matrix.sub_apply, sub_mul, Finset.sum_sub_distrib, Matrix.one_apply, ite_mul, one_mul, zero_mul,
        Finset.sum_ite_eq, Finset.mem_univ, if_true]
    rw [e1]
    have e2 : ∑ c ∈ Finset.range L.size, L.asMatrix r c * w c
        = ∑ q : Fin (P.nm * P.N * P.nx), P.opMatrix S v r q * w q := by
      refine (C103_as_matrix L hfl w r).trans ((C103_as_matrix (reportedOperator P.nm P.nim P.N P.nx P.g P.s P.interp P.dp v
        (premultiplied S (P.arrays (P.tab v)))) (reported_linear h.linear _) w r).symm.trans ?_)
      rw [Finset.sum_fin_eq_sum_range]
      refine Finset.sum_congr rfl fun c hc => ?_
      rw [dif_pos (show c < P.nm * P.N * P.nx from Finset.mem_range.1 hc)]
      rfl
    rw [e2]
    simp only [hL, if_true]
    ring
  have hres := hg _ (fun w => (L.matvec w).1) hop hu
    (ravel3 P.N P.nx fun i n => S.solve ((P.arrays (P.tab v)).dres i n) ((P.arrays (P.tab v)).res i n))
    (P.err (P.tab v) / 100) (div_nonneg (by rw [err_eq]; exact norm_nonneg _) (by norm_num))
  rw [err_eq] at hres
  set sol := S.gmres (fun w => (L.matvec w).1)
    (ravel3 P.N P.nx fun i n => S.solve ((P.arrays (P.tab v)).dres i n) ((P.arrays (P.tab v)).res i n))
    (‖Rs P (v, v)‖ / 100) with hsol
  have htot : flatten3 P.nm P.N P.nx (P.tot S .gmres tol smaxit (P.tab v)) = fun q : Fin _ => sol q := by
    have e : P.tot S .gmres tol smaxit (P.tab v) = unravel3 P.nm P.N P.nx sol := by
      simp only [ItiProblem.tot, gmresStep]
      rw [err_eq]
    rw [e]
    funext r
    obtain ⟨a1, a2, a3, a4⟩ := flat3_of_lt r.2
    simp only [flatten3, ravel3, unravel3]
    rw [if_pos ⟨a1, a2, a3⟩, a4]
  rw [pi_norm_le_iff_of_nonneg (by positivity)]
  intro r
  have h1 := hres r
  rw [htot, hmul, Real.norm_eq_abs]
  have e : ((1 - P.opMatrix S v).mulVec (fun q => sol q) - dvec P S v) r
      = (L.matvec sol).1 r - ravel3 P.N P.nx (fun i n => S.solve ((P.arrays (P.tab v)).dres i n)
        ((P.arrays (P.tab v)).res i n)) r := by
    rw [hop]
    rfl
  rw [e]
  exact h1

private theorem gmres_step (h : ItiRegular P xs) (hS : S.Exact P.nx) {c : ℝ} (hc0 : 0 ≤ c)
    (hg : S.Gmres (P.nm * P.N * P.nx) c) (hne : ¬ IsEigenvalue (P.opMatrix S xs) 1) {κ : ℝ} (hκ : 0 < κ) :
    ∃ ε > 0, ∀ (i : ℝ × ℕ) (v : Ctrl P), ‖v - xs‖ < ε →
      ‖v - xs - flatten3 P.nm P.N P.nx (P.tot S .gmres i.1 i.2 (P.tab v))‖ ≤ κ * ‖v - xs‖ := by
  obtain ⟨Li, hLi⟩ := not_eigen hne
  obtain ⟨Ai, hAi⟩ := deriv_inverse h hLi
  obtain ⟨Bi, hBi⟩ := Bm_inverse h
  have hLc := Lm_continuous (S := S) h hS
  obtain ⟨η, hη, ε1, hε1, hnew⟩ := newton_inexact (Gs P) (fun v => Bm P v * (1 - Lm P S v)) xs (Rs_zero h) (Gs_deriv' h hS)
    ((Bm_continuous h).mul (continuousAt_const.sub hLc)) Ai hAi hκ
  obtain ⟨c1, hc1, ε2, hε2, hlow⟩ := lower_near (Bm P) xs (Bm_continuous h) Bi hBi
  obtain ⟨c2, hc2, ε3, hε3, hlow2⟩ := lower_near (fun v => 1 - Lm P S v) xs (continuousAt_const.sub hLc) Li hLi
  obtain ⟨C, hC, ε4, hε4, heq⟩ := residual_equiv (Gs P) _ xs (Rs_zero h) (Gs_deriv' h hS) Ai hAi
  have hbd : ∀ᶠ v in 𝓝 xs, ‖Bm P v‖ < ‖Bm P xs‖ + 1 :=
    (Bm_continuous h).norm.eventually_lt continuousAt_const (by simp)
  obtain ⟨ε5, hε5, hev⟩ := Metric.eventually_nhds_iff.1 (hbd.and (Bm_dvec h hS))
  set K := (‖Bm P xs‖ + 1) * (c * (C / 100) * (c1 * C)) + 1 with hK
  have hK0 : 0 < K := by positivity
  refine ⟨min (min ε1 ε2) (min (min ε3 ε4) (min ε5 (η / K))), by positivity, fun i v hv => ?_⟩
  have v1 := hv.trans_le ((min_le_left _ _).trans (min_le_left _ _))
  have v2 := hv.trans_le ((min_le_left _ _).trans (min_le_right _ _))
  have v3 := hv.trans_le ((min_le_right _ _).trans ((min_le_left _ _).trans (min_le_left _ _)))
  have v4 := hv.trans_le ((min_le_right _ _).trans ((min_le_left _ _).trans (min_le_right _ _)))
  have v5 := hv.trans_le ((min_le_right _ _).trans ((min_le_right _ _).trans (min_le_left _ _)))
  have v6 := hv.trans_le ((min_le_right _ _).trans ((min_le_right _ _).trans (min_le_right _ _)))
  obtain ⟨w1, w2⟩ := hev (y := v) (by rw [dist_eq_norm]; exact v5)
  have hinj : ∀ w, (1 - Lm P S v) w = 0 → w = 0 := by
    intro w hw
    have := hlow2 v v3 w
    rw [hw, norm_zero, mul_zero] at this
    exact norm_le_zero_iff.1 this
  have ht := tot_gmres h hc0 hg i.1 i.2 v hinj
  set tot := flatten3 P.nm P.N P.nx (P.tot S .gmres i.1 i.2 (P.tab v)) with htot
  refine hnew v tot v1 ?_
  have e : (Bm P v * (1 - Lm P S v)) tot - Gs P v = Bm P v ((1 - Lm P S v) tot - dvec P S v) := by
    rw [map_sub, w2]; rfl
  rw [e]
  have hG := (heq v v4).2
  have hdn : ‖dvec P S v‖ ≤ c1 * ‖Gs P v‖ := by
    have := hlow v v2 (dvec P S v)
    rwa [w2] at this
  have hG0 := norm_nonneg (Gs P v)
  have hx0 := norm_nonneg (v - xs)
  have hd2 : ‖dvec P S v‖ ≤ c1 * (C * ‖v - xs‖) := hdn.trans (mul_le_mul_of_nonneg_left hG hc1.le)
  have hr2 : ‖(1 - Lm P S v) tot - dvec P S v‖ ≤ c * (C * ‖v - xs‖ / 100) * (c1 * (C * ‖v - xs‖)) := by
    refine ht.trans ?_
    have : ‖Gs P v‖ / 100 ≤ C * ‖v - xs‖ / 100 := by linarith
    exact mul_le_mul (mul_le_mul_of_nonneg_left this hc0) hd2 (norm_nonneg _) (by positivity)
  have hKe : K * ‖v - xs‖ ≤ η := by
    have := (lt_div_iff₀ hK0).1 v6
    linarith
  calc ‖Bm P v ((1 - Lm P S v) tot - dvec P S v)‖ ≤ ‖Bm P v‖ * ‖(1 - Lm P S v) tot - dvec P S v‖ :=
        ContinuousLinearMap.le_opNorm _ _
    _ ≤ (‖Bm P xs‖ + 1) * (c * (C * ‖v - xs‖ / 100) * (c1 * (C * ‖v - xs‖))) :=
        mul_le_mul w1.le hr2 (norm_nonneg _) (by positivity)
    _ = (K - 1) * ‖v - xs‖ * ‖v - xs‖ := by rw [hK]; ring
    _ ≤ K * ‖v - xs‖ * ‖v - xs‖ := by
        refine mul_le_mul_of_nonneg_right ?_ hx0
        exact mul_le_mul_of_nonneg_right (by linarith) hx0
    _ ≤ η * ‖v - xs‖ := mul_le_mul_of_nonneg_right hKe hx0

/-- **C123, variant `gmres`.**  The same, if one is not an eigenvalue of the operator at the solution (its other
eigenvalues may have any modulus). -/
theorem C123_gmres (h : ItiRegular P xs) (hS : S.Exact P.nx) {c : ℝ} (hc : 0 ≤ c)
    (hg : S.Gmres (P.nm * P.N * P.nx) c) (hne : ¬ IsEigenvalue (P.opMatrix S xs) 1) (b : ℕ) :
    ∃ ε > 0, ∃ C > 0, ∃ ρ, 0 ≤ ρ ∧ ρ < 1 ∧ ∀ x0 : Ctrl P, dist x0 xs < ε → ∀ smaxit tol, 0 < tol →
      ∀ n0 : ℕ, C * ρ ^ n0 < tol → ∀ maxit, n0 < maxit → ∃ r,
        P.run S .gmres tol smaxit (b + 1) maxit x0 = .ok r ∧ r.converged = true ∧ r.it ≤ n0 ∧
        r.err_0 < tol ∧ r.err_0 = P.err (P.tab r.x) ∧ dist r.x xs ≤ C * r.err_0 := by
  obtain ⟨Li, hLi⟩ := not_eigen hne
  obtain ⟨Ai, hAi⟩ := deriv_inverse h hLi
  obtain ⟨ε, hε, hstep⟩ := gmres_step h hS hc hg hne (κ := 1 / 2) (by norm_num)
  obtain ⟨δ, hδ, C, hC, ρ, hρ0, hρ1, hrun⟩ := search_run (Gs P) _ xs (Rs_zero h) (Gs_deriv' h hS) Ai hAi
    (fun (i : ℝ × ℕ) v => flatten3 P.nm P.N P.nx (P.tot S .gmres i.1 i.2 (P.tab v))) adapted_self
    (by norm_num) (by norm_num) hε hstep b
  refine ⟨δ, hδ, C, hC, ρ, hρ0, hρ1, fun x0 hx0 smaxit tol htol n0 hn0 maxit hmax => ?_⟩
  obtain ⟨r, h1, h2, h3, h4, h5, h6⟩ := hrun x0 hx0 (tol, smaxit) tol htol n0 hn0 maxit hmax
  exact ⟨r, by rw [run_eq]; exact h1, h2, h3, h4, by rw [err_eq]; exact h5, h6⟩

/-- **C123, speed.**  For the variant `gmres` the convergence is faster than linear: near the solution the whole step is
accepted by the line search, and it divides the distance to the solution by any factor given in advance. -/
theorem C123_superlinear (h : ItiRegular P xs) (hS : S.Exact P.nx) {c : ℝ} (hc : 0 ≤ c)
    (hg : S.Gmres (P.nm * P.N * P.nx) c) (hne : ¬ IsEigenvalue (P.opMatrix S xs) 1) {κ : ℝ} (hκ : 0 < κ) (b : ℕ) :
    ∃ ε > 0, ∀ x : Ctrl P, dist x xs < ε → x ≠ xs → ∀ smaxit tol, ∃ x' : Ctrl P,
      itiSearch (fun b => flatten3 P.nm P.N P.nx (P.trial S .gmres tol smaxit (P.tab x) b)) (fun v => P.err (P.tab v))
        (P.err (P.tab x)) b = x' ∧
      x' = x - flatten3 P.nm P.N P.nx (P.tot S .gmres tol smaxit (P.tab x)) ∧
      dist x' xs ≤ κ * dist x xs ∧ P.err (P.tab x') < P.err (P.tab x) := by
  obtain ⟨Li, hLi⟩ := not_eigen hne
  obtain ⟨Ai, hAi⟩ := deriv_inverse h hLi
  obtain ⟨C, hC, ε1, hε1, heq⟩ := residual_equiv (Gs P) _ xs (Rs_zero h) (Gs_deriv' h hS) Ai hAi
  set κ' := min (min κ 1) (1 / (2 * C * C)) with hκ'
  have hκ'0 : 0 < κ' := by positivity
  obtain ⟨ε2, hε2, hstep⟩ := gmres_step h hS hc hg hne hκ'0
  refine ⟨min ε1 ε2, lt_min hε1 hε2, fun x hx hxs smaxit tol => ?_⟩
  rw [dist_eq_norm] at hx
  have hs := hstep (tol, smaxit) x (hx.trans_le (min_le_right _ _))
  have hx0 : 0 < ‖x - xs‖ := norm_pos_iff.2 (sub_ne_zero.2 hxs)
  set tot := flatten3 P.nm P.N P.nx (P.tot S .gmres tol smaxit (P.tab x)) with htot
  have hx' : ‖x - tot - xs‖ ≤ κ' * ‖x - xs‖ := by
    have e : x - tot - xs = x - xs - tot := by abel
    rw [e]
    exact hs
  have hk1 : κ' ≤ 1 := (min_le_left _ _).trans (min_le_right _ _)
  have herr : P.err (P.tab (x - tot)) < P.err (P.tab x) := by
    rw [err_eq, err_eq]
    have a := (heq x (hx.trans_le (min_le_left _ _))).1
    have b := (heq (x - tot) (by
      refine lt_of_le_of_lt hx' (lt_of_le_of_lt ?_ (hx.trans_le (min_le_left _ _)))
      exact mul_le_of_le_one_left hx0.le hk1)).2
    have hk2 : κ' ≤ 1 / (2 * C * C) := min_le_right _ _
    change ‖Gs P (x - tot)‖ < ‖Gs P x‖
    have hG : 0 < ‖Gs P x‖ := by
      by_contra hcon
      have : ‖Gs P x‖ = 0 := le_antisymm (not_lt.1 hcon) (norm_nonneg _)
      rw [this, mul_zero] at a
      linarith
    calc ‖Gs P (x - tot)‖ ≤ C * ‖x - tot - xs‖ := b
      _ ≤ C * (κ' * (C * ‖Gs P x‖)) := by
          refine mul_le_mul_of_nonneg_left (hx'.trans (mul_le_mul_of_nonneg_left a hκ'0.le)) hC.le
      _ ≤ C * (1 / (2 * C * C) * (C * ‖Gs P x‖)) := by
          refine mul_le_mul_of_nonneg_left (mul_le_mul_of_nonneg_right hk2 (by positivity)) hC.le
      _ = ‖Gs P x‖ / 2 := by field_simp
      _ < ‖Gs P x‖ := by linarith
  refine ⟨x - tot, ?_, rfl, ?_, herr⟩
  · have h0 : flatten3 P.nm P.N P.nx (P.trial S .gmres tol smaxit (P.tab x) 0) = x - tot := by
      rw [trial_eq]; simp [htot]
    unfold itiSearch
    have : backSteps (fun b => decide (P.err (P.tab (flatten3 P.nm P.N P.nx (P.trial S .gmres tol smaxit (P.tab x) b)))
        < P.err (P.tab x))) b 0 = 0 := by
      cases b with
      | zero => rfl
      | succ b => simp [backSteps, h0, herr]
    rw [this]
    exact h0
  · rw [dist_eq_norm, dist_eq_norm]
    exact hx'.trans (mul_le_mul_of_nonneg_right ((min_le_left _ _).trans (min_le_left _ _)) hx0.le)

/-! ### Examples

One control on a grid with one point, and the equation `x - 1 - a X = 0`. -/

private def exProb (a : ℝ) (con : Bool) (ub : Option ℝ) : ItiProblem where
  nm := 1
  nim := 1
  N := 1
  nx := 1
  f := fun _ _ x _ _ X _ => x 0 - 1 - a * X 0
  g := fun _ _ _ _ _ => 0
  s := fun _ _ => 0
  interp := fun t _ _ _ _ => t 0 0 0
  dp := ⟨1, fun _ => 1, fun _ _ => 0, fun _ _ _ => 0, fun _ _ => 1⟩
  lb := fun _ _ _ => none
  ub := fun _ _ _ => ub
  constrained := con
  dres := fun _ _ _ _ _ => 1
  jres := fun _ _ _ _ _ _ => -a

private def exSolv : ItiSolvers where
  solve := fun A b _ => b 0 / A 0 0
  gmres := fun op b _ _ => b 0 / op (fun _ => 1) 0

private theorem one_fin (r q : Fin (1 * 1 * 1)) : r = q := Fin.ext (by have := r.2; have := q.2; omega)

private theorem exSolv_exact : exSolv.Exact 1 := by
  intro A b hA i hi
  have hi' : i = 0 := by omega
  subst hi'
  have h0 : A 0 0 ≠ 0 := by
    intro h0
    have := hA (fun _ => 1) (fun k hk => by
      have hk' : k = 0 := by omega
      subst hk'
      simp [h0]) 0 (by norm_num)
    norm_num at this
  simp only [exSolv, Finset.sum_range_one]
  field_simp

private theorem exSolv_gmres : exSolv.Gmres (1 * 1 * 1) 0 := by
  intro A op hop hA b tol _ r
  have h1 : ∀ v, op v 0 = A 0 0 * v 0 := fun v => by
    have := hop v 0
    rw [Fintype.sum_eq_single (0 : Fin (1 * 1 * 1)) (fun j hj => absurd (one_fin j 0) hj)] at this
    exact this
  have h2 : A 0 0 ≠ 0 := by
    intro h
    have : A = 0 := by
      ext i j
      rw [one_fin i 0, one_fin j 0, h]
      rfl
    rw [this, isUnit_iff_ne_zero] at hA
    exact hA Matrix.det_zero
  have hr : (r : ℕ) = 0 := by have := r.2; omega
  rw [hr, h1]
  simp only [exSolv, h1]
  have : A 0 0 * (b 0 / (A 0 0 * 1)) - b 0 = 0 := by field_simp; ring
  rw [this]
  simp

private theorem exProb_tab (v : Fin (1 * 1 * 1) → ℝ) : reshape3 1 1 1 v 0 0 0 = v 0 := by
  rw [show reshape3 1 1 1 v 0 0 0 = _ from tabOf_at v (by norm_num) (by norm_num) (by norm_num)]
  rfl

private theorem exProb_res (a : ℝ) (con : Bool) (ub : Option ℝ) (x t : Table ℝ) (i n k : ℕ) :
    residualsSimple (exProb a con ub).f (exProb a con ub).g (exProb a con ub).s x ((exProb a con ub).interp t)
      (exProb a con ub).dp i n k = x i n 0 - 1 - a * t 0 0 0 := by
  simp [residualsSimple, exProb]

private theorem exProb_euler (a : ℝ) (con : Bool) (ub : Option ℝ) (p : Ctrl (exProb a con ub) × Ctrl (exProb a con ub))
    (r : Fin (1 * 1 * 1)) : (exProb a con ub).euler p r = p.1 (0 : Fin (1 * 1 * 1)) - 1 - a * p.2 (0 : Fin (1 * 1 * 1)) := by
  have hr : (r : ℕ) = 0 := by have := r.2; omega
  unfold ItiProblem.euler
  simp only [flatten3, ravel3, exProb_res, hr, Nat.zero_div, Nat.zero_mod]
  exact congrArg₂ (fun x y => x - 1 - a * y) (exProb_tab p.1) (exProb_tab p.2)

private theorem exProb_deriv (a : ℝ) (con : Bool) (ub : Option ℝ) (v : Fin (1 * 1 * 1) → ℝ) :
    ItiDeriv 1 1 1 1 (exProb a con ub).f (exProb a con ub).g (exProb a con ub).s (exProb a con ub).interp
      (exProb a con ub).dp v (fun _ _ _ _ => 1) (fun _ _ _ _ _ => -a) where
  inodes := fun _ _ => rfl
  linear := fun _ _ _ _ _ _ _ => rfl
  smooth := by
    have h1 : Differentiable ℝ (fun p : (Fin (1 * 1 * 1) → ℝ) × (Fin (1 * 1 * 1) → ℝ) =>
        fun _ : Fin (1 * 1 * 1) => p.1 0 - 1 - a * p.2 0) := by fun_prop
    have h2 : (fun p : (Fin (1 * 1 * 1) → ℝ) × (Fin (1 * 1 * 1) → ℝ) => fun _ : Fin (1 * 1 * 1) => p.1 0 - 1 - a * p.2 0)
        = (exProb a con ub).euler := by
      funext p r
      exact (exProb_euler a con ub p r).symm
    rw [h2] at h1
    exact h1 _
  dres := by
    intro i hi n hn k hk dir
    have hi' : i = 0 := by omega
    have hn' : n = 0 := by omega
    subst hi' hn'
    simp only [exProb_res, and_self, if_true, Finset.sum_range_one]
    have h1 : HasDerivAt (fun t : ℝ => t * dir 0) (dir 0) 0 := by
      simpa using (hasDerivAt_id (0 : ℝ)).mul_const (dir 0)
    have h2 := ((h1.const_add (tabOf 1 1 1 v 0 0 0)).sub_const 1).sub_const (a * tabOf 1 1 1 v 0 0 0)
    rw [one_mul]
    exact h2
  jres := by
    intro i hi j hj n hn k hk dir
    simp only [exProb, Finset.sum_range_one, one_mul]
    have h1 : HasDerivAt (fun t : ℝ => t * dir 0) (dir 0) 0 := by
      simpa using (hasDerivAt_id (0 : ℝ)).mul_const (dir 0)
    have h2 := ((h1.add_const (tabOf 1 1 1 v 0 0 0)).const_mul a).const_sub (tabOf 1 1 1 v i n 0 - 1)
    rw [neg_mul]
    exact h2

private theorem exProb_smooth (a : ℝ) (con : Bool) (ub : Option ℝ) (z) : ContDiffAt ℝ 1 (exProb a con ub).euler z := by
  have h1 : ContDiff ℝ 1 (fun p : (Fin (1 * 1 * 1) → ℝ) × (Fin (1 * 1 * 1) → ℝ) =>
      fun _ : Fin (1 * 1 * 1) => p.1 0 - 1 - a * p.2 0) := by fun_prop
  have h2 : (fun p : (Fin (1 * 1 * 1) → ℝ) × (Fin (1 * 1 * 1) → ℝ) => fun _ : Fin (1 * 1 * 1) => p.1 0 - 1 - a * p.2 0)
      = (exProb a con ub).euler := by
    funext p r
    exact (exProb_euler a con ub p r).symm
  rw [h2] at h1
  exact h1.contDiffAt

private theorem exProb_raw (a : ℝ) (con : Bool) (ub : Option ℝ) (v : Fin (1 * 1 * 1) → ℝ) (k : ℕ) :
    (exProb a con ub).raw (reshape3 1 1 1 v) 0 0 k = v 0 - 1 - a * v 0 := by
  rw [ItiProblem.raw, exProb_res, exProb_tab]

private theorem exProb_free (a x : ℝ) (hx : x - 1 - a * x = 0) : ItiRegular (exProb a false none) (fun _ => x) where
  size := by simp [exProb]
  linear := fun _ _ _ _ _ _ _ => rfl
  local_ := fun t u h => by
    funext i j S l
    exact h 0 (by norm_num [exProb]) 0 (by norm_num [exProb]) 0 (by norm_num [exProb])
  smooth := exProb_smooth _ _ _ _
  deriv := Eventually.of_forall fun v => exProb_deriv _ _ _ v
  zero := by
    intro _ i hi n hn k hk
    have hi' : i = 0 := Nat.lt_one_iff.1 hi
    have hn' : n = 0 := Nat.lt_one_iff.1 hn
    subst hi' hn'
    exact (exProb_raw a false none (fun _ => x) k).trans hx
  mcp := fun h => absurd h (by simp [exProb])
  strict := fun h => absurd h (by simp [exProb])
  nonsingular := by
    intro i _ n _ v hv j hj
    have hj' : j = 0 := Nat.lt_one_iff.1 hj
    subst hj'
    have h0 := hv 0 (by norm_num [exProb])
    simpa [exProb, ItiProblem.arrays] using h0

private theorem exProb_bound : ItiRegular (exProb (1 / 2) true (some 1)) (fun _ => 1) where
  size := by simp [exProb]
  linear := fun _ _ _ _ _ _ _ => rfl
  local_ := fun t u h => by
    funext i j S l
    exact h 0 (by norm_num [exProb]) 0 (by norm_num [exProb]) 0 (by norm_num [exProb])
  smooth := exProb_smooth _ _ _ _
  deriv := Eventually.of_forall fun v => exProb_deriv _ _ _ v
  zero := fun h => absurd h (by simp [exProb])
  mcp := by
    intro _ i hi n hn k hk
    have hi' : i = 0 := Nat.lt_one_iff.1 hi
    have hn' : n = 0 := Nat.lt_one_iff.1 hn
    have hk' : k = 0 := Nat.lt_one_iff.1 hk
    subst hi' hn' hk'
    have h1 := exProb_raw (1 / 2) true (some 1) (fun _ => 1) 0
    have h2 := exProb_tab (fun _ => 1)
    change SolvesMCP none (some 1) (reshape3 1 1 1 (fun _ => 1) 0 0 0)
      ((exProb (1 / 2) true (some 1)).raw (reshape3 1 1 1 (fun _ => 1)) 0 0 0)
    rw [h1, h2]
    refine ⟨fun l hl => (by cases hl), fun u hu => (by cases hu; norm_num), fun h => ?_, fun _ => rfl⟩
    norm_num at h
  strict := by
    intro _ i hi n hn k hk
    have hi' : i = 0 := Nat.lt_one_iff.1 hi
    have hn' : n = 0 := Nat.lt_one_iff.1 hn
    have hk' : k = 0 := Nat.lt_one_iff.1 hk
    subst hi' hn' hk'
    have h1 := exProb_raw (1 / 2) true (some 1) (fun _ => 1) 0
    have h2 := exProb_tab (fun _ => 1)
    refine ⟨fun l hl => absurd hl (by simp [exProb]), fun l hl => absurd hl (by simp [exProb]), fun u hu => ?_⟩
    have hu' : u = 1 := by simpa [exProb, eq_comm] using hu
    subst hu'
    change (_ → (exProb (1 / 2) true (some 1)).raw (reshape3 1 1 1 (fun _ => 1)) 0 0 0 ≠ 0) ∧
      1 - reshape3 1 1 1 (fun _ => 1) 0 0 0 ≠ (100000 : ℝ)
    rw [h1, h2]
    norm_num
  nonsingular := by
    intro i hi n hn v hv j hj
    have hi' : i = 0 := Nat.lt_one_iff.1 hi
    have hn' : n = 0 := Nat.lt_one_iff.1 hn
    have hj' : j = 0 := Nat.lt_one_iff.1 hj
    subst hi' hn' hj'
    have h0 := hv 0 (by norm_num [exProb])
    have h1 := exProb_raw (1 / 2) true (some 1) (fun _ => 1) 0
    have h2 := exProb_tab (fun _ => 1)
    have hs : √(4 : ℝ) = 2 := by
      rw [show (4 : ℝ) = 2 * 2 by norm_num, Real.sqrt_mul_self (by norm_num)]
    have hd : ((exProb (1 / 2) true (some 1)).arrays (reshape3 1 1 1 fun _ => 1)).dres 0 0 0 0 = 1 := by
      unfold ItiProblem.arrays
      simp only [show (exProb (1 / 2) true (some 1)).constrained = true from rfl, negArrays, smoothArrays, if_true, h1, h2]
      simp only [exProb]
      norm_num [itiH, itiPhiA, itiPhiB, dinf]
      rw [hs]
      norm_num
    have h3 : ∑ j ∈ Finset.range 1, ((exProb (1 / 2) true (some 1)).arrays (reshape3 1 1 1 fun _ => 1)).dres 0 0 0 j * v j
      = 0 := h0
    rw [Finset.sum_range_one, hd, one_mul] at h3
    exact h3

private theorem exProb_eigen (a x : ℝ) (z : ℂ) (hz : IsEigenvalue ((exProb a false none).opMatrix exSolv fun _ => x) z) :
    z = a := by
  obtain ⟨v, hv, hz⟩ := hz
  have hm : (exProb a false none).opMatrix exSolv (fun _ => x) (0 : Fin (1 * 1 * 1)) (0 : Fin (1 * 1 * 1)) = a := by
    simp [ItiProblem.opMatrix, reportedMatrix, reportedOperator, ItiOperator.asMatrix, ItiOperator.size, asMatrixLoop,
        ItiOperator.apply, ravel3, dFiltDx_sum, unravel3, setEntry, exProb, premultiplied, exSolv, ItiProblem.arrays]
  have h0 := congrFun hz (0 : Fin (1 * 1 * 1))
  have hv0 : v (0 : Fin (1 * 1 * 1)) ≠ 0 := by
    intro hc
    apply hv
    funext i
    exact (congrArg v (one_fin i 0)).trans hc
  have hsum : (((exProb a false none).opMatrix exSolv fun _ => x).map Complex.ofReal).mulVec v (0 : Fin (1 * 1 * 1))
      = (a : ℂ) * v (0 : Fin (1 * 1 * 1)) := by
    have e : ∑ j : Fin (1 * 1 * 1), (((exProb a false none).opMatrix exSolv fun _ => x).map Complex.ofReal)
        (0 : Fin (1 * 1 * 1)) j * v j = (((exProb a false none).opMatrix exSolv fun _ => x).map Complex.ofReal)
        (0 : Fin (1 * 1 * 1)) (0 : Fin (1 * 1 * 1)) * v (0 : Fin (1 * 1 * 1)) :=
      Fintype.sum_eq_single (0 : Fin (1 * 1 * 1)) (fun j hj => absurd (one_fin j 0) hj)
    refine Eq.trans e ?_
    exact congrArg (fun y : ℝ => (y : ℂ) * v (0 : Fin (1 * 1 * 1))) hm
  rw [hsum] at h0
  exact (mul_right_cancel₀ hv0 h0).symm

/-- The hypotheses of `C123_default` can be met: `x = 1 + X / 2`, whose solution is `2`. -/
example : ∃ ε > 0, ∀ x0 : Fin (1 * 1 * 1) → ℝ, dist x0 (fun _ => 2) < ε → ∃ maxit r,
    (exProb (1 / 2) false none).run exSolv .iti (1 / 1000000) 500 10 maxit x0 = .ok r ∧ r.converged = true := by
  obtain ⟨ε, hε, C, hC, ρ, hρ0, hρ1, h⟩ := C123_default (exProb_free (1 / 2) 2 (by norm_num)) exSolv_exact
    (fun z hz => by rw [exProb_eigen _ _ z hz]; norm_num) 9
  refine ⟨ε, hε, fun x0 hx0 => ?_⟩
  obtain ⟨n, hn⟩ := exists_pow_lt_of_lt_one (show 0 < 1 / 1000000 / C by positivity) hρ1
  obtain ⟨r, h1, h2, -⟩ := h x0 hx0 500 (by norm_num) (1 / 1000000) (by norm_num) n (by
    rw [lt_div_iff₀ hC] at hn; linarith) (n + 1) (by omega)
  exact ⟨n + 1, r, h1, h2⟩

/-- The hypotheses of `C123_gmres` can be met: `x = 1 + 2 X`, whose solution is `-1`; the radius is two. -/
example : ∃ ε > 0, ∀ x0 : Fin (1 * 1 * 1) → ℝ, dist x0 (fun _ => -1) < ε → ∃ maxit r,
    (exProb 2 false none).run exSolv .gmres (1 / 1000000) 500 10 maxit x0 = .ok r ∧ r.converged = true := by
  obtain ⟨ε, hε, C, hC, ρ, hρ0, hρ1, h⟩ := C123_gmres (exProb_free 2 (-1) (by norm_num)) exSolv_exact le_rfl exSolv_gmres
    (fun hz => by have := exProb_eigen _ _ 1 hz; norm_num at this) 9
  refine ⟨ε, hε, fun x0 hx0 => ?_⟩
  obtain ⟨n, hn⟩ := exists_pow_lt_of_lt_one (show 0 < 1 / 1000000 / C by positivity) hρ1
  obtain ⟨r, h1, h2, -⟩ := h x0 hx0 500 (1 / 1000000) (by norm_num) n (by
    rw [lt_div_iff₀ hC] at hn; linarith) (n + 1) (by omega)
  exact ⟨n + 1, r, h1, h2⟩

/-- The same with complementarities, `x = 1 + X / 2` with `x <= 1`: the bound binds. -/
example : ItiRegular (exProb (1 / 2) true (some 1)) (fun _ => 1) := exProb_bound

private theorem exProb_bound_eigen (z : ℂ) (hz : IsEigenvalue ((exProb (1 / 2) true (some 1)).opMatrix exSolv fun _ => 1) z) :
    z = 0 := by
  obtain ⟨v, hv, hz⟩ := hz
  have hj : ((exProb (1 / 2) true (some 1)).arrays (reshape3 1 1 1 fun _ => 1)).jres 0 0 0 0 0 = 0 := by
    have h1 := exProb_raw (1 / 2) true (some 1) (fun _ => 1) 0
    have h2 := exProb_tab (fun _ => 1)
    have hs : √(4 : ℝ) = 2 := by
      rw [show (4 : ℝ) = 2 * 2 by norm_num, Real.sqrt_mul_self (by norm_num)]
    unfold ItiProblem.arrays
    simp only [show (exProb (1 / 2) true (some 1)).constrained = true from rfl, negArrays, smoothArrays, scaleJres, if_true, h1, h2]
    simp only [exProb]
    norm_num [itiH, itiPhiA, itiPhiB, dinf]
    try rw [hs]
    try norm_num
  have hm : (exProb (1 / 2) true (some 1)).opMatrix exSolv (fun _ => 1) (0 : Fin (1 * 1 * 1)) (0 : Fin (1 * 1 * 1)) = 0 := by
    unfold ItiProblem.opMatrix
    change ((exProb (1 / 2) true (some 1)).arrays (reshape3 1 1 1 fun _ => 1)).jres 0 0 0 0 0 = 0 at hj
    have ht : (exProb (1 / 2) true (some 1)).tab (fun _ => 1) = reshape3 1 1 1 fun _ => 1 := rfl
    simp only [ht]
    generalize (exProb (1 / 2) true (some 1)).arrays (reshape3 1 1 1 fun _ => 1) = A at hj ⊢
    simp [reportedMatrix, reportedOperator, ItiOperator.asMatrix, ItiOperator.size, asMatrixLoop,
        ItiOperator.apply, ravel3, dFiltDx_sum, unravel3, setEntry, premultiplied, exSolv, exProb, hj]
  have h0 := congrFun hz (0 : Fin (1 * 1 * 1))
  have hv0 : v (0 : Fin (1 * 1 * 1)) ≠ 0 := by
    intro hc
    apply hv
    funext i
    exact (congrArg v (one_fin i 0)).trans hc
  have hsum : (((exProb (1 / 2) true (some 1)).opMatrix exSolv fun _ => 1).map Complex.ofReal).mulVec v (0 : Fin (1 * 1 * 1))
      = 0 := by
    have e : ∑ j : Fin (1 * 1 * 1), (((exProb (1 / 2) true (some 1)).opMatrix exSolv fun _ => 1).map Complex.ofReal)
        (0 : Fin (1 * 1 * 1)) j * v j = (((exProb (1 / 2) true (some 1)).opMatrix exSolv fun _ => 1).map Complex.ofReal)
        (0 : Fin (1 * 1 * 1)) (0 : Fin (1 * 1 * 1)) * v (0 : Fin (1 * 1 * 1)) :=
      Fintype.sum_eq_single (0 : Fin (1 * 1 * 1)) (fun j hj => absurd (one_fin j 0) hj)
    refine Eq.trans e ?_
    exact (congrArg (fun y : ℝ => (y : ℂ) * v (0 : Fin (1 * 1 * 1))) hm).trans (by simp)
  rw [hsum] at h0
  have h0' : z * v (0 : Fin (1 * 1 * 1)) = 0 := h0.symm
  exact (mul_eq_zero.1 h0').resolve_right hv0

/-- With the bound binding, `x = 1 + X / 2` with `x <= 1`, improved time iteration converges from near the solution. -/
theorem exists_bound_converges : ∃ (P : ItiProblem) (S : ItiSolvers) (x0 : Ctrl P) (maxit : ℕ) (r : ITIResult (Ctrl P) ℝ),
    P.run S .iti (1 / 1000000) 500 10 maxit x0 = .ok r ∧ r.converged = true ∧ P.constrained = true ∧
    P.nm = 1 ∧ P.N = 1 ∧ P.nx = 1 ∧ P.lb 0 0 0 = none ∧ P.ub 0 0 0 = some 1 := by
  obtain ⟨ε, hε, C, hC, ρ, hρ0, hρ1, h⟩ := C123_default exProb_bound exSolv_exact
    (fun z hz => by rw [exProb_bound_eigen z hz]; norm_num) 9
  obtain ⟨n, hn⟩ := exists_pow_lt_of_lt_one (show 0 < 1 / 1000000 / C by positivity) hρ1
  obtain ⟨r, h1, h2, -⟩ := h (fun _ => 1) (by rw [dist_self]; exact hε) 500 (by norm_num) (1 / 1000000) (by norm_num) n (by
    rw [lt_div_iff₀ hC] at hn; linarith) (n + 1) (by omega)
  exact ⟨_, _, _, n + 1, r, h1, h2, rfl, rfl, rfl, rfl, rfl, rfl⟩

end

end Dolo
