import Verif.Lemmas.TISerial

/-!
# C125: time_iteration converges near a regular solution

`R = n_ms * N` rows (a node of the process and a grid point), `n` controls per row; `cut R n x` reads the entries of
an array.
-/

set_option linter.unusedSectionVars false

namespace Dolo

open Filter Topology

/-- The number of rows. -/
abbrev TIModel.rows (M : TIModel ℝ) : ℕ := M.dp.nNodes * M.N

/-- The residuals as equations: `F r (v, x)` are the residuals at row `r` with controls `v` at that row today and,
tomorrow, the rule with values `x` on the grid. -/
def ResidualsAre (M : TIModel ℝ) (F : Fin M.rows → (Fin M.nx → ℝ) × Rows M.rows M.nx → Fin M.nx → ℝ) : Prop :=
  ∀ x z (r : Fin M.rows) (k : Fin M.nx), tiFn M x z r k = F r (cut M.rows M.nx z r, cut M.rows M.nx x) k

/-- A regular solution: the residuals are zero, continuously differentiable in today's controls and in tomorrow's rule,
and to first order determine today's controls. -/
structure TIRegular (M : TIModel ℝ) (F : Fin M.rows → (Fin M.nx → ℝ) × Rows M.rows M.nx → Fin M.nx → ℝ)
    (xs : Rows M.rows M.nx) : Prop where
  residuals : ResidualsAre M F
  root : ∀ r, F r (xs r, xs) = 0
  smooth : ∀ r, ContDiffAt ℝ 1 (F r) (xs r, xs)
  invertible : ∀ r v, fderiv ℝ (F r) (xs r, xs) (v, 0) = 0 → v = 0

/-- `L u` is the first-order change of today's controls when the rule used tomorrow changes by `u`. -/
def IsResponse {R n : ℕ} (F : Fin R → (Fin n → ℝ) × Rows R n → Fin n → ℝ) (xs : Rows R n)
    (L : Rows R n →L[ℝ] Rows R n) : Prop :=
  ∀ u r, fderiv ℝ (F r) (xs r, xs) (L u r, u) = 0

/-- What is claimed of a call: it returns, after at most `n0 + 1` iterations when `C ρ ^ n0 < tol`, with a last change
of at most `tol`, the flag telling whether it is below `tol`, and values within `C * max tol tin` of the solution, `tin`
being the tolerance of the inner solver. -/
def CallConverges (M : TIModel ℝ) (S : TISolvers ℝ) (o : TIOpts ℝ) (comp : Bool) (xs : Rows M.rows M.nx)
    (C ρ tin : ℝ) : Prop :=
  ∀ n0 : ℕ, C * ρ ^ n0 < o.tol → n0 < o.maxit → ∃ res, timeIterationFull M S o = .ok res ∧
    res.iterations ≤ n0 + 1 ∧ res.err ≤ o.tol ∧ (res.x_converged = true ↔ res.err < o.tol) ∧
    res.complementarities = comp ∧
    ∀ (r : Fin M.rows) (k : Fin M.nx), |toRows M.N res.dr r k - xs r k| ≤ C * max o.tol tin

/-- The response exists and is unique at a regular solution. -/
theorem C125_response {M : TIModel ℝ} {F : Fin M.rows → (Fin M.nx → ℝ) × Rows M.rows M.nx → Fin M.nx → ℝ}
    {xs : Rows M.rows M.nx} (h : TIRegular M F xs) : ∃! L, IsResponse F xs L := by
  choose Ai hAi using fun r => exists_left_inverse (ownPart (fderiv ℝ (F r) (xs r, xs))) (h.invertible r)
  have hAi' : ∀ r w, ownPart (fderiv ℝ (F r) (xs r, xs)) (Ai r w) = w := by
    intro r w
    have hinj : Function.Injective (Ai r : (Fin M.nx → ℝ) →ₗ[ℝ] (Fin M.nx → ℝ)) := by
      rw [LinearMap.injective_iff_surjective]
      intro v
      exact ⟨_, hAi r v⟩
    apply hinj
    exact hAi r (Ai r w)
  have split : ∀ (r : Fin M.rows) (v : Fin M.nx → ℝ) (u : Rows M.rows M.nx), fderiv ℝ (F r) (xs r, xs) (v, u)
      = ownPart (fderiv ℝ (F r) (xs r, xs)) v + fderiv ℝ (F r) (xs r, xs) (0, u) := by
    intro r v u
    have e : ((v, u) : (Fin M.nx → ℝ) × Rows M.rows M.nx) = (v, 0) + (0, u) := by simp
    rw [e, map_add]
    rfl
  refine ⟨ContinuousLinearMap.pi fun r => -((Ai r).comp ((fderiv ℝ (F r) (xs r, xs)).comp
    (ContinuousLinearMap.inr ℝ (Fin M.nx → ℝ) (Rows M.rows M.nx)))), fun u r => ?_, fun L hL => ?_⟩
  · rw [split]
    change ownPart (fderiv ℝ (F r) (xs r, xs)) (-(Ai r (fderiv ℝ (F r) (xs r, xs) (0, u)))) + _ = 0
    rw [map_neg, hAi', neg_add_cancel]
  · refine ContinuousLinearMap.ext fun u => ?_
    funext r
    have h1 := hL u r
    rw [split] at h1
    change L u r = -(Ai r (fderiv ℝ (F r) (xs r, xs) (0, u)))
    rw [← hAi r (L u r), eq_neg_of_add_eq_zero_left h1, map_neg]

private theorem toRows_ofRows (N : ℕ) (x : ℕ → ℕ → ℝ) (r k : ℕ) : toRows N (ofRows N x) r k = x r k := by
  unfold toRows ofRows
  rw [Nat.div_add_mod']

private theorem full_eq {M : TIModel ℝ} {S : TISolvers ℝ} {o : TIOpts ℝ} {t0 : Table ℝ}
    {b : Option ((ℕ → ℕ → Option ℝ) × (ℕ → ℕ → Option ℝ))} {res : TIResult (ℕ → ℕ → ℝ) ℝ} (h0 : tiInit M o = .ok t0)
    (hb : tiBounds M o = .ok b)
    (hr : timeIteration (tiUpdate M S b) (fun a b => maxAbs M.rows M.nx fun r k => a r k - b r k) o.tol o.maxit
      (toRows M.N t0) = .ok res) :
    timeIterationFull M S o = .ok ⟨ofRows M.N res.controls, res.iterations, b.isSome, res.converged, res.err,
      if o.trace then some (tiTrace M (tiUpdate M S b) res.iterations (toRows M.N t0) ++ [ofRows M.N res.controls])
      else none⟩ := by
  unfold timeIterationFull
  rw [h0, hb]
  change (timeIteration (tiUpdate M S b) (fun a b => maxAbs M.rows M.nx fun r k => a r k - b r k) o.tol o.maxit
      (toRows M.N t0)).bind _ = _
  rw [hr]
  rfl

private theorem near_norm {M : TIModel ℝ} {t : ℕ → ℕ → ℝ} {xs : Rows M.rows M.nx} {δ : ℝ} (hδ : 0 < δ)
    (h : ∀ (r : Fin M.rows) (k : Fin M.nx), |t r k - xs r k| < δ) : ‖cut M.rows M.nx t - xs‖ < δ :=
  (pi_norm_lt_iff hδ).2 fun r => (pi_norm_lt_iff hδ).2 fun k => h r k

/-- **C125, without bounds.**  Near a regular solution such that the eigenvalues of the response are below `ρ < 1` in
modulus, `time_iteration` (with numerical derivatives whose step is small enough, whatever the tolerance of the inner
Newton solver and its number of iterations) converges at the rate `ρ`. -/
theorem C125_newton (M : TIModel ℝ) (F : Fin M.rows → (Fin M.nx → ℝ) × Rows M.rows M.nx → Fin M.nx → ℝ)
    (xs : Rows M.rows M.nx) (h : TIRegular M F xs) (L : Rows M.rows M.nx →L[ℝ] Rows M.rows M.nx) (hL : IsResponse F xs L)
    {ρ : ℝ} (hρ0 : 0 < ρ) (hρ1 : ρ < 1) (heig : ∀ z, IsEigenvalue (rowsMatrix L) z → ‖z‖ < ρ) :
    ∃ h0 > 0, ∃ δ > 0, ∃ C > 0, ∀ eps : ℝ, eps ≠ 0 → |eps| < h0 → ∀ tin, 0 < tin → ∀ ncpTol, ∀ inner, 1 ≤ inner →
      ∀ o : TIOpts ℝ, tiBounds M o = .ok none → 0 < o.tol → o.tol < 10 → ∀ t0, tiInit M o = .ok t0 →
      (∀ (r : Fin M.rows) (k : Fin M.nx), |toRows M.N t0 r k - xs r k| < δ) →
      CallConverges M (tiSolvers M.rows M.nx eps tin ncpTol inner) o false xs C ρ tin := by
  obtain ⟨k, hk, hLk⟩ := rows_pow_lt L hρ0 heig
  have hd : ∀ r, HasStrictFDerivAt (F r) (fderiv ℝ (F r) (xs r, xs)) (xs r, xs) :=
    fun r => (h.smooth r).hasStrictFDerivAt (by norm_num)
  obtain ⟨η, hη, C, hC, ε0, hε0, hrun⟩ := serial_ti F (fun r => fderiv ℝ (F r) (xs r, xs)) xs h.root hd h.invertible L hL
    hρ0 hρ1 hk hLk
  obtain ⟨h0, hh0, hclose⟩ := diff_close F _ xs hd hη
  obtain ⟨δ, hδ, hgo⟩ := hrun (min ε0 h0) (lt_min hε0 hh0) (min_le_left _ _)
  refine ⟨h0, hh0, δ, hδ, C, hC, fun eps hne heps tin htin ncpTol inner hinner o hb htol htol10 t0 ht0 hnear n0 hn0 hmax => ?_⟩
  obtain ⟨c1, c2⟩ := hclose (tiFn M) h.residuals eps hne heps
  obtain ⟨res, r1, r2, r3, r4, r5⟩ := hgo (fun x => diffFun M.rows M.nx (onRows M.rows M.nx (tiFn M x)) eps) c1
    (fun x z hz hx => c2 x z (hz.trans_le (min_le_right _ _)) (hx.trans_le (min_le_right _ _))) tin htin inner hinner
    (toRows M.N t0) (near_norm hδ hnear) o.tol htol htol10 n0 hn0 o.maxit hmax
  refine ⟨_, full_eq (S := tiSolvers M.rows M.nx eps tin ncpTol inner) ht0 hb r1, r2, r3, r4, rfl, fun r k => ?_⟩
  rw [toRows_ofRows]
  exact (norm_le_pi_norm ((cut M.rows M.nx res.controls - xs) r) k).trans
    ((norm_le_pi_norm (cut M.rows M.nx res.controls - xs) r).trans r5)

/-! ### Bounds -/

/-- A regular solution of the complementarity problem with bounds `a` and `b` (those beyond `1e20` in absolute value are
ignored): strict complementarity, and the residuals of the controls that are not at a bound determine these controls, to
first order. -/
structure TIMcpRegular (M : TIModel ℝ) (F : Fin M.rows → (Fin M.nx → ℝ) × Rows M.rows M.nx → Fin M.nx → ℝ)
    (a b : ℕ → ℕ → Option ℝ) (xs : Rows M.rows M.nx) : Prop where
  residuals : ResidualsAre M F
  strict : ∀ (r : Fin M.rows) (k : Fin M.nx),
    StrictMCP (ncpLower (a r k)) (ncpUpper (b r k)) (xs r k) (F r (xs r, xs) k)
  smooth : ∀ r, ContDiffAt ℝ 1 (F r) (xs r, xs)
  invertible : ∀ r v, (∀ k, F r (xs r, xs) k ≠ 0 → v k = 0) →
    (∀ k, F r (xs r, xs) k = 0 → fderiv ℝ (F r) (xs r, xs) (v, 0) k = 0) → v = 0

/-- The response with bounds: controls at a bound do not move, the residuals of the others stay zero. -/
def IsResponseMcp {R n : ℕ} (F : Fin R → (Fin n → ℝ) × Rows R n → Fin n → ℝ) (xs : Rows R n)
    (L : Rows R n →L[ℝ] Rows R n) : Prop :=
  ∀ u r k, (F r (xs r, xs) k ≠ 0 → L u r k = 0) ∧
    (F r (xs r, xs) k = 0 → fderiv ℝ (F r) (xs r, xs) (L u r, u) k = 0)

/-- **C125, with bounds.**  The same when the model has bounds on the controls and the inner solver is `ncpsolve`. -/
theorem C125_ncpsolve (M : TIModel ℝ) (F : Fin M.rows → (Fin M.nx → ℝ) × Rows M.rows M.nx → Fin M.nx → ℝ)
    (a b : ℕ → ℕ → Option ℝ) (xs : Rows M.rows M.nx) (h : TIMcpRegular M F a b xs)
    (L : Rows M.rows M.nx →L[ℝ] Rows M.rows M.nx) (hL : IsResponseMcp F xs L)
    {ρ : ℝ} (hρ0 : 0 < ρ) (hρ1 : ρ < 1) (heig : ∀ z, IsEigenvalue (rowsMatrix L) z → ‖z‖ < ρ) :
    ∃ h0 > 0, ∃ δ > 0, ∃ C > 0, ∀ eps : ℝ, eps ≠ 0 → |eps| < h0 → ∀ tin, 0 < tin → ∀ newtonTol, ∀ inner, 1 ≤ inner →
      ∀ o : TIOpts ℝ, tiBounds M o = .ok (some (a, b)) → 0 < o.tol → o.tol < 10 → ∀ t0, tiInit M o = .ok t0 →
      (∀ (r : Fin M.rows) (k : Fin M.nx), |toRows M.N t0 r k - xs r k| < δ) →
      CallConverges M (tiSolvers M.rows M.nx eps newtonTol tin inner) o true xs C ρ tin := by
  obtain ⟨k, hk, hLk⟩ := rows_pow_lt L hρ0 heig
  have hd : ∀ r, HasStrictFDerivAt (F r) (fderiv ℝ (F r) (xs r, xs)) (xs r, xs) :=
    fun r => (h.smooth r).hasStrictFDerivAt (by norm_num)
  set A := fun r => fderiv ℝ (F r) (xs r, xs) with hA
  obtain ⟨η, hη, C, hC, ε0, hε0, hrun⟩ := serial_ti (smoothRow F a b) (smoothRowD F A xs) xs
    (fun r => by
      funext k
      exact (strict_values (a r k) (b r k) (xs r k) (F r (xs r, xs) k) (h.strict r k)).2.2.1)
    (smoothRow_strict F A a b xs hd h.strict)
    (fun r v hv => by
      refine h.invertible r v (fun k hk => ?_) (fun k hk => ?_)
      · have := congrFun hv k
        rw [smoothRowD_apply, if_neg hk] at this
        simpa using this
      · have := congrFun hv k
        rw [smoothRowD_apply, if_pos hk] at this
        simpa using this)
    L (fun u r => by
      funext k
      rw [smoothRowD_apply]
      by_cases hk : F r (xs r, xs) k = 0
      · rw [if_pos hk]
        have := (hL u r k).2 hk
        simp only [hA, this, neg_zero, Pi.zero_apply]
      · rw [if_neg hk]
        have := (hL u r k).1 hk
        simp only [this, neg_zero, Pi.zero_apply])
    hρ0 hρ1 hk hLk
  obtain ⟨ε1, hε1, hfc⟩ := fcmp_close F A a b xs (fun r => (h.smooth r).continuousAt) h.strict hη
  obtain ⟨h0, hh0, hclose⟩ := diff_close F A xs hd (η := η / 4) (by positivity)
  obtain ⟨δ, hδ, hgo⟩ := hrun (min ε0 (min ε1 h0)) (lt_min hε0 (lt_min hε1 hh0)) (min_le_left _ _)
  refine ⟨h0, hh0, δ, hδ, C, hC,
    fun eps hne heps tin htin newtonTol inner hinner o hb htol htol10 t0 ht0 hnear n0 hn0 hmax => ?_⟩
  obtain ⟨c1, c2⟩ := hclose (tiFn M) h.residuals eps hne heps
  obtain ⟨res, r1, r2, r3, r4, r5⟩ := hgo
    (fun x => serialFcmp (diffFun M.rows M.nx (onRows M.rows M.nx (tiFn M x)) eps) a b)
    (fun x z r k => by
      change ncpFxnew (z r k) (ncpPval (z r k) (-(diffFun M.rows M.nx (onRows M.rows M.nx (tiFn M x)) eps z).1 r k)
        (a r k)) (b r k) = _
      rw [c1]
      rfl)
    (fun x z hz hx => hfc (fun x => diffFun M.rows M.nx (onRows M.rows M.nx (tiFn M x)) eps) c1 x z
      (hz.trans_le ((min_le_right _ _).trans (min_le_left _ _)))
      (hx.trans_le ((min_le_right _ _).trans (min_le_left _ _)))
      (c2 x z (hz.trans_le ((min_le_right _ _).trans (min_le_right _ _)))
        (hx.trans_le ((min_le_right _ _).trans (min_le_right _ _)))))
    tin htin inner hinner (toRows M.N t0) (near_norm hδ hnear) o.tol htol htol10 n0 hn0 o.maxit hmax
  refine ⟨_, full_eq (S := tiSolvers M.rows M.nx eps newtonTol tin inner) ht0 hb r1, r2, r3, r4, rfl, fun r k => ?_⟩
  rw [toRows_ofRows]
  exact (norm_le_pi_norm ((cut M.rows M.nx res.controls - xs) r) k).trans
    ((norm_le_pi_norm (cut M.rows M.nx res.controls - xs) r).trans r5)

/-! ### The tolerance of the inner solver -/

/-- **C125, a tolerance below that of the inner solver has no effect.**  When the residuals of the initial guess are
below the tolerance of the inner solver, `time_iteration` returns the guess after one iteration and reports convergence
with an error of zero, whatever `tol`.  So the values returned can be no better than the inner tolerance allows, and
the term `tin` in the bound of `C125_newton` cannot be dropped. -/
theorem C125_inner_tolerance (M : TIModel ℝ) (F : Fin M.rows → (Fin M.nx → ℝ) × Rows M.rows M.nx → Fin M.nx → ℝ)
    (hF : ResidualsAre M F) (eps tin ncpTol : ℝ) (inner : ℕ) (htin : 0 < tin) (o : TIOpts ℝ)
    (hb : tiBounds M o = .ok none) (htol : 0 < o.tol) (htol10 : o.tol < 10) (hmax : 1 ≤ o.maxit) (t0 : Table ℝ)
    (ht0 : tiInit M o = .ok t0)
    (hres : ∀ (r : Fin M.rows) (k : Fin M.nx), |tiFn M (toRows M.N t0) (toRows M.N t0) r k| < tin) :
    ∃ res, timeIterationFull M (tiSolvers M.rows M.nx eps tin ncpTol inner) o = .ok res ∧ res.iterations = 1 ∧
      res.err = 0 ∧ res.x_converged = true ∧
      ∀ (r : Fin M.rows) (k : Fin M.nx), toRows M.N res.dr r k = toRows M.N t0 r k := by
  set x0 := toRows M.N t0 with hx0
  set P := serialProblem M.rows M.nx (diffFun M.rows M.nx (onRows M.rows M.nx (tiFn M x0)) eps) with hP
  have hfix : (newton P tin inner x0).x = x0 := by
    obtain ⟨path, p0, p1, p2, p3, p4, p5⟩ := C27_newton P tin inner x0
    have hit : (newton P tin inner x0).it = 0 := by
      by_contra hcon
      have := (p3 0 (Nat.pos_of_ne_zero hcon)).1
      rw [p0] at this
      change tin ≤ maxAbs M.rows M.nx (diffFun M.rows M.nx (onRows M.rows M.nx (tiFn M x0)) eps x0).1 at this
      rw [maxAbs_eq_norm] at this
      refine absurd this (not_le.2 ((pi_norm_lt_iff htin).2 fun r => (pi_norm_lt_iff htin).2 fun k => ?_))
      have e := (diffFun_entries (fun r v => F r (v, cut M.rows M.nx x0)) (onRows M.rows M.nx (tiFn M x0))
        (onRows_computes _ (tiFn M x0) fun z r k => hF x0 z r k) eps x0 r k).1
      change |(diffFun M.rows M.nx (onRows M.rows M.nx (tiFn M x0)) eps x0).1 r k| < tin
      rw [e, ← hF x0 x0 r k]
      exact hres r k
    rw [← p1, hit, p0]
  set upd := tiUpdate M (tiSolvers M.rows M.nx eps tin ncpTol inner) none with hupd
  have hupd0 : upd x0 = x0 := hfix
  set dst : (ℕ → ℕ → ℝ) → (ℕ → ℕ → ℝ) → ℝ := fun a b => maxAbs M.rows M.nx fun r k => a r k - b r k with hdst
  have hdst0 : dst x0 x0 = 0 := by
    have e : dst x0 x0 = ‖cut M.rows M.nx fun r k => x0 r k - x0 r k‖ := maxAbs_eq_norm _
    rw [e]
    have : (cut M.rows M.nx fun r k => x0 r k - x0 r k) = 0 := by
      funext r k
      simp [cut]
    rw [this, norm_zero]
  obtain ⟨r, hr⟩ := (C28_returns upd dst o.tol o.maxit x0).2 ⟨hmax, htol10⟩
  obtain ⟨h1, h2, h3, h4, h5, h6, h7⟩ := C28_time_iteration upd dst o.tol o.maxit x0 r hr
  have hiter : ∀ t, upd^[t] x0 = x0 := fun t => by
    induction t with
    | zero => rfl
    | succ t ih => rw [Function.iterate_succ_apply', ih, hupd0]
  have herr : r.err = 0 := by rw [h4, hiter, hiter, hdst0]
  refine ⟨_, full_eq ht0 hb hr, ?_, herr, h5.2 (by rw [herr]; exact htol), fun p k => ?_⟩
  · by_contra hcon
    have hcon' : r.iterations ≠ 1 := hcon
    have := h6 1 le_rfl (by omega)
    rw [hiter, hiter, hdst0] at this
    exact absurd this (not_lt.2 htol.le)
  · rw [toRows_ofRows, h3, hiter]

/-! ### Example -/

section examples

/-- Two grid points `0` and `1`, one node, one control; the rule is evaluated at the first grid point.  Equation
`x + x² - X / 2 = c s` where `X` is the control tomorrow.  With `c = 2` the solution is `0` at the first point and `1` at
the second. -/
private noncomputable def exTI (c : ℝ) (lb : Option ((m s : ℕ → ℝ) → ℕ → Option ℝ)) : TIModel ℝ where
  N := 2
  s := fun n _ => n
  nx := 1
  x0 := fun _ => 0
  dp := { nNodes := 1, nInodes := fun _ => 1, node := fun _ _ => 0, inode := fun _ _ _ => 0, iweight := fun _ _ => 1 }
  f := fun _ s x _ _ X k => x k + x k ^ 2 - X k / 2 - c * s 0
  g := fun _ _ _ _ _ => 0
  lb := lb
  ub := some fun _ _ _ => none
  interp := fun t _ _ _ k => t 0 0 k

private noncomputable def exTIF (c : ℝ) (r : Fin 2) (q : (Fin 1 → ℝ) × Rows 2 1) : Fin 1 → ℝ := fun k =>
  q.1 k + q.1 k ^ 2 - q.2 0 k / 2 - c * r.val

private noncomputable def exTIxs : Rows 2 1 := fun r _ => r.val

private noncomputable def exTID (xs : Rows 2 1) (r : Fin 2) : (Fin 1 → ℝ) × Rows 2 1 →L[ℝ] (Fin 1 → ℝ) :=
  ContinuousLinearMap.pi fun k =>
    (1 + 2 * xs r k) • (ContinuousLinearMap.proj (R := ℝ) (φ := fun _ : Fin 1 => ℝ) k).comp
      (ContinuousLinearMap.fst ℝ (Fin 1 → ℝ) (Rows 2 1)) -
    (1 / 2 : ℝ) • ((ContinuousLinearMap.proj (R := ℝ) (φ := fun _ : Fin 1 => ℝ) k).comp
      (ContinuousLinearMap.proj (R := ℝ) (φ := fun _ : Fin 2 => Fin 1 → ℝ) 0)).comp
      (ContinuousLinearMap.snd ℝ (Fin 1 → ℝ) (Rows 2 1))

private theorem exTID_apply (xs : Rows 2 1) (r : Fin 2) (v : Fin 1 → ℝ) (u : Rows 2 1) (k : Fin 1) :
    exTID xs r (v, u) k = (1 + 2 * xs r k) * v k - 1 / 2 * u 0 k := rfl

private theorem exTI_fderiv (c : ℝ) (xs : Rows 2 1) (r : Fin 2) : fderiv ℝ (exTIF c r) (xs r, xs) = exTID xs r := by
  refine HasFDerivAt.fderiv ?_
  rw [hasFDerivAt_pi']
  intro k
  have h1 := ((ContinuousLinearMap.proj (R := ℝ) (φ := fun _ : Fin 1 => ℝ) k).comp
      (ContinuousLinearMap.fst ℝ (Fin 1 → ℝ) (Rows 2 1))).hasFDerivAt (x := (xs r, xs))
  have h2 := (((ContinuousLinearMap.proj (R := ℝ) (φ := fun _ : Fin 1 => ℝ) k).comp
      (ContinuousLinearMap.proj (R := ℝ) (φ := fun _ : Fin 2 => Fin 1 → ℝ) 0)).comp
      (ContinuousLinearMap.snd ℝ (Fin 1 → ℝ) (Rows 2 1))).hasFDerivAt (x := (xs r, xs))
  have h3 := ((h1.add (h1.pow 2)).sub (h2.const_mul (1 / 2 : ℝ))).sub_const (c * (r.val : ℝ))
  refine (h3.congr_of_eventuallyEq (Eventually.of_forall fun q => ?_)).congr_fderiv ?_
  · change q.1 k + q.1 k ^ 2 - q.2 0 k / 2 - c * r.val = q.1 k + q.1 k ^ 2 - 1 / 2 * q.2 0 k - c * r.val
    ring
  · refine ContinuousLinearMap.ext fun q => ?_
    obtain ⟨v, u⟩ := q
    change _ = (1 + 2 * xs r k) * v k - 1 / 2 * u 0 k
    simp
    ring

private theorem exTI_residuals (c : ℝ) (lb) : ∀ (x z : ℕ → ℕ → ℝ) (r : Fin 2) (k : Fin 1),
    tiFn (exTI c lb) x z r k = exTIF c r (cut 2 1 z r, cut 2 1 x) k := by
  intro x z r k
  have hk : k = 0 := Subsingleton.elim _ _
  subst hk
  change toRows 2 (residualsSimple _ _ _ _ _ _) r 0 = _
  unfold toRows
  rw [C75_residuals_simple]
  have hr : r.val / 2 = 0 := Nat.div_eq_of_lt r.2
  have hm : r.val % 2 = r.val := Nat.mod_eq_of_lt r.2
  simp [exTI, exTIF, ofRows, hr, hm, cut]

private theorem exTI_root (r : Fin 2) : exTIF 2 r (exTIxs r, exTIxs) = 0 := by
  funext k
  rw [Pi.zero_apply]
  fin_cases r <;> norm_num [exTIF, exTIxs]

private theorem exTI_invertible (r : Fin 2) (v : Fin 1 → ℝ)
    (hv : fderiv ℝ (exTIF 2 r) (exTIxs r, exTIxs) (v, 0) = 0) : v = 0 := by
  rw [exTI_fderiv] at hv
  funext k
  have h1 := congrFun hv k
  rw [exTID_apply] at h1
  have h2 : (0 : ℝ) ≤ r.val := Nat.cast_nonneg _
  have h3 : (1 + 2 * (r.val : ℝ)) * v k = 0 := by simpa [exTIxs] using h1
  rcases mul_eq_zero.1 h3 with h4 | h4
  · linarith
  · exact h4

private theorem exTI_smooth (c : ℝ) (xs : Rows 2 1) (r : Fin 2) : ContDiffAt ℝ 1 (exTIF c r) (xs r, xs) := by
  refine contDiffAt_pi.2 fun k => ?_
  unfold exTIF
  fun_prop

private theorem exTI_regular : TIRegular (exTI 2 none) (exTIF 2) exTIxs where
  residuals := exTI_residuals 2 none
  root := exTI_root
  smooth := exTI_smooth 2 exTIxs
  invertible := exTI_invertible

private noncomputable def exTIL : Rows 2 1 →L[ℝ] Rows 2 1 :=
  ContinuousLinearMap.pi fun r => (1 / (2 * (1 + 2 * (r.val : ℝ)))) •
    ContinuousLinearMap.proj (R := ℝ) (φ := fun _ : Fin 2 => Fin 1 → ℝ) 0

private theorem exTI_response : IsResponse (exTIF 2) exTIxs exTIL := by
  intro u r
  rw [exTI_fderiv]
  funext k
  rw [exTID_apply]
  have h2 : (0 : ℝ) ≤ r.val := Nat.cast_nonneg _
  change (1 + 2 * (r.val : ℝ)) * (1 / (2 * (1 + 2 * (r.val : ℝ))) * u 0 k) - 1 / 2 * u 0 k = 0
  field_simp
  ring

private theorem exTI_eigen (z : ℂ) (hz : IsEigenvalue (rowsMatrix exTIL) z) : ‖z‖ < 3 / 5 := by
  obtain ⟨v, hv, e⟩ := hz
  have entry : ∀ p q : Fin 2 × Fin 1, rowsMatrix exTIL p q
      = if q.1 = 0 then 1 / (2 * (1 + 2 * (p.1.val : ℝ))) else 0 := by
    rintro ⟨r, k⟩ ⟨r', k'⟩
    have hk : k = k' := Subsingleton.elim _ _
    subst hk
    change 1 / (2 * (1 + 2 * (r.val : ℝ))) * ((Pi.single r' (Pi.single k 1) : Rows 2 1) 0 k) = _
    by_cases h : r' = 0
    · subst h; simp
    · simp [h, Ne.symm h]
  have rows : ∀ p : Fin 2 × Fin 1, ((1 / (2 * (1 + 2 * (p.1.val : ℝ))) : ℝ) : ℂ) * v (0, 0) = z * v p := by
    intro p
    have := congrFun e p
    rw [Matrix.mulVec, dotProduct, Fintype.sum_prod_type, Fin.sum_univ_two] at this
    simp only [Finset.univ_unique, Finset.sum_singleton, Matrix.map_apply, entry, Fin.default_eq_zero] at this
    simpa using this
  by_cases h0 : v (0, 0) = 0
  · -- the eigenvalue is zero
    have h1 : v (1, 0) ≠ 0 := by
      intro h1
      apply hv
      funext p
      obtain ⟨r, k⟩ := p
      have hk : k = 0 := Subsingleton.elim _ _
      subst hk
      fin_cases r
      · exact h0
      · exact h1
    have := rows (1, 0)
    rw [h0, mul_zero] at this
    have hz0 : z = 0 := by
      rcases mul_eq_zero.1 this.symm with h | h
      · exact h
      · exact absurd h h1
    rw [hz0, norm_zero]
    norm_num
  · have := rows (0, 0)
    have hz : z = 1 / 2 := by
      have h2 := mul_right_cancel₀ h0 this
      rw [← h2]
      simp
    rw [hz]
    norm_num

/-- The hypotheses of `C125_newton` are met, here with eigenvalues `1/2` and `0`, and the default initial guess meets the
one on the starting point in the first coordinate only, so a guess is given. -/
example : ∃ h0 > 0, ∃ δ > 0, ∃ C > 0, ∀ eps : ℝ, eps ≠ 0 → |eps| < h0 → ∀ o : TIOpts ℝ, 0 < o.tol → o.tol < 10 →
    ∀ t0, tiInit (exTI 2 none) o = .ok t0 → (∀ (r : Fin 2) (k : Fin 1), |toRows 2 t0 r k - exTIxs r k| < δ) →
    CallConverges (exTI 2 none) (tiSolvers 2 1 eps (1 / 10 ^ 6) (1 / 10 ^ 8) 10) o false exTIxs C (3 / 5) (1 / 10 ^ 6) := by
  obtain ⟨h0, hh0, δ, hδ, C, hC, h⟩ := C125_newton (exTI 2 none) (exTIF 2) exTIxs exTI_regular exTIL exTI_response (ρ := 3 / 5)
    (by norm_num) (by norm_num) exTI_eigen
  exact ⟨h0, hh0, δ, hδ, C, hC, fun eps h1 h2 o h3 h4 t0 h5 h6 =>
    h eps h1 h2 (1 / 10 ^ 6) (by norm_num) (1 / 10 ^ 8) 10 (by norm_num) o rfl h3 h4 t0 h5 h6⟩

/-- With the lower bound `1/4` and `c = 15/8`: the bound binds at the first point, and the solution is `1` at the second. -/
private noncomputable def exTIlb : Option ((m s : ℕ → ℝ) → ℕ → Option ℝ) := some fun _ _ _ => some (1 / 4)

private noncomputable def exTIxs2 : Rows 2 1 := fun r _ => if r = 0 then 1 / 4 else 1

private theorem exTI2_value (r : Fin 2) (k : Fin 1) :
    exTIF (15 / 8) r (exTIxs2 r, exTIxs2) k = if r = 0 then 3 / 16 else 0 := by
  fin_cases r <;> norm_num [exTIF, exTIxs2]

private theorem exTI2_strict (r : Fin 2) (k : Fin 1) : StrictMCP (ncpLower (some (1 / 4))) (ncpUpper none) (exTIxs2 r k)
    (exTIF (15 / 8) r (exTIxs2 r, exTIxs2) k) := by
  have hl : ncpLower (some (1 / 4)) = some (1 / 4) := by
    unfold ncpLower
    simp only [Option.filter_some]
    norm_num
  rw [hl, exTI2_value]
  by_cases h : r = 0
  · right; left
    rw [if_pos h]
    exact ⟨by norm_num, by simp [exTIxs2, h], fun u hu => by simp [ncpUpper] at hu⟩
  · left
    rw [if_neg h]
    refine ⟨rfl, fun l hl => ?_, fun u hu => by simp [ncpUpper] at hu⟩
    simp only [Option.mem_def, Option.some.injEq] at hl
    subst hl
    simp only [exTIxs2, if_neg h]
    norm_num

private theorem exTI2_invertible (r : Fin 2) (v : Fin 1 → ℝ)
    (h1 : ∀ k, exTIF (15 / 8) r (exTIxs2 r, exTIxs2) k ≠ 0 → v k = 0)
    (h2 : ∀ k, exTIF (15 / 8) r (exTIxs2 r, exTIxs2) k = 0 →
      fderiv ℝ (exTIF (15 / 8) r) (exTIxs2 r, exTIxs2) (v, 0) k = 0) : v = 0 := by
  funext k
  by_cases h : exTIF (15 / 8) r (exTIxs2 r, exTIxs2) k = 0
  · have := h2 k h
    rw [exTI_fderiv, exTID_apply] at this
    have h3 : (1 + 2 * exTIxs2 r k) * v k = 0 := by simpa using this
    rcases mul_eq_zero.1 h3 with h4 | h4
    · exfalso
      unfold exTIxs2 at h4
      split_ifs at h4 <;> norm_num at h4
    · exact h4
  · exact h1 k h

/-- The hypotheses of `C125_ncpsolve` are met with one bound that binds and one that does not. -/
example : TIMcpRegular (exTI (15 / 8) exTIlb) (exTIF (15 / 8)) (fun _ _ => some (1 / 4)) (fun _ _ => none) exTIxs2 where
  residuals := exTI_residuals (15 / 8) exTIlb
  strict := exTI2_strict
  smooth := exTI_smooth (15 / 8) exTIxs2
  invertible := exTI2_invertible

example (o : TIOpts ℝ) (h : o.wanted = true) :
    tiBounds (exTI (15 / 8) exTIlb) o = .ok (some (fun _ _ => some (1 / 4), fun _ _ => none)) := by
  unfold tiBounds exTI exTIlb
  simp only [h, if_true]
  rfl

/-- `x = 5e-7`, at one grid point, the guess being zero. -/
private noncomputable def exTI3 : TIModel ℝ where
  N := 1
  s := fun _ _ => 0
  nx := 1
  x0 := fun _ => 0
  dp := { nNodes := 1, nInodes := fun _ => 1, node := fun _ _ => 0, inode := fun _ _ _ => 0, iweight := fun _ _ => 1 }
  f := fun _ _ x _ _ _ k => x k - 5 / 10 ^ 7
  g := fun _ _ _ _ _ => 0
  lb := none
  ub := none
  interp := fun t _ _ _ k => t 0 0 k

private theorem exTI3_value (x z : ℕ → ℕ → ℝ) (r : Fin 1) (k : Fin 1) : tiFn exTI3 x z r k = z r k - 5 / 10 ^ 7 := by
  change toRows 1 (residualsSimple _ _ _ _ _ _) r k = _
  unfold toRows
  rw [C75_residuals_simple]
  have hr : r = 0 := Subsingleton.elim _ _
  subst hr
  simp [exTI3, ofRows]

/-- **C125, the tolerance asked for is not reached.**  With the default tolerance `1e-6` of the inner solver, a tolerance
of `1e-12` and any step: convergence is reported with an error of zero, although the value returned is `5e-7` away from
the solution, which is unique. -/
theorem C125_tolerance_ignored : ∃ M : TIModel ℝ, M.rows = 1 ∧ M.nx = 1 ∧
    (∀ x z : ℕ → ℕ → ℝ, tiFn M x z 0 0 = 0 ↔ z 0 0 = 5 / 10 ^ 7) ∧
    ∀ eps ncpTol : ℝ, ∀ inner : ℕ, ∃ res, timeIterationFull M (tiSolvers 1 1 eps (1 / 10 ^ 6) ncpTol inner)
      { tol := 1 / 10 ^ 12 } = .ok res ∧ res.x_converged = true ∧ res.err = 0 ∧ res.dr 0 0 0 = 0 := by
  refine ⟨exTI3, rfl, rfl, fun x z => ?_, fun eps ncpTol inner => ?_⟩
  · have := exTI3_value x z 0 0
    change tiFn exTI3 x z 0 0 = z 0 0 - 5 / 10 ^ 7 at this
    rw [this, sub_eq_zero]
  · obtain ⟨res, h1, -, h3, h4, h5⟩ := C125_inner_tolerance exTI3 (fun r q k => q.1 k - 5 / 10 ^ 7)
      (fun x z r k => exTI3_value x z r k) eps (1 / 10 ^ 6) ncpTol inner (by norm_num) { tol := 1 / 10 ^ 12 } rfl
      (by norm_num) (by norm_num) (by norm_num) (fun _ _ _ => 0) rfl (fun r k => by
        have e : tiFn exTI3 (toRows exTI3.N fun _ _ _ => 0) (toRows exTI3.N fun _ _ _ => 0) r k = 0 - 5 / 10 ^ 7 :=
          exTI3_value _ _ r k
        rw [e]
        norm_num [abs_of_neg])
    refine ⟨res, h1, h4, h3, ?_⟩
    have := h5 (⟨0, by decide⟩ : Fin 1) (⟨0, by decide⟩ : Fin 1)
    exact this

end examples

end Dolo
