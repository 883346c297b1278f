import Verif.Lemmas.LocalRate
import Verif.Props.MethodsAgree
import Verif.Props.Stability
import Verif.Props.SaddlePath

/-!
# C151: the horizon of perfect-foresight simulations
-/

set_option linter.unusedSectionVars false

namespace Dolo

open Matrix

/-! ### Powers of matrices -/

section
variable {ι : Type} [Fintype ι] [DecidableEq ι]

theorem mulVec_iterate (A : Matrix ι ι ℝ) (n : ℕ) (v : ι → ℝ) : (fun v => A *ᵥ v)^[n] v = A ^ n *ᵥ v := by
  induction n with
  | zero => simp
  | succ n ih => rw [Function.iterate_succ_apply', ih, mulVec_mulVec, pow_succ']

/-- Powers of a matrix with eigenvalues below one in modulus decay geometrically. -/
theorem powers_decay (A : Matrix ι ι ℝ) (hA : ∀ z, IsEigenvalue A z → ‖z‖ < 1) :
    ∃ C > 0, ∃ r, 0 < r ∧ r < 1 ∧ ∀ (n : ℕ) (v : ι → ℝ), ‖A ^ n *ᵥ v‖ ≤ C * r ^ n * ‖v‖ := by
  rcases isEmpty_or_nonempty ι with h | h
  · refine ⟨1, one_pos, 1 / 2, by norm_num, by norm_num, fun n v => ?_⟩
    rw [Subsingleton.elim (A ^ n *ᵥ v) 0, norm_zero]
    positivity
  obtain ⟨k, hk, hn⟩ := exists_pow_norm_lt_one A hA
  have hfix : (fun v => A *ᵥ v) (0 : ι → ℝ) = 0 := mulVec_zero A
  have hd : HasFDerivAt (fun v => A *ᵥ v) (mulVecCLM A) (0 : ι → ℝ) := (mulVecCLM A).hasFDerivAt
  obtain ⟨ε, hε, C, hC, r, hr0, hr1, h⟩ := local_rate _ A 0 hfix hd hk hn
  refine ⟨C, hC, r, hr0, hr1, fun n v => ?_⟩
  by_cases hv : v = 0
  · rw [hv, mulVec_zero, norm_zero, mul_zero]
  have hv' : 0 < ‖v‖ := norm_pos_iff.2 hv
  set c := ε / 2 / ‖v‖ with hc
  have hc0 : 0 < c := by positivity
  have h1 := h (c • v) (by
    rw [dist_zero_right, norm_smul, Real.norm_eq_abs, abs_of_pos hc0, hc, div_mul_cancel₀ _ hv'.ne']
    linarith) n
  rw [mulVec_iterate, dist_zero_right, dist_zero_right, mulVec_smul, norm_smul, norm_smul, Real.norm_eq_abs,
    abs_of_pos hc0] at h1
  have h2 : c * ‖A ^ n *ᵥ v‖ ≤ c * (C * r ^ n * ‖v‖) := by linarith
  exact le_of_mul_le_mul_left h2 hc0

/-- Multiplication by a matrix is bounded. -/
theorem mulVec_bound {κ : Type} [Fintype κ] (A : Matrix κ ι ℝ) : ∃ c > 0, ∀ v, ‖A *ᵥ v‖ ≤ c * ‖v‖ := by
  let L : (ι → ℝ) →L[ℝ] (κ → ℝ) := LinearMap.toContinuousLinearMap (Matrix.mulVecLin A)
  refine ⟨‖L‖ + 1, by positivity, fun v => ?_⟩
  have := L.le_opNorm v
  have h2 : ‖L‖ * ‖v‖ ≤ (‖L‖ + 1) * ‖v‖ := by nlinarith [norm_nonneg v]
  exact this.trans h2

/-- The eigenvalues of `T⁻¹ S` for upper triangular matrices. -/
theorem triangular_eigenvalues {n : ℕ} (S T : Matrix (Fin n) (Fin n) ℝ) (hS : ∀ i j, j < i → S i j = 0)
    (hT : ∀ i j, j < i → T i j = 0) (hd : ∀ i, |S i i| < |T i i|) :
    IsUnit T.det ∧ ∀ z, IsEigenvalue (T⁻¹ * S) z → ‖z‖ < 1 := by
  have hTne : ∀ i, T i i ≠ 0 := fun i e => by
    have := hd i
    rw [e, abs_zero] at this
    exact absurd (abs_nonneg (S i i)) (not_le.2 this)
  have hu : IsUnit T.det := by
    rw [tri_det T hT, isUnit_iff_ne_zero, Finset.prod_ne_zero_iff]
    exact fun i _ => hTne i
  refine ⟨hu, ?_⟩
  rintro z ⟨v, hv, hz⟩
  let φ : Matrix (Fin n) (Fin n) ℝ → Matrix (Fin n) (Fin n) ℂ := fun M => M.map Complex.ofReal
  have hmul : ∀ M N, φ (M * N) = φ M * φ N := fun M N =>
    map_mul (Complex.ofRealHom.mapMatrix (m := Fin n)) M N
  have e2 : φ S *ᵥ v = z • (φ T *ᵥ v) := by
    have h1 : T * (T⁻¹ * S) = S := by rw [← Matrix.mul_assoc, mul_nonsing_inv _ hu, Matrix.one_mul]
    have h2 := hmul T (T⁻¹ * S)
    rw [h1] at h2
    rw [h2, ← mulVec_mulVec]
    change φ T *ᵥ ((T⁻¹ * S).map Complex.ofReal *ᵥ v) = _
    rw [hz, mulVec_smul]
  have e4 : (φ S - z • φ T).det = 0 := Matrix.exists_mulVec_eq_zero_iff.1 ⟨v, hv, by
    rw [Matrix.sub_mulVec, e2, Matrix.smul_mulVec, sub_self]⟩
  rw [det_of_isUpperTriangular (fun i j hij => by
    have hij' : j < i := hij
    simp [φ, hS i j hij', hT i j hij'])] at e4
  obtain ⟨i, -, hi⟩ := Finset.prod_eq_zero_iff.1 e4
  simp only [φ, Matrix.sub_apply, Matrix.map_apply, Matrix.smul_apply, smul_eq_mul] at hi
  have hzr : z = ((S i i / T i i : ℝ) : ℂ) := by
    rw [Complex.ofReal_div, eq_div_iff (by exact_mod_cast hTne i)]
    exact (sub_eq_zero.1 hi).symm
  rw [hzr, Complex.norm_real, Real.norm_eq_abs, abs_div, div_lt_one (abs_pos.2 (hTne i))]
  exact hd i

end

/-! ### Specification -/

section spec
variable {K : Type} [Field K] {nm ns nx : ℕ}

/-- A perfect-foresight path of the linear model over the dates `0, …, N - 1`, from `start`, whose exogenous variables
stay at the steady state from date `t0` on. -/
structure LinPFPath (dv : Derivs nm ns nx K) (mb : Fin nm → K) (sb : Fin ns → K) (xb : Fin nx → K) (N t0 : ℕ)
    (start : Fin ns → K) (m : ℕ → Fin nm → K) (s : ℕ → Fin ns → K) (x : ℕ → Fin nx → K) : Prop where
  path : IsPFPath (linG dv mb sb xb) (linF dv mb sb xb) N start m s x
  calm : ∀ t, t0 ≤ t → m t = mb

/-- The states when the controls follow the rule `dr` and the exogenous variables stay at the steady state. -/
def ruleStates (dv : Derivs nm ns nx K) (mb : Fin nm → K) (sb : Fin ns → K) (xb : Fin nx → K)
    (dr : (Fin nm → K) → (Fin ns → K) → Fin nx → K) (start : Fin ns → K) : ℕ → Fin ns → K
  | 0 => start
  | t + 1 => linG dv mb sb xb mb (ruleStates dv mb sb xb dr start t) (dr mb (ruleStates dv mb sb xb dr start t)) mb

end spec

/-! ### The deviation from the rule -/

section
variable {K : Type} [Field K] [LinearOrder K] [IsStrictOrderedRing K] {nm ns nx : ℕ}

private theorem blockV (M : Matrix (Fin ns ⊕ Fin nx) (Fin ns ⊕ Fin nx) K) (w : Fin ns ⊕ Fin nx → K) :
    (fun i => (M *ᵥ w) (.inl i)) = M.toBlocks₁₁ *ᵥ (fun i => w (.inl i)) + M.toBlocks₁₂ *ᵥ (fun j => w (.inr j)) ∧
    (fun i => (M *ᵥ w) (.inr i)) = M.toBlocks₂₁ *ᵥ (fun i => w (.inl i)) + M.toBlocks₂₂ *ᵥ (fun j => w (.inr j)) := by
  constructor <;> funext i <;> simp [Matrix.mulVec, dotProduct, Fintype.sum_sum_type, toBlocks₁₁, toBlocks₁₂, toBlocks₂₁, toBlocks₂₂]

/-- Orthogonality of `Z`, by blocks. -/
private theorem blocksZ {d : QZ (Fin ns ⊕ Fin nx) K} (hZ : d.Zᵀ * d.Z = 1) {C : Matrix (Fin nx) (Fin ns) K}
    (hZ1 : IsUnit d.Z.toBlocks₁₁.det) (hC : C * d.Z.toBlocks₁₁ = d.Z.toBlocks₂₁) :
    d.Z.toBlocks₁₂ᵀ = -(d.Z.toBlocks₂₂ᵀ * C) ∧ (d.Z.toBlocks₂₂ - C * d.Z.toBlocks₁₂) * d.Z.toBlocks₂₂ᵀ = 1 := by
  have hZZ : d.Z * d.Zᵀ = 1 := mul_eq_one_comm.1 hZ
  rw [← fromBlocks_toBlocks d.Z, fromBlocks_transpose, fromBlocks_multiply, ← fromBlocks_one, fromBlocks_inj] at hZ hZZ
  obtain ⟨-, -, k1, -⟩ := hZ
  obtain ⟨-, k2, -, k3⟩ := hZZ
  constructor
  · have : (d.Z.toBlocks₁₂ᵀ + d.Z.toBlocks₂₂ᵀ * C) * d.Z.toBlocks₁₁ = 0 := by
      rw [Matrix.add_mul, Matrix.mul_assoc, hC, k1]
    have h2 := congrArg (· * d.Z.toBlocks₁₁⁻¹) this
    simp only [Matrix.mul_assoc, mul_nonsing_inv _ hZ1, Matrix.mul_one, Matrix.zero_mul] at h2
    exact eq_neg_of_add_eq_zero_left h2
  · have e : d.Z.toBlocks₁₂ * d.Z.toBlocks₂₂ᵀ = -(d.Z.toBlocks₁₁ * d.Z.toBlocks₂₁ᵀ) := eq_neg_of_add_eq_zero_right k2
    rw [Matrix.sub_mul, Matrix.mul_assoc, e, Matrix.mul_neg, ← Matrix.mul_assoc, hC, sub_neg_eq_add, add_comm]
    exact k3

/-- One step of the deviation, backwards. -/
private theorem deviation_step {dv : Derivs nm ns nx K} {d : QZ (Fin ns ⊕ Fin nx) K}
    (hd : d.Correct (pencilA dv.f_S dv.f_X) (pencilB dv.g_s dv.g_x dv.f_s dv.f_x)) (hs : d.Split)
    (hT : IsUnit d.T.toBlocks₂₂.det) {C : Matrix (Fin nx) (Fin ns) K} (hZ1 : IsUnit d.Z.toBlocks₁₁.det)
    (hC : C * d.Z.toBlocks₁₁ = d.Z.toBlocks₂₁) {s S : Fin ns → K} {x X : Fin nx → K}
    (h1 : S = dv.g_s *ᵥ s + dv.g_x *ᵥ x) (h2 : dv.f_s *ᵥ s + dv.f_x *ᵥ x + dv.f_S *ᵥ S + dv.f_X *ᵥ X = 0) :
    x - C *ᵥ s = ((d.Z.toBlocks₂₂ - C * d.Z.toBlocks₁₂) * (d.T.toBlocks₂₂⁻¹ * d.S.toBlocks₂₂) * d.Z.toBlocks₂₂ᵀ)
      *ᵥ (X - C *ᵥ S) := by
  obtain ⟨z1, z2⟩ := blocksZ hd.hZ hZ1 hC
  have e : pencilA dv.f_S dv.f_X *ᵥ Sum.elim S X = pencilB dv.g_s dv.g_x dv.f_s dv.f_x *ᵥ Sum.elim s x := by
    rw [pencilA, pencilB, fromBlocks_mulVec, fromBlocks_mulVec]
    congr 1
    · simp only [one_mulVec, zero_mulVec, add_zero, Sum.elim_comp_inl, Sum.elim_comp_inr]
      exact h1
    · simp only [neg_mulVec, Sum.elim_comp_inl, Sum.elim_comp_inr]
      rw [← sub_eq_zero, ← neg_eq_zero, ← h2]
      abel
  rw [hd.hA, hd.hB, ← mulVec_mulVec, ← mulVec_mulVec, ← mulVec_mulVec, ← mulVec_mulVec] at e
  have e' : d.S *ᵥ (d.Zᵀ *ᵥ Sum.elim S X) = d.T *ᵥ (d.Zᵀ *ᵥ Sum.elim s x) := by
    have := congrArg (fun v => d.Qᵀ *ᵥ v) e
    simpa only [mulVec_mulVec, ← Matrix.mul_assoc, hd.hQ, Matrix.one_mul] using this
  have w : ∀ (s : Fin ns → K) (x : Fin nx → K),
      (fun j => (d.Zᵀ *ᵥ Sum.elim s x) (.inr j)) = d.Z.toBlocks₂₂ᵀ *ᵥ (x - C *ᵥ s) := by
    intro s x
    have e1 := (blockV d.Zᵀ (Sum.elim s x)).2
    have e2 : d.Zᵀ.toBlocks₂₁ = d.Z.toBlocks₁₂ᵀ := rfl
    have e3 : d.Zᵀ.toBlocks₂₂ = d.Z.toBlocks₂₂ᵀ := rfl
    rw [e2, e3, z1] at e1
    simp only [Sum.elim_inl, Sum.elim_inr] at e1
    rw [e1, neg_mulVec, mulVec_sub, ← mulVec_mulVec]
    abel
  have k1 := (blockV d.S (d.Zᵀ *ᵥ Sum.elim S X)).2
  have k2 := (blockV d.T (d.Zᵀ *ᵥ Sum.elim s x)).2
  rw [hs.hS, zero_mulVec, zero_add, w] at k1
  rw [hs.hT, zero_mulVec, zero_add, w] at k2
  rw [e', k2] at k1
  have k3 : d.Z.toBlocks₂₂ᵀ *ᵥ (x - C *ᵥ s) = d.T.toBlocks₂₂⁻¹ *ᵥ (d.S.toBlocks₂₂ *ᵥ (d.Z.toBlocks₂₂ᵀ *ᵥ (X - C *ᵥ S))) := by
    rw [← k1, mulVec_mulVec, nonsing_inv_mul _ hT, one_mulVec]
  have k4 := congrArg (fun v => (d.Z.toBlocks₂₂ - C * d.Z.toBlocks₁₂) *ᵥ v) k3
  rw [mulVec_mulVec, z2, one_mulVec] at k4
  rw [k4, ← mulVec_mulVec, ← mulVec_mulVec, ← mulVec_mulVec]

/-- What `perturb` returns for iid shocks. -/
theorem perturb_rule {solve : MatSolver K} (hsolve : solve.Correct)
    (qz : ∀ ns nx : ℕ, Matrix (Fin ns ⊕ Fin nx) (Fin ns ⊕ Fin nx) K →
      Matrix (Fin ns ⊕ Fin nx) (Fin ns ⊕ Fin nx) K → K → QZ (Fin ns ⊕ Fin nx) K)
    (cut : WithTop K → WithTop K → K) (dv : Derivs nm ns nx K) (mb : Fin nm → K) (sb : Fin ns → K) (xb : Fin nx → K)
    (t : BiTaylor nm ns nx K) (h : perturb1 solve qz cut .iid dv mb sb xb = .ok t)
    (dr : (Fin nm → K) → (Fin ns → K) → Fin nx → K)
    (hdr : ∀ m s, t.evalMS (.vec m) (.vec s) = .ok (.vec (dr m s))) :
    ∃ r, approximate1stOrder solve (qz ns nx) cut dv.g_s dv.g_x dv.f_s dv.f_x dv.f_S dv.f_X = .ok r ∧
      (∀ m s, dr m s = xb + r.C *ᵥ (s - sb)) ∧
      (let d := qz ns nx (pencilA dv.f_S dv.f_X) (pencilB dv.g_s dv.g_x dv.f_s dv.f_x) (1 - 1 / 10 ^ 8)
       IsUnit d.Z.toBlocks₁₁.det ∧ r.C * d.Z.toBlocks₁₁ = d.Z.toBlocks₂₁) := by
  unfold perturb1 at h
  rcases hr : approximate1stOrder solve (qz ns nx) cut dv.g_s dv.g_x dv.f_s dv.f_x dv.f_S dv.f_X with er | r
  · simp [hr, bind, Except.bind] at h
  simp only [hr, bind, Except.bind, pure, Except.pure, Except.ok.injEq] at h
  refine ⟨r, rfl, fun m s => ?_, ?_⟩
  · have h1 := hdr m s
    rw [((C35_points t).2.1 (by rw [← h]) m s).1] at h1
    simp only [Except.ok.injEq, Arg.vec.injEq] at h1
    rw [← h1, ← h]
  · obtain ⟨-, -, h1, -, -⟩ := approximate_ok hr
    exact rule_eq hsolve h1

/-- **C151, the deviation from the rule.**  For every linear model there is one matrix that carries the distance between
the controls of a perfect-foresight path and the rule of `perturb` one date back, whatever the horizon, the initial state
and the path: once the exogenous variables stay at the steady state, the deviation at date `i` is the `N - 1 - i`-th power
of that matrix applied to the deviation at the last date. -/
theorem C151_deviation {solve : MatSolver K} (hsolve : solve.Correct)
    (qz : ∀ ns nx : ℕ, Matrix (Fin ns ⊕ Fin nx) (Fin ns ⊕ Fin nx) K →
      Matrix (Fin ns ⊕ Fin nx) (Fin ns ⊕ Fin nx) K → K → QZ (Fin ns ⊕ Fin nx) K)
    (cut : WithTop K → WithTop K → K) (dv : Derivs nm ns nx K) (hqz : QZOK qz .iid dv)
    (hT : IsUnit (qz ns nx (pencilA dv.f_S dv.f_X) (pencilB dv.g_s dv.g_x dv.f_s dv.f_x) (1 - 1 / 10 ^ 8)).T.toBlocks₂₂.det)
    (mb : Fin nm → K) (sb : Fin ns → K) (xb : Fin nx → K) (t : BiTaylor nm ns nx K)
    (h : perturb1 solve qz cut .iid dv mb sb xb = .ok t) (dr : (Fin nm → K) → (Fin ns → K) → Fin nx → K)
    (hdr : ∀ m s, t.evalMS (.vec m) (.vec s) = .ok (.vec (dr m s))) :
    ∃ B : Matrix (Fin nx) (Fin nx) K, ∀ N t0 start m s x, LinPFPath dv mb sb xb N t0 start m s x →
      ∀ i, t0 ≤ i → i < N →
        x i - dr mb (s i) = B ^ (N - 1 - i) *ᵥ (x (N - 1) - dr mb (s (N - 1))) := by
  obtain ⟨r, hr, hrule, hZ1, hC⟩ := perturb_rule hsolve qz cut dv mb sb xb t h dr hdr
  generalize hgen : qz ns nx (pencilA dv.f_S dv.f_X) (pencilB dv.g_s dv.g_x dv.f_s dv.f_x) (1 - 1 / 10 ^ 8) = d at *
  obtain ⟨hd, hs⟩ : d.Correct (pencilA dv.f_S dv.f_X) (pencilB dv.g_s dv.g_x dv.f_s dv.f_x) ∧ d.Split := by
    have := hqz
    unfold QZOK at this
    simp only [hgen] at this
    exact this
  refine ⟨(d.Z.toBlocks₂₂ - r.C * d.Z.toBlocks₁₂) * (d.T.toBlocks₂₂⁻¹ * d.S.toBlocks₂₂) * d.Z.toBlocks₂₂ᵀ, ?_⟩
  rintro N t0 start m s x ⟨hp, hm⟩ i h0 hi
  have dev : ∀ j, x j - dr mb (s j) = (x j - xb) - r.C *ᵥ (s j - sb) := fun j => by
    rw [hrule]; abel
  have step : ∀ j, t0 ≤ j → j + 1 < N → x j - dr mb (s j) =
      ((d.Z.toBlocks₂₂ - r.C * d.Z.toBlocks₁₂) * (d.T.toBlocks₂₂⁻¹ * d.S.toBlocks₂₂) * d.Z.toBlocks₂₂ᵀ) *ᵥ
        (x (j + 1) - dr mb (s (j + 1))) := by
    intro j hj hjN
    have e1 := hp.transition j hjN
    have e2 := hp.arbitrage j hjN
    rw [hm j hj, hm (j + 1) (by omega)] at e1 e2
    unfold linG at e1
    unfold linF at e2
    simp only [sub_self, mulVec_zero, zero_add, add_zero] at e1 e2
    rw [dev, dev]
    exact deviation_step hd hs hT hZ1 hC (by rw [e1]; abel) e2
  obtain ⟨k, hk⟩ : ∃ k, N - 1 - i = k := ⟨_, rfl⟩
  rw [hk]
  induction k generalizing i with
  | zero =>
    have : i = N - 1 := by omega
    rw [this, pow_zero, one_mulVec]
  | succ k ih =>
    rw [step i h0 (by omega), ih (i + 1) (by omega) (by omega) (by omega), mulVec_mulVec, pow_succ']

/-- **C151, the end of the path.**  The deviation at the last date comes from the terminal condition alone: the controls
repeat those of the date before, the rule would let them follow the states.  The deviations of the last two dates differ
by what the rule changes between them. -/
theorem C151_terminal {dv : Derivs nm ns nx K} {mb : Fin nm → K} {sb : Fin ns → K} {xb : Fin nx → K} {N t0 : ℕ}
    {start : Fin ns → K} {m : ℕ → Fin nm → K} {s : ℕ → Fin ns → K} {x : ℕ → Fin nx → K}
    (h : LinPFPath dv mb sb xb N t0 start m s x) (dr : (Fin nm → K) → (Fin ns → K) → Fin nx → K) :
    (x (N - 1) - dr mb (s (N - 1))) - (x (N - 2) - dr mb (s (N - 2))) = dr mb (s (N - 2)) - dr mb (s (N - 1)) := by
  rw [h.path.terminal]
  abel

/-- **C151, later dates.**  What remains of a perfect-foresight path after some dates is a perfect-foresight path from
the state reached, with the remaining shocks. -/
theorem C151_tail {S X E : Type} {g : (E → K) → (S → K) → (X → K) → (E → K) → S → K}
    {f : (E → K) → (S → K) → (X → K) → (E → K) → (S → K) → (X → K) → X → K} {N k : ℕ} (hk : k + 2 ≤ N)
    {start : S → K} {m : ℕ → E → K} {s : ℕ → S → K} {x : ℕ → X → K} (h : IsPFPath g f N start m s x) :
    IsPFPath g f (N - k) (s k) (fun t => m (k + t)) (fun t => s (k + t)) (fun t => x (k + t)) := by
  refine ⟨rfl, fun t ht => ?_, fun t ht => ?_, ?_⟩
  · exact h.transition (k + t) (by omega)
  · exact h.arbitrage (k + t) (by omega)
  · have e1 : k + (N - k - 1) = N - 1 := by omega
    have e2 : k + (N - k - 2) = N - 2 := by omega
    simp only [e1, e2]
    exact h.terminal

end

/-! ### The horizon -/

section
variable {nm ns nx : ℕ}

/-- The states of a path whose controls deviate from the rule by `e`, in coordinates where the steady state is zero. -/
private theorem states_decay (P : Matrix (Fin ns) (Fin ns) ℝ) (hP : ∀ z, IsEigenvalue P z → ‖z‖ < 1)
    (G : Matrix (Fin ns) (Fin nx) ℝ) (c q : ℝ) (hc : 0 < c) (hq0 : 0 < q) (hq1 : q < 1) :
    ∃ c' > 0, ∀ (n : ℕ) (u : ℕ → Fin ns → ℝ) (e : ℕ → Fin nx → ℝ) (b : ℝ), 0 ≤ b → u 0 = 0 →
      (∀ i < n, u (i + 1) = P *ᵥ u i + G *ᵥ e i) → (∀ i ≤ n, ‖e i‖ ≤ c * q ^ (n - i) * b) →
      ∀ i ≤ n, ‖u i‖ ≤ c' * q ^ (n - i) * b := by
  obtain ⟨cP, hcP, r, hr0, hr1, hpow⟩ := powers_decay P hP
  obtain ⟨cG, hcG, hG⟩ := mulVec_bound G
  have hq2 : 0 < 1 - q := by linarith
  refine ⟨cP * (cG * c) / (1 - q), by positivity, fun n u e b hb hu0 hu he i hi => ?_⟩
  -- the solution of the recursion
  have sol : ∀ i ≤ n, u i = ∑ k ∈ Finset.range i, P ^ (i - 1 - k) *ᵥ (G *ᵥ e k) := by
    intro i
    induction i with
    | zero => intro _; simpa using hu0
    | succ i ih =>
      intro hi
      rw [hu i (by omega), ih (by omega), Finset.sum_range_succ, Matrix.mulVec_sum]
      congr 1
      · refine Finset.sum_congr rfl fun k hk => ?_
        have hk := Finset.mem_range.1 hk
        rw [mulVec_mulVec (M := P), ← pow_succ']
        congr 2
        omega
      · simp
  have term : ∀ k < i, ‖P ^ (i - 1 - k) *ᵥ (G *ᵥ e k)‖ ≤ cP * (cG * c) * b * q ^ (n - k) := by
    intro k hk
    have h1 := hpow (i - 1 - k) (G *ᵥ e k)
    have h2 : cP * r ^ (i - 1 - k) * ‖G *ᵥ e k‖ ≤ cP * ‖G *ᵥ e k‖ := by
      have : r ^ (i - 1 - k) ≤ 1 := pow_le_one₀ hr0.le hr1.le
      have h3 : cP * r ^ (i - 1 - k) ≤ cP := by nlinarith
      exact mul_le_mul_of_nonneg_right h3 (norm_nonneg _)
    have h3 : ‖G *ᵥ e k‖ ≤ cG * (c * q ^ (n - k) * b) :=
      (hG _).trans (mul_le_mul_of_nonneg_left (he k (by omega)) hcG.le)
    have h4 := mul_le_mul_of_nonneg_left h3 hcP.le
    calc _ ≤ _ := h1
      _ ≤ _ := h2
      _ ≤ _ := h4
      _ = _ := by ring
  have geo : ∀ i ≤ n, ∑ k ∈ Finset.range i, q ^ (n - k) ≤ q ^ (n - i) / (1 - q) := by
    intro i
    induction i with
    | zero => intro _; simp; positivity
    | succ i ih =>
      intro hi
      rw [Finset.sum_range_succ]
      have h1 := ih (by omega)
      have e1 : q ^ (n - i) = q * q ^ (n - (i + 1)) := by
        rw [← pow_succ']; congr 1; omega
      have h2 : q ^ (n - i) / (1 - q) + q ^ (n - i) ≤ q ^ (n - (i + 1)) / (1 - q) := by
        rw [e1]
        have hpos : 0 < q ^ (n - (i + 1)) := by positivity
        rw [← sub_nonneg]
        have : q ^ (n - (i + 1)) / (1 - q) - (q * q ^ (n - (i + 1)) / (1 - q) + q * q ^ (n - (i + 1)))
            = q ^ (n - (i + 1)) * (1 - q) := by
          field_simp
          ring
        rw [this]
        positivity
      linarith
  rw [sol i hi]
  calc ‖∑ k ∈ Finset.range i, P ^ (i - 1 - k) *ᵥ (G *ᵥ e k)‖
      ≤ ∑ k ∈ Finset.range i, ‖P ^ (i - 1 - k) *ᵥ (G *ᵥ e k)‖ := norm_sum_le _ _
    _ ≤ ∑ k ∈ Finset.range i, cP * (cG * c) * b * q ^ (n - k) :=
        Finset.sum_le_sum fun k hk => term k (Finset.mem_range.1 hk)
    _ = cP * (cG * c) * b * ∑ k ∈ Finset.range i, q ^ (n - k) := by rw [Finset.mul_sum]
    _ ≤ cP * (cG * c) * b * (q ^ (n - i) / (1 - q)) := mul_le_mul_of_nonneg_left (geo i hi) (by positivity)
    _ = _ := by ring

/-- The deviation from the rule when the stable and the unstable part of the decomposition are separated. -/
theorem horizon_core {dv : Derivs nm ns nx ℝ} {d : QZ (Fin ns ⊕ Fin nx) ℝ}
    (hd : d.Correct (pencilA dv.f_S dv.f_X) (pencilB dv.g_s dv.g_x dv.f_s dv.f_x)) (hsp : d.Split)
    (hT22 : IsUnit d.T.toBlocks₂₂.det) (heig : ∀ z, IsEigenvalue (d.T.toBlocks₂₂⁻¹ * d.S.toBlocks₂₂) z → ‖z‖ < 1)
    {r : FirstOrder ns nx ℝ} (hZ1 : IsUnit d.Z.toBlocks₁₁.det) (hC : r.C * d.Z.toBlocks₁₁ = d.Z.toBlocks₂₁)
    (hP : ∀ z, IsEigenvalue (dv.g_s + dv.g_x * r.C) z → ‖z‖ < 1)
    (mb : Fin nm → ℝ) (sb : Fin ns → ℝ) (xb : Fin nx → ℝ) (dr : (Fin nm → ℝ) → (Fin ns → ℝ) → Fin nx → ℝ)
    (hrule : ∀ m s, dr m s = xb + r.C *ᵥ (s - sb)) :
    ∃ c > 0, ∃ q, 0 < q ∧ q < 1 ∧ ∀ N t0 start m s x, LinPFPath dv mb sb xb N t0 start m s x →
      ∀ i, t0 ≤ i → i < N →
        let last := ‖x (N - 1) - dr mb (s (N - 1))‖
        let sr := ruleStates dv mb sb xb dr (s t0) (i - t0)
        ‖x i - dr mb (s i)‖ ≤ c * q ^ (N - 1 - i) * last ∧
        ‖s i - sr‖ ≤ c * q ^ (N - 1 - i) * last ∧
        ‖x i - dr mb sr‖ ≤ c * q ^ (N - 1 - i) * last := by
  obtain ⟨cN, hcN, q, hq0, hq1, hN⟩ := powers_decay _ heig
  obtain ⟨c1, hc1, hb1⟩ := mulVec_bound (d.Z.toBlocks₂₂ - r.C * d.Z.toBlocks₁₂)
  obtain ⟨c2, hc2, hb2⟩ := mulVec_bound d.Z.toBlocks₂₂ᵀ
  obtain ⟨c3, hc3, hb3⟩ := mulVec_bound r.C
  obtain ⟨z1, z2⟩ := blocksZ hd.hZ hZ1 hC
  obtain ⟨c4, hc4, hb4⟩ := states_decay (dv.g_s + dv.g_x * r.C) hP dv.g_x (c1 * cN * c2) q (by positivity) hq0 hq1
  refine ⟨c1 * cN * c2 + c4 + (c1 * cN * c2 + c3 * c4), by positivity, q, hq0, hq1, ?_⟩
  rintro N t0 start m s x ⟨hp, hm⟩ i h0 hi last sr
  have dev : ∀ j, x j - dr mb (s j) = (x j - xb) - r.C *ᵥ (s j - sb) := fun j => by
    rw [hrule]; abel
  -- controls
  have step : ∀ j, t0 ≤ j → j + 1 < N → d.Z.toBlocks₂₂ᵀ *ᵥ (x j - dr mb (s j)) =
      (d.T.toBlocks₂₂⁻¹ * d.S.toBlocks₂₂) *ᵥ (d.Z.toBlocks₂₂ᵀ *ᵥ (x (j + 1) - dr mb (s (j + 1)))) := by
    intro j hj hjN
    have e1 := hp.transition j hjN
    have e2 := hp.arbitrage j hjN
    rw [hm j hj, hm (j + 1) (by omega)] at e1 e2
    unfold linG at e1
    unfold linF at e2
    simp only [sub_self, mulVec_zero, zero_add, add_zero] at e1 e2
    rw [dev j, dev (j + 1), deviation_step hd hsp hT22 hZ1 hC (by rw [e1]; abel) e2, mulVec_mulVec, ← Matrix.mul_assoc,
      ← Matrix.mul_assoc, mul_eq_one_comm.1 z2, Matrix.one_mul, mulVec_mulVec]
  have back : ∀ k j, t0 ≤ j → j < N → N - 1 - j = k → d.Z.toBlocks₂₂ᵀ *ᵥ (x j - dr mb (s j)) =
      (d.T.toBlocks₂₂⁻¹ * d.S.toBlocks₂₂) ^ k *ᵥ (d.Z.toBlocks₂₂ᵀ *ᵥ (x (N - 1) - dr mb (s (N - 1)))) := by
    intro k
    induction k with
    | zero =>
      intro j _ _ hk
      have : j = N - 1 := by omega
      rw [this, pow_zero, one_mulVec]
    | succ k ih =>
      intro j hj hjN hk
      rw [step j hj (by omega), ih (j + 1) (by omega) (by omega) (by omega), mulVec_mulVec, ← pow_succ']
  have hx : ∀ j, t0 ≤ j → j < N → ‖x j - dr mb (s j)‖ ≤ c1 * cN * c2 * q ^ (N - 1 - j) * last := by
    intro j hj hjN
    have e1 : x j - dr mb (s j) = (d.Z.toBlocks₂₂ - r.C * d.Z.toBlocks₁₂) *ᵥ (d.Z.toBlocks₂₂ᵀ *ᵥ (x j - dr mb (s j))) := by
      rw [mulVec_mulVec, z2, one_mulVec]
    rw [e1, back _ j hj hjN rfl]
    have k1 := hN (N - 1 - j) (d.Z.toBlocks₂₂ᵀ *ᵥ (x (N - 1) - dr mb (s (N - 1))))
    have k2 := hb2 (x (N - 1) - dr mb (s (N - 1)))
    have k3 := mul_le_mul_of_nonneg_left k2 (show 0 ≤ cN * q ^ (N - 1 - j) by positivity)
    refine (hb1 _).trans ((mul_le_mul_of_nonneg_left (k1.trans k3) hc1.le).trans (le_of_eq ?_))
    change _ = c1 * cN * c2 * q ^ (N - 1 - j) * ‖x (N - 1) - dr mb (s (N - 1))‖
    ring
  -- states
  have hlast : 0 ≤ last := norm_nonneg _
  have hsx := hb4 (N - 1 - t0) (fun j => s (t0 + j) - ruleStates dv mb sb xb dr (s t0) j)
    (fun j => x (t0 + j) - dr mb (s (t0 + j))) last hlast (by simp [ruleStates]) (fun j hj => by
      have e1 := hp.transition (t0 + j) (by omega)
      rw [hm (t0 + j) (by omega), hm (t0 + j + 1) (by omega)] at e1
      change s (t0 + j + 1) - linG dv mb sb xb mb _ _ mb = _
      rw [e1]
      unfold linG
      rw [hrule, hrule]
      simp only [sub_self, mulVec_zero, zero_add, add_zero, add_mulVec, mulVec_sub, mulVec_add, ← mulVec_mulVec]
      abel) (fun j hj => by
      have := hx (t0 + j) (by omega) (by omega)
      rwa [show N - 1 - (t0 + j) = N - 1 - t0 - j by omega] at this) (i - t0) (by omega)
  simp only [show t0 + (i - t0) = i by omega, show N - 1 - t0 - (i - t0) = N - 1 - i by omega] at hsx
  have hxi := hx i h0 hi
  have hq : 0 ≤ q ^ (N - 1 - i) * last := by positivity
  have hsum : ‖x i - dr mb sr‖ ≤ (c1 * cN * c2 + c3 * c4) * q ^ (N - 1 - i) * last := by
    have e : x i - dr mb sr = (x i - dr mb (s i)) + r.C *ᵥ (s i - sr) := by
      rw [hrule, hrule]
      simp only [mulVec_sub]
      abel
    rw [e]
    refine (norm_add_le _ _).trans ?_
    have := (hb3 (s i - sr)).trans (mul_le_mul_of_nonneg_left hsx hc3.le)
    linarith
  have p1 : 0 < c1 * cN * c2 := by positivity
  have p2 : 0 < c3 * c4 := by positivity
  refine ⟨?_, ?_, ?_⟩
  · refine hxi.trans ?_
    have : 0 ≤ (c4 + (c1 * cN * c2 + c3 * c4)) * (q ^ (N - 1 - i) * last) := by positivity
    linarith
  · refine hsx.trans ?_
    have : 0 ≤ (c1 * cN * c2 + (c1 * cN * c2 + c3 * c4)) * (q ^ (N - 1 - i) * last) := by positivity
    linarith
  · refine hsum.trans ?_
    have : 0 ≤ (c1 * cN * c2 + c4) * (q ^ (N - 1 - i) * last) := by positivity
    linarith

/-- **C151, the horizon.**  In a linear model whose reported eigenvalues satisfy the conditions of Blanchard and Kahn, a
perfect-foresight path stays close to the rule of `perturb` except at its end: from the date where the exogenous variables
stay at the steady state on, its controls differ from the rule, and its states and controls from the path under the rule,
by at most `c q^(N - 1 - i)` times the deviation at the last date.  The constants `c` and `q < 1` are the same for all
horizons `N`, initial states, shocks and paths. -/
theorem C151_horizon {solve : MatSolver ℝ} (hsolve : solve.Correct)
    (qz : ∀ ns nx : ℕ, Matrix (Fin ns ⊕ Fin nx) (Fin ns ⊕ Fin nx) ℝ →
      Matrix (Fin ns ⊕ Fin nx) (Fin ns ⊕ Fin nx) ℝ → ℝ → QZ (Fin ns ⊕ Fin nx) ℝ)
    (cut : WithTop ℝ → WithTop ℝ → ℝ) (dv : Derivs nm ns nx ℝ)
    (hqz : let d := qz ns nx (pencilA dv.f_S dv.f_X) (pencilB dv.g_s dv.g_x dv.f_s dv.f_x) (1 - 1 / 10 ^ 8)
      d.Correct (pencilA dv.f_S dv.f_X) (pencilB dv.g_s dv.g_x dv.f_s dv.f_x) ∧ d.Triangular ∧
        (∀ i, 1 < genEig d (.inl i)) ∧ ∀ j, genEig d (.inr j) < 1)
    (mb : Fin nm → ℝ) (sb : Fin ns → ℝ) (xb : Fin nx → ℝ) (t : BiTaylor nm ns nx ℝ)
    (h : perturb1 solve qz cut .iid dv mb sb xb = .ok t) (dr : (Fin nm → ℝ) → (Fin ns → ℝ) → Fin nx → ℝ)
    (hdr : ∀ m s, t.evalMS (.vec m) (.vec s) = .ok (.vec (dr m s))) :
    ∃ c > 0, ∃ q, 0 < q ∧ q < 1 ∧ ∀ N t0 start m s x, LinPFPath dv mb sb xb N t0 start m s x →
      ∀ i, t0 ≤ i → i < N →
        let last := ‖x (N - 1) - dr mb (s (N - 1))‖
        let sr := ruleStates dv mb sb xb dr (s t0) (i - t0)
        ‖x i - dr mb (s i)‖ ≤ c * q ^ (N - 1 - i) * last ∧
        ‖s i - sr‖ ≤ c * q ^ (N - 1 - i) * last ∧
        ‖x i - dr mb sr‖ ≤ c * q ^ (N - 1 - i) * last := by
  obtain ⟨r, hr, hrule, hZ1, hC⟩ := perturb_rule hsolve qz cut dv mb sb xb t h dr hdr
  obtain ⟨hd, ht, hst, hun⟩ := hqz
  have hP := C116_stable hsolve hd cut r hr ht hst
  obtain ⟨hok, -, -, -, -⟩ := approximate_ok hr
  generalize qz ns nx (pencilA dv.f_S dv.f_X) (pencilB dv.g_s dv.g_x dv.f_s dv.f_x) (1 - 1 / 10 ^ 8) = d at *
  have hS1 : ∀ i, d.S (.inl i) (.inl i) ≠ 0 := by
    intro i h0
    have := hst i
    unfold genEig at this
    split_ifs at this with hT
    · exact diag_ne hok _ ⟨h0, hT⟩
    · rw [h0, zero_div, abs_zero] at this
      have h' := WithTop.coe_lt_coe.1 (show ((1 : ℝ) : WithTop ℝ) < ((0 : ℝ) : WithTop ℝ) from this)
      exact absurd h' (not_lt.2 zero_le_one)
  have hS2 : ∀ j, |d.S (.inr j) (.inr j)| < |d.T (.inr j) (.inr j)| := by
    intro j
    have := hun j
    unfold genEig at this
    split_ifs at this with h0
    · exact absurd this (not_lt.2 le_top)
    · have h' := WithTop.coe_lt_coe.1 (show _ < ((1 : ℝ) : WithTop ℝ) from this)
      rwa [abs_div, div_lt_one (abs_pos.2 h0)] at h'
  have hsp : d.Split := by
    refine ⟨?_, ?_, ?_⟩
    · ext i j; simp [toBlocks₂₁, ht.S21]
    · ext i j; simp [toBlocks₂₁, ht.T21]
    · rw [tri_det _ (fun i j hij => by simp [toBlocks₁₁, ht.S11 i j hij]), isUnit_iff_ne_zero,
        Finset.prod_ne_zero_iff]
      exact fun i _ => hS1 i
  obtain ⟨hT22, heig⟩ := triangular_eigenvalues d.S.toBlocks₂₂ d.T.toBlocks₂₂ (fun i j hij => ht.S22 i j hij)
    (fun i j hij => ht.T22 i j hij) hS2
  exact horizon_core hd hsp hT22 heig hZ1 hC hP mb sb xb dr hrule

/-- **C151, two horizons.**  Two perfect-foresight paths of different lengths, from the same state and without shocks,
agree up to `c q^(N - 1 - i)` times their size at the last dates, where `N` is the shorter horizon: lengthening the
simulation changes the early dates by amounts that vanish geometrically. -/
theorem C151_two_horizons {solve : MatSolver ℝ} (hsolve : solve.Correct)
    (qz : ∀ ns nx : ℕ, Matrix (Fin ns ⊕ Fin nx) (Fin ns ⊕ Fin nx) ℝ →
      Matrix (Fin ns ⊕ Fin nx) (Fin ns ⊕ Fin nx) ℝ → ℝ → QZ (Fin ns ⊕ Fin nx) ℝ)
    (cut : WithTop ℝ → WithTop ℝ → ℝ) (dv : Derivs nm ns nx ℝ)
    (hqz : let d := qz ns nx (pencilA dv.f_S dv.f_X) (pencilB dv.g_s dv.g_x dv.f_s dv.f_x) (1 - 1 / 10 ^ 8)
      d.Correct (pencilA dv.f_S dv.f_X) (pencilB dv.g_s dv.g_x dv.f_s dv.f_x) ∧ d.Triangular ∧
        (∀ i, 1 < genEig d (.inl i)) ∧ ∀ j, genEig d (.inr j) < 1)
    (mb : Fin nm → ℝ) (sb : Fin ns → ℝ) (xb : Fin nx → ℝ) (t : BiTaylor nm ns nx ℝ)
    (h : perturb1 solve qz cut .iid dv mb sb xb = .ok t) :
    ∃ c > 0, ∃ q, 0 < q ∧ q < 1 ∧ ∀ N N' start s x s' x' b, N ≤ N' →
      LinPFPath dv mb sb xb N 0 start (fun _ => mb) s x → LinPFPath dv mb sb xb N' 0 start (fun _ => mb) s' x' →
      ‖s (N - 1) - sb‖ ≤ b → ‖x (N - 1) - xb‖ ≤ b → ‖s' (N' - 1) - sb‖ ≤ b → ‖x' (N' - 1) - xb‖ ≤ b →
      ∀ i, i < N → ‖s i - s' i‖ ≤ c * q ^ (N - 1 - i) * b ∧ ‖x i - x' i‖ ≤ c * q ^ (N - 1 - i) * b := by
  have hdr : ∀ m s, t.evalMS (.vec m) (.vec s) = .ok (.vec (xb + t.C_s *ᵥ (s - sb))) := by
    have h' := h
    unfold perturb1 at h'
    rcases hr : approximate1stOrder solve (qz ns nx) cut dv.g_s dv.g_x dv.f_s dv.f_x dv.f_S dv.f_X with er | r
    · simp [hr, bind, Except.bind] at h'
    simp only [hr, bind, Except.bind, pure, Except.pure, Except.ok.injEq] at h'
    intro m s
    rw [((C35_points t).2.1 (by rw [← h']) m s).1, ← h']
  obtain ⟨c, hc, q, hq0, hq1, H⟩ := C151_horizon hsolve qz cut dv hqz mb sb xb t h
    (fun _ s => xb + t.C_s *ᵥ (s - sb)) hdr
  obtain ⟨cC, hcC, hbC⟩ := mulVec_bound t.C_s
  refine ⟨2 * c * (1 + cC), by positivity, q, hq0, hq1, ?_⟩
  intro N N' start s x s' x' b hNN hp hp' hs hx hs' hx' i hi
  obtain ⟨-, a2, a3⟩ := H N 0 start _ s x hp i (by omega) hi
  obtain ⟨-, b2, b3⟩ := H N' 0 start _ s' x' hp' i (by omega) (by omega)
  rw [hp.path.initial] at a2 a3
  rw [hp'.path.initial] at b2 b3
  have size : ∀ (s : Fin ns → ℝ) (x : Fin nx → ℝ), ‖s - sb‖ ≤ b → ‖x - xb‖ ≤ b →
      ‖x - (xb + t.C_s *ᵥ (s - sb))‖ ≤ (1 + cC) * b := by
    intro s x h1 h2
    have e : x - (xb + t.C_s *ᵥ (s - sb)) = (x - xb) - t.C_s *ᵥ (s - sb) := by abel
    rw [e]
    refine (norm_sub_le _ _).trans ?_
    have := (hbC (s - sb)).trans (mul_le_mul_of_nonneg_left h1 hcC.le)
    linarith
  have l1 := size _ _ hs hx
  have l2 := size _ _ hs' hx'
  have hb : 0 ≤ b := (norm_nonneg _).trans hx
  have hqq : q ^ (N' - 1 - i) ≤ q ^ (N - 1 - i) := pow_le_pow_of_le_one hq0.le hq1.le (by omega)
  have k1 : c * q ^ (N - 1 - i) * ‖x (N - 1) - (xb + t.C_s *ᵥ (s (N - 1) - sb))‖
      ≤ c * q ^ (N - 1 - i) * ((1 + cC) * b) := mul_le_mul_of_nonneg_left l1 (by positivity)
  have k2 : c * q ^ (N' - 1 - i) * ‖x' (N' - 1) - (xb + t.C_s *ᵥ (s' (N' - 1) - sb))‖
      ≤ c * q ^ (N - 1 - i) * ((1 + cC) * b) := by
    refine (mul_le_mul_of_nonneg_left l2 (by positivity)).trans ?_
    refine mul_le_mul_of_nonneg_right (mul_le_mul_of_nonneg_left hqq hc.le) (by positivity)
  set sr := ruleStates dv mb sb xb (fun _ s => xb + t.C_s *ᵥ (s - sb)) start (i - 0)
  constructor
  · have e : s i - s' i = (s i - sr) - (s' i - sr) := by abel
    rw [e]
    refine (norm_sub_le _ _).trans ?_
    have := a2.trans k1
    have := b2.trans k2
    linarith
  · have e : x i - x' i = (x i - (xb + t.C_s *ᵥ (sr - sb))) - (x' i - (xb + t.C_s *ᵥ (sr - sb))) := by abel
    rw [e]
    refine (norm_sub_le _ _).trans ?_
    have := a3.trans k1
    have := b3.trans k2
    linarith

/-- **C151, the limit.**  When the horizon grows, the controls of the first dates converge to those of the path under
the rule of `perturb`, for every family of perfect-foresight paths from the same state whose last dates stay bounded. -/
theorem C151_limit {solve : MatSolver ℝ} (hsolve : solve.Correct)
    (qz : ∀ ns nx : ℕ, Matrix (Fin ns ⊕ Fin nx) (Fin ns ⊕ Fin nx) ℝ →
      Matrix (Fin ns ⊕ Fin nx) (Fin ns ⊕ Fin nx) ℝ → ℝ → QZ (Fin ns ⊕ Fin nx) ℝ)
    (cut : WithTop ℝ → WithTop ℝ → ℝ) (dv : Derivs nm ns nx ℝ)
    (hqz : let d := qz ns nx (pencilA dv.f_S dv.f_X) (pencilB dv.g_s dv.g_x dv.f_s dv.f_x) (1 - 1 / 10 ^ 8)
      d.Correct (pencilA dv.f_S dv.f_X) (pencilB dv.g_s dv.g_x dv.f_s dv.f_x) ∧ d.Triangular ∧
        (∀ i, 1 < genEig d (.inl i)) ∧ ∀ j, genEig d (.inr j) < 1)
    (mb : Fin nm → ℝ) (sb : Fin ns → ℝ) (xb : Fin nx → ℝ) (t : BiTaylor nm ns nx ℝ)
    (h : perturb1 solve qz cut .iid dv mb sb xb = .ok t) (dr : (Fin nm → ℝ) → (Fin ns → ℝ) → Fin nx → ℝ)
    (hdr : ∀ m s, t.evalMS (.vec m) (.vec s) = .ok (.vec (dr m s)))
    (start : Fin ns → ℝ) (s : ℕ → ℕ → Fin ns → ℝ) (x : ℕ → ℕ → Fin nx → ℝ) (b : ℝ)
    (hp : ∀ N, 2 ≤ N → LinPFPath dv mb sb xb N 0 start (fun _ => mb) (s N) (x N) ∧
      ‖x N (N - 1) - dr mb (s N (N - 1))‖ ≤ b) (i : ℕ) :
    Filter.Tendsto (fun N => x N i) Filter.atTop (nhds (dr mb (ruleStates dv mb sb xb dr start i))) ∧
    Filter.Tendsto (fun N => s N i) Filter.atTop (nhds (ruleStates dv mb sb xb dr start i)) := by
  obtain ⟨c, hc, q, hq0, hq1, H⟩ := C151_horizon hsolve qz cut dv hqz mb sb xb t h dr hdr
  have lim : Filter.Tendsto (fun N => c * q ^ (N - 1 - i) * b) Filter.atTop (nhds 0) := by
    have h1 : Filter.Tendsto (fun N => N - 1 - i) Filter.atTop Filter.atTop := by
      refine Filter.tendsto_atTop.2 fun k => ?_
      filter_upwards [Filter.eventually_ge_atTop (k + 1 + i)] with N hN
      omega
    have h2 := (tendsto_pow_atTop_nhds_zero_of_lt_one hq0.le hq1).comp h1
    have := (h2.const_mul c).mul_const b
    simpa using this
  constructor
  · rw [tendsto_iff_norm_sub_tendsto_zero]
    refine squeeze_zero' (Filter.Eventually.of_forall fun N => norm_nonneg _) ?_ lim
    filter_upwards [Filter.eventually_ge_atTop (i + 2)] with N hN
    obtain ⟨k1, k2⟩ := hp N (by omega)
    have k3 := (H N 0 start _ (s N) (x N) k1 i (by omega) (by omega)).2.2
    rw [k1.path.initial, Nat.sub_zero] at k3
    exact k3.trans (mul_le_mul_of_nonneg_left k2 (by positivity))
  · rw [tendsto_iff_norm_sub_tendsto_zero]
    refine squeeze_zero' (Filter.Eventually.of_forall fun N => norm_nonneg _) ?_ lim
    filter_upwards [Filter.eventually_ge_atTop (i + 2)] with N hN
    obtain ⟨k1, k2⟩ := hp N (by omega)
    have k3 := (H N 0 start _ (s N) (x N) k1 i (by omega) (by omega)).2.1
    rw [k1.path.initial, Nat.sub_zero] at k3
    exact k3.trans (mul_le_mul_of_nonneg_left k2 (by positivity))

end

/-! ### A model meeting the hypotheses -/

section instances

/-- The asset of `dS`: `s_{t+1} = s_t / 2` (a dividend) and `2 x_t = 2 s_t + x_{t+1}` (its price). -/
noncomputable def dvH : Derivs 1 1 1 ℝ :=
  ⟨0, .of fun _ _ => -2, .of fun _ _ => 2, 0, 0, .of fun _ _ => -1, 0, .of fun _ _ => 1 / 2, 0, 0⟩

/-- `ordqz` for the asset. -/
noncomputable def qzH : ∀ ns nx : ℕ, Matrix (Fin ns ⊕ Fin nx) (Fin ns ⊕ Fin nx) ℝ →
    Matrix (Fin ns ⊕ Fin nx) (Fin ns ⊕ Fin nx) ℝ → ℝ → QZ (Fin ns ⊕ Fin nx) ℝ := fun ns nx _ _ _ =>
  if h : ns = 1 ∧ nx = 1 then h.1 ▸ h.2 ▸ dS else ⟨0, 0, 0, 0⟩

/-- The hypotheses of `C151_horizon` hold, and there is a perfect-foresight path for every horizon and every initial
dividend; the price at the last date is twice the dividend of the date before, the rule asks for 4/3 of the last one. -/
example : (let d := qzH 1 1 (pencilA dvH.f_S dvH.f_X) (pencilB dvH.g_s dvH.g_x dvH.f_s dvH.f_x) (1 - 1 / 10 ^ 8)
      d.Correct (pencilA dvH.f_S dvH.f_X) (pencilB dvH.g_s dvH.g_x dvH.f_s dvH.f_x) ∧ d.Triangular ∧
        (∀ i, 1 < genEig d (.inl i)) ∧ ∀ j, genEig d (.inr j) < 1) ∧
    perturb1 solverR qzH (fun _ _ => 0) .iid dvH 0 0 0 = .ok ⟨0, 0, 0, none, .of fun _ _ => 4 / 3⟩ ∧
    ∀ N, 2 ≤ N → ∀ c : ℝ, LinPFPath dvH 0 0 0 N 0 (fun _ => c) (fun _ => 0) (fun t _ => c * (1 / 2) ^ t)
      (fun t _ => 4 / 3 * (c * (1 / 2) ^ t) + 4 / 3 * (c * (1 / 2) ^ (N - 2)) * (1 / 2) ^ (N - 1 - t)) := by
  have e : qzH 1 1 = fun _ _ _ => dS := by funext A B c; simp [qzH]
  refine ⟨?_, ?_, ?_⟩
  · rw [e]
    refine ⟨dS_correct, dS_triangular, fun i => ?_, fun j => ?_⟩
    · rw [Subsingleton.elim i 0, dS_eig.1]
      exact_mod_cast (by norm_num : (1 : ℝ) < 2)
    · rw [Subsingleton.elim j 0, dS_eig.2]
      exact_mod_cast (by norm_num : (1 / 2 : ℝ) < 1)
  · obtain ⟨r, h, hC⟩ := approxS
    have : approximate1stOrder solverR (qzH 1 1) (fun _ _ => 0) dvH.g_s dvH.g_x dvH.f_s dvH.f_x dvH.f_S dvH.f_X = .ok r := by
      rw [e]; exact h
    simp [perturb1, this, bind, Except.bind, pure, Except.pure, hC]
  · intro N hN c
    refine ⟨⟨?_, ?_, ?_, ?_⟩, fun _ _ => rfl⟩
    · funext k; simp
    · intro t ht
      funext k
      simp [linG, dvH, Matrix.mulVec, dotProduct, pow_succ]
      ring
    · intro t ht
      funext k
      obtain ⟨n, hn⟩ : ∃ n, N - 1 - (t + 1) = n := ⟨_, rfl⟩
      have hn' : N - 1 - t = n + 1 := by omega
      simp only [linF, dvH, hn, hn']
      simp [Matrix.mulVec, dotProduct, pow_succ]
      ring
    · funext k
      obtain ⟨n, rfl⟩ : ∃ n, N = n + 2 := ⟨N - 2, by omega⟩
      simp only [show n + 2 - 1 = n + 1 by omega, show n + 2 - 2 = n by omega, show n + 1 - (n + 1) = 0 by omega,
        show n + 1 - n = 1 by omega, pow_succ, pow_zero]
      ring

/-- One state `s_{t+1} = 3/4 s_t`, one control with `x_t / 2 = s_t / 3 + x_{t+1}`, and one which is always zero: two
eigenvalues are on the stable side. -/
private noncomputable def dvI : Derivs 1 1 2 ℝ :=
  ⟨0, .of fun i _ => if i = 0 then -1 / 3 else 0, diagonal fun i => if i = 0 then 1 / 2 else 1, 0, 0,
    diagonal fun i => if i = 0 then -1 else 0, 0, .of fun _ _ => 3 / 4, 0, 0⟩

/-- The rotation of the state and the first control. -/
private noncomputable def rotI : Matrix (Fin 1 ⊕ Fin 2) (Fin 1 ⊕ Fin 2) ℝ :=
  fromBlocks (.of fun _ _ => 3 / 5) (.of fun _ j => if j = 0 then 4 / 5 else 0)
    (.of fun i _ => if i = 0 then -4 / 5 else 0) (diagonal fun i => if i = 0 then 3 / 5 else 1)

private noncomputable def dI : QZ (Fin 1 ⊕ Fin 2) ℝ :=
  ⟨fromBlocks (.of fun _ _ => 1) 0 0 (diagonal fun i => if i = 0 then 1 else 0),
    fromBlocks (.of fun _ _ => 3 / 4) (.of fun _ j => if j = 0 then 1 / 3 else 0) 0 (diagonal fun i => if i = 0 then 1 / 2 else 1),
    rotI, rotI⟩

private noncomputable def qzI : ∀ ns nx : ℕ, Matrix (Fin ns ⊕ Fin nx) (Fin ns ⊕ Fin nx) ℝ →
    Matrix (Fin ns ⊕ Fin nx) (Fin ns ⊕ Fin nx) ℝ → ℝ → QZ (Fin ns ⊕ Fin nx) ℝ := fun ns nx _ _ _ =>
  if h : ns = 1 ∧ nx = 2 then h.1 ▸ h.2 ▸ dI else ⟨0, 0, 0, 0⟩

private theorem rotI_orth : rotIᵀ * rotI = 1 := by
  ext i j
  rcases i with i | i <;> rcases j with j | j <;> fin_cases i <;> fin_cases j <;>
    simp [rotI, Matrix.mul_apply, Matrix.one_apply] <;> norm_num

private theorem dI_correct : dI.Correct (pencilA dvI.f_S dvI.f_X) (pencilB dvI.g_s dvI.g_x dvI.f_s dvI.f_x) := by
  refine ⟨?_, ?_, rotI_orth, rotI_orth⟩
  · ext i j
    rcases i with i | i <;> rcases j with j | j <;> fin_cases i <;> fin_cases j <;>
      simp [dI, rotI, dvI, pencilA, Matrix.mul_apply] <;> norm_num
  · ext i j
    rcases i with i | i <;> rcases j with j | j <;> fin_cases i <;> fin_cases j <;>
      simp [dI, rotI, dvI, pencilB, Matrix.mul_apply] <;> norm_num

private theorem dI_triangular : dI.Triangular := by
  refine ⟨fun i j => ?_, fun i j => ?_, fun i j h => ?_, fun i j h => ?_, fun i j h => ?_, fun i j h => ?_⟩
  · simp [dI]
  · simp [dI]
  · exact absurd h (by rw [Subsingleton.elim i j]; exact lt_irrefl _)
  · exact absurd h (by rw [Subsingleton.elim i j]; exact lt_irrefl _)
  · fin_cases i <;> fin_cases j <;> simp [dI] at h ⊢
  · fin_cases i <;> fin_cases j <;> simp [dI] at h ⊢

private theorem dI_eig : genEig dI (.inl 0) = ((4 / 3 : ℝ) : WithTop ℝ) ∧ genEig dI (.inr 0) = ((2 : ℝ) : WithTop ℝ) ∧
    genEig dI (.inr 1) = ((0 : ℝ) : WithTop ℝ) := by
  refine ⟨?_, ?_, ?_⟩ <;> simp [genEig, dI]
  norm_num

private theorem perturbI : perturb1 solverR qzI (fun _ _ => 0) .iid dvI 0 0 0
    = .ok ⟨0, 0, 0, none, .of fun i _ => if i = 0 then -4 / 3 else 0⟩ := by
  have e : qzI 1 2 = fun _ _ _ => dI := by funext A B c; simp [qzI]
  have h1 : diagOk dI = true := by
    simp [diagOk, dI, List.ofFn_succ]
    norm_num
  have h2 : bkTest dI = .ok true := by
    have h3 : (1 : WithTop ℝ) ≤ ((4 / 3 : ℝ) : WithTop ℝ) := by exact_mod_cast (by norm_num : (1 : ℝ) ≤ 4 / 3)
    have h4 : ((0 : ℝ) : WithTop ℝ) < 1 := by exact_mod_cast (by norm_num : (0 : ℝ) < 1)
    have h5 : min ((2 : ℝ) : WithTop ℝ) ((0 : ℝ) : WithTop ℝ) = ((0 : ℝ) : WithTop ℝ) :=
      min_eq_right (by exact_mod_cast (by norm_num : (0 : ℝ) ≤ 2))
    unfold bkTest
    rw [take_eigList, drop_eigList]
    have e3' : genEig dI (.inr (Fin.succ 0)) = ((0 : ℝ) : WithTop ℝ) := dI_eig.2.2
    simp only [List.ofFn_succ, List.ofFn_zero, dI_eig.1, dI_eig.2.1, e3', pyMax, pyMin, List.foldl_nil, List.foldl_cons, h5,
      bind, Except.bind, h3, if_true, pure, Except.pure, h4, decide_true]
  have h3 : ruleFromQZ solverR dI = .ok (.of fun i _ => if i = 0 then -4 / 3 else 0) := by
    unfold ruleFromQZ
    have hdet : IsUnit (dI.Z.toBlocks₁₁)ᵀ.det := by
      rw [Matrix.det_fin_one]; simp [dI, rotI]
    simp only [solverR, if_pos hdet, bind, Except.bind, pure, Except.pure, Except.ok.injEq]
    have : (dI.Z.toBlocks₁₁)ᵀ⁻¹ * (dI.Z.toBlocks₂₁)ᵀ = .of fun _ j => if j = 0 then -4 / 3 else 0 := by
      have e : (dI.Z.toBlocks₂₁)ᵀ = (dI.Z.toBlocks₁₁)ᵀ * (.of fun _ j => if j = 0 then -4 / 3 else 0 : Matrix (Fin 1) (Fin 2) ℝ) := by
        ext i j; fin_cases i; fin_cases j <;>
        simp [dI, rotI, Matrix.mul_apply]
      rw [e, ← Matrix.mul_assoc, Matrix.nonsing_inv_mul _ hdet, Matrix.one_mul]
    rw [this]
    rfl
  unfold perturb1 approximate1stOrder selectRule
  simp only [e, h1, h2, h3, bind, Except.bind, pure, Except.pure]
  rfl

/-- **C151 fails when the rule is not unique.**  There is a model which `perturb` solves without complaint, with stable
states, for which the horizon of perfect foresight never stops to matter: for every horizon and initial state there is a
perfect-foresight path without shocks and its first control is determined, but its distance to the rule grows like
`(3/2)^N`. -/
theorem C151_indeterminate_fails :
    ∃ (dv : Derivs 1 1 2 ℝ) (solve : MatSolver ℝ) (qz : ∀ ns nx : ℕ, Matrix (Fin ns ⊕ Fin nx) (Fin ns ⊕ Fin nx) ℝ →
      Matrix (Fin ns ⊕ Fin nx) (Fin ns ⊕ Fin nx) ℝ → ℝ → QZ (Fin ns ⊕ Fin nx) ℝ) (cut : WithTop ℝ → WithTop ℝ → ℝ)
      (t : BiTaylor 1 1 2 ℝ) (dr : (Fin 1 → ℝ) → (Fin 1 → ℝ) → Fin 2 → ℝ),
      solve.Correct ∧
      (let d := qz 1 2 (pencilA dv.f_S dv.f_X) (pencilB dv.g_s dv.g_x dv.f_s dv.f_x) (1 - 1 / 10 ^ 8)
       d.Correct (pencilA dv.f_S dv.f_X) (pencilB dv.g_s dv.g_x dv.f_s dv.f_x) ∧ d.Triangular ∧
         ∀ i, 1 < genEig d (.inl i)) ∧
      perturb1 solve qz cut .iid dv 0 0 0 = .ok t ∧
      (∀ m s, t.evalMS (.vec m) (.vec s) = .ok (.vec (dr m s))) ∧
      ∀ (N : ℕ) (start : Fin 1 → ℝ), 2 ≤ N →
        (∃ s x, LinPFPath dv 0 0 0 N 0 start (fun _ => 0) s x) ∧
        ∀ s x, LinPFPath dv 0 0 0 N 0 start (fun _ => 0) s x →
          x 0 0 = dr 0 start 0 + 2 / 3 * (3 / 2) ^ (N - 2) * start 0 := by
  have e : qzI 1 2 = fun _ _ _ => dI := by funext A B c; simp [qzI]
  refine ⟨dvI, solverR, qzI, fun _ _ => 0, _, fun _ s i => if i = 0 then -4 / 3 * s 0 else 0, solverR_correct, ?_, perturbI, ?_, ?_⟩
  · rw [e]
    refine ⟨dI_correct, dI_triangular, fun i => ?_⟩
    rw [Subsingleton.elim i 0, dI_eig.1]
    exact_mod_cast (by norm_num : (1 : ℝ) < 4 / 3)
  · intro m s
    rw [((C35_points _).2.1 rfl m s).1]
    congr 2
    funext k
    fin_cases k <;> simp [Matrix.mulVec, dotProduct]
  intro N start hN
  obtain ⟨n, rfl⟩ : ∃ n, N = n + 2 := ⟨N - 2, by omega⟩
  constructor
  · refine ⟨fun t _ => start 0 * (3 / 4) ^ t, fun t i => if i = 0 then
      -4 / 3 * (start 0 * (3 / 4) ^ t) + 2 ^ (n + 1 - t) * (start 0 * (3 / 4) ^ n) / 3 else 0, ⟨?_, ?_, ?_, ?_⟩, fun _ _ => rfl⟩
    · funext k; rw [Subsingleton.elim k 0]; simp
    · intro t ht
      funext k
      simp [linG, dvI, Matrix.mulVec, dotProduct, pow_succ]
      ring
    · intro t ht
      obtain ⟨j, hj⟩ : ∃ j, n + 1 - (t + 1) = j := ⟨_, rfl⟩
      have hj' : n + 1 - t = j + 1 := by omega
      funext k
      simp only [linF, dvI, hj, hj']
      fin_cases k
      · simp [Matrix.mulVec, dotProduct, pow_succ, diagonal]
        ring
      · simp [Matrix.mulVec, dotProduct, pow_succ, diagonal]
    · funext k
      fin_cases k
      · simp only [show n + 2 - 1 = n + 1 by omega, show n + 2 - 2 = n by omega, show n + 1 - (n + 1) = 0 by omega,
          show n + 1 - n = 1 by omega, pow_succ, pow_zero]
        simp
        ring
      · simp
  · rintro s x ⟨hp, -⟩
    have hs : ∀ t, t < n + 2 → s t 0 = start 0 * (3 / 4) ^ t := by
      intro t
      induction t with
      | zero => intro _; rw [hp.initial]; simp
      | succ t ih =>
        intro ht
        have := congrFun (hp.transition t ht) 0
        simp [linG, dvI, Matrix.mulVec, dotProduct] at this
        rw [this, ih (by omega), pow_succ]
        ring
    have hx : ∀ t, t + 1 < n + 2 → x t 0 = 2 / 3 * s t 0 + 2 * x (t + 1) 0 := by
      intro t ht
      have := congrFun (hp.arbitrage t ht) 0
      simp [linF, dvI, Matrix.mulVec, dotProduct, diagonal] at this
      linarith
    have hterm : x (n + 1) 0 = x n 0 := congrFun hp.terminal 0
    have hlast : x (n + 1) 0 = -2 / 3 * s n 0 := by
      have := hx n (by omega)
      rw [← hterm] at this
      linarith
    have key : ∀ k, k ≤ n + 1 → x (n + 1 - k) 0 = -4 / 3 * s (n + 1 - k) 0 + 2 ^ k * s n 0 / 3 := by
      intro k
      induction k with
      | zero =>
        intro _
        rw [Nat.sub_zero, hlast, hs (n + 1) (by omega), hs n (by omega), pow_succ]
        ring
      | succ k ih =>
        intro hk
        have h1 := hx (n + 1 - (k + 1)) (by omega)
        have h2 := ih (by omega)
        rw [show n + 1 - (k + 1) + 1 = n + 1 - k by omega, h2, hs (n + 1 - (k + 1)) (by omega),
          hs (n + 1 - k) (by omega), show n + 1 - k = n + 1 - (k + 1) + 1 by omega] at h1
        rw [h1, hs (n + 1 - (k + 1)) (by omega)]
        ring
    have h0 := key (n + 1) le_rfl
    rw [Nat.sub_self, hs 0 (by omega), hs n (by omega)] at h0
    simp only [if_true]
    rw [h0]
    have : (3 / 2 : ℝ) ^ n = 2 ^ n * (3 / 4) ^ n := by rw [← mul_pow]; norm_num
    rw [show n + 2 - 2 = n by omega, this, pow_succ]
    ring

end instances

end Dolo
