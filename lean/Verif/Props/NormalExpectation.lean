import Verif.Model.NormalExpectation
import Verif.Lemmas.GaussianMv
import Verif.Props.Hermgauss

/-!
# C114: expectations under normal distributions
-/

set_option linter.unusedSectionVars false

namespace Dolo

open MeasureTheory ProbabilityTheory Hermite

/-- Variance as a nonnegative real. -/
noncomputable def sqNN (s : ℝ) : NNReal := ⟨s ^ 2, sq_nonneg s⟩

/-! ### Adaptive quadrature -/

private theorem integrand_eq (mu sigma : ℝ) (hs : sigma ≠ 0) (f : ℝ → ℝ) (x : ℝ) :
    unormalIntegrand mu sigma f x
      = (|sigma| / sigma) * (gaussianPDFReal mu (sqNN sigma) x • f x) := by
  have h1 : Real.sqrt (2 * Real.pi * sigma ^ 2) = Real.sqrt (2 * Real.pi) * |sigma| := by
    rw [Real.sqrt_mul (by positivity), Real.sqrt_sq_eq_abs]
  have h2 : |sigma| ≠ 0 := abs_ne_zero.2 hs
  have h3 : Real.sqrt (2 * Real.pi) ≠ 0 := (Real.sqrt_pos.2 (by positivity)).ne'
  have h4 : -1 / 2 * ((x - mu) / sigma) ^ 2 = -(x - mu) ^ 2 / (2 * sigma ^ 2) := by
    field_simp
  have hv : ((sqNN sigma : NNReal) : ℝ) = sigma ^ 2 := rfl
  rw [unormalIntegrand, gaussianPDFReal, hv, h1, h4, smul_eq_mul]
  field_simp

/-- **C114, `integrate`.**  For `σ > 0`, `UNormal(μ, σ).integrate(f)` is the expectation of `f` under
the normal law with mean `μ` and variance `σ²`, provided the integration routine is exact on the
function it is given. -/
theorem C114_integrate (quad : (ℝ → ℝ) → ℝ) (mu sigma : ℝ) (hs : 0 < sigma) (f : ℝ → ℝ)
    (hq : quad (unormalIntegrand mu sigma f) = ∫ x, unormalIntegrand mu sigma f x) :
    unormalIntegrate quad mu sigma f = .ok (∫ x, f x ∂(gaussianReal mu (sqNN sigma))) := by
  have hv : sqNN sigma ≠ 0 := by
    intro h
    exact hs.ne' (pow_eq_zero_iff two_ne_zero |>.1 (congrArg NNReal.toReal h))
  rw [unormalIntegrate, if_neg hs.ne', hq, integral_gaussianReal_eq_integral_smul hv]
  congr 2
  funext x
  rw [integrand_eq mu sigma hs.ne', abs_of_pos hs, div_self hs.ne', one_mul]

/-- **C114 (negation).**  A negative `σ` is accepted; draws have variance `σ²` as well, but
`integrate` returns minus the expectation: the total mass is `-1`. -/
theorem C114_integrate_negative_fails (quad : (ℝ → ℝ) → ℝ) (mu sigma : ℝ) (hs : sigma < 0) (f : ℝ → ℝ)
    (hq : quad (unormalIntegrand mu sigma f) = ∫ x, unormalIntegrand mu sigma f x) :
    unormalIntegrate quad mu sigma f = .ok (-∫ x, f x ∂(gaussianReal mu (sqNN sigma))) ∧
      unormalDrawParams mu sigma = unormalDrawParams mu (-sigma) := by
  have hv : sqNN sigma ≠ 0 := by
    intro h
    exact hs.ne (pow_eq_zero_iff two_ne_zero |>.1 (congrArg NNReal.toReal h))
  refine ⟨?_, by simp [unormalDrawParams]⟩
  rw [unormalIntegrate, if_neg hs.ne, hq, integral_gaussianReal_eq_integral_smul hv,
    ← integral_neg]
  congr 2
  funext x
  rw [integrand_eq mu sigma hs.ne, abs_of_neg hs, neg_div, div_self hs.ne, neg_one_mul]

/-! ### Gauss–Hermite discretisation in one dimension -/

/-- An affine image of the standard normal law. -/
private theorem gaussian_affine (mu s : ℝ) (g : ℝ → ℝ) (hg : Continuous g) :
    ∫ x, g (x * s + mu) ∂(gaussianReal 0 1) = ∫ x, g x ∂(gaussianReal mu (sqNN s)) := by
  have h : (gaussianReal 0 1).map (fun x => x * s + mu) = gaussianReal mu (sqNN s) := by
    have e : (fun x : ℝ => x * s + mu) = (fun x => x + mu) ∘ fun x => x * s := rfl
    rw [e, ← Measure.map_map (by fun_prop) (by fun_prop), gaussianReal_map_mul_const,
      gaussianReal_map_add_const]
    congr 1
    · ring
    · rw [mul_one]; rfl
  rw [← h, integral_map (by fun_prop) (by fun_prop)]

/-- **C114, one dimension.**  With nodes at the roots of the Hermite polynomial of order `N = n + 1`
(C98), the Gauss–Hermite discretisation of `UNormal(μ, σ)` integrates every polynomial of degree less
than `2 N` exactly under the normal law with mean `μ` and variance `σ²`. -/
theorem C114_unormal_gh (n : ℕ) (r : ℕ → ℝ) (hr : ∀ i < n + 1, ∀ j < n + 1, r i = r j → i = j)
    (h0 : ∀ i < n + 1, (h (n + 1)).eval (r i) = 0) (tol mu sigma : ℝ) (p : Polynomial ℝ)
    (hp : p.natDegree < 2 * (n + 1)) :
    ∃ dist, unormalDiscretizeGh Real.sqrt (exactRule n r tol) mu sigma = .ok dist ∧
      dist.points.length = n + 1 ∧ dist.weights.length = n + 1 ∧
      dist.integrate (fun x => p.eval (x.getD 0 0)) = ∫ x, p.eval x ∂(gaussianReal mu (sqNN sigma)) := by
  set s := Real.sqrt (sigma ^ 2) with hs
  set R := exactRule n r tol with hR
  have hl : R.weights.length = R.points.length := by simp [hR, exactRule]
  refine ⟨⟨R.points.map fun x => [x * s + mu], R.weights⟩, ?_, by simp [hR, exactRule],
    by simp [hR, exactRule], ?_⟩
  · simp only [unormalDiscretizeGh, gaussHermiteNodes, dif_pos, bind, Except.bind, FiniteDist.mk',
      List.length_map, List.map_map, hl, if_true]
    congr 2
  · have hv : sqNN sigma = sqNN s := by
      apply NNReal.eq
      show sigma ^ 2 = s ^ 2
      rw [hs, Real.sq_sqrt (sq_nonneg _)]
    rw [hv, ← gaussian_affine mu s _ p.continuous]
    set g : Polynomial ℝ := p.comp (Polynomial.C s * Polynomial.X + Polynomial.C mu) with hg
    have hge : ∀ x, g.eval x = p.eval (x * s + mu) := by
      intro x
      rw [hg, Polynomial.eval_comp]
      congr 1
      simp only [Polynomial.eval_add, Polynomial.eval_mul, Polynomial.eval_C, Polynomial.eval_X]
      ring
    have hdeg : g.natDegree < 2 * (n + 1) := by
      refine lt_of_le_of_lt Polynomial.natDegree_comp_le (lt_of_le_of_lt ?_ hp)
      have : (Polynomial.C s * Polynomial.X + Polynomial.C mu).natDegree ≤ 1 :=
        Polynomial.natDegree_linear_le
      calc _ ≤ p.natDegree * 1 := Nat.mul_le_mul_left _ this
        _ = _ := mul_one _
    have key := C98_normal n r hr h0 tol g hdeg
    simp only [hge] at key
    rw [← key, ← hR]
    rw [← wsum_ritems R fun x => p.eval (x * s + mu)]
    simp only [FiniteDist.integrate, FiniteDist.items, List.zip_map_right, List.map_map]
    rfl

/-- **C114, agreement.**  So the discretised distribution and the continuous one give the same
expectation of every such polynomial, when `σ > 0` and the integration routine is exact. -/
theorem C114_agree (n : ℕ) (r : ℕ → ℝ) (hr : ∀ i < n + 1, ∀ j < n + 1, r i = r j → i = j)
    (h0 : ∀ i < n + 1, (h (n + 1)).eval (r i) = 0) (tol mu sigma : ℝ) (hs : 0 < sigma)
    (p : Polynomial ℝ) (hp : p.natDegree < 2 * (n + 1)) (quad : (ℝ → ℝ) → ℝ)
    (hq : quad (unormalIntegrand mu sigma fun x => p.eval x)
      = ∫ x, unormalIntegrand mu sigma (fun x => p.eval x) x) :
    ∃ dist, unormalDiscretizeGh Real.sqrt (exactRule n r tol) mu sigma = .ok dist ∧
      unormalIntegrate quad mu sigma (fun x => p.eval x)
        = .ok (dist.integrate fun x => p.eval (x.getD 0 0)) := by
  obtain ⟨dist, h1, -, -, h2⟩ := C114_unormal_gh n r hr h0 tol mu sigma p hp
  refine ⟨dist, h1, ?_⟩
  rw [C114_integrate quad mu sigma hs _ hq, h2]

/-! ### Several dimensions -/

private theorem prodApply_ofFn {d : ℕ} (s : Fin d → ℕ) (z : List ℝ) (hz : z.length = d) :
    prodApply (List.ofFn fun i => fun x : ℝ => x ^ s i) z = ∏ i : Fin d, z.getD i 0 ^ s i := by
  induction d generalizing z with
  | zero => simp [prodApply]
  | succ d ih =>
    cases z with
    | nil => simp at hz
    | cons x z =>
      rw [List.ofFn_succ, prodApply, ih (fun i => s i.succ) z (by simpa using hz), Fin.prod_univ_succ]
      simp

/-- The law that the code discretises in several dimensions: the mean is counted twice, except in the
coordinates whose column in `sigma` sums to zero. -/
noncomputable def codeMean {d : ℕ} (sigma : Fin d → Fin d → ℝ) (mu : Fin d → ℝ) (a : Fin d) : ℝ :=
  if ∑ b, sigma b a = 0 then mu a else 2 * mu a

/-- **C114, several dimensions.**  The discretisation of `Normal(μ, Σ)` integrates every polynomial of
total degree less than `2 N_k` for all orders `N_k = n_k + 1` exactly under the normal law with
covariance `Σ` and mean `codeMean`: twice `μ` in the coordinates that are random. -/
theorem C114_normal {d : ℕ} (hd : 2 ≤ d) (sqrt : ℝ → ℝ)
    (chol : (Fin d → Fin d → ℝ) → Except Err (Fin d → Fin d → ℝ))
    (n : Fin d → ℕ) (r : Fin d → ℕ → ℝ)
    (hr : ∀ k, ∀ i < n k + 1, ∀ j < n k + 1, r k i = r k j → i = j)
    (h0 : ∀ k, ∀ i < n k + 1, (h (n k + 1)).eval (r k i) = 0) (tol : ℝ)
    (sigma C : Fin d → Fin d → ℝ) (mu : Fin d → ℝ) (hC : chol (fillDiag sigma) = .ok C)
    (hchol : ∀ a b, ∑ k, C a k * C b k = fillDiag sigma a b)
    (hz : ∀ a, ∑ b, sigma b a = 0 → ∀ b, sigma a b = 0 ∧ sigma b a = 0)
    (P : MvPolynomial (Fin d) ℝ) (hP : ∀ k, P.totalDegree < 2 * (n k + 1)) :
    ∃ dist, normalDiscretize sqrt chol (List.ofFn fun k => exactRule (n k) (r k) tol) sigma mu = .ok dist ∧
      dist.integrate (fun x => MvPolynomial.eval (fun i : Fin d => x.getD i 0) P)
        = ∫ x : EuclideanSpace ℝ (Fin d), MvPolynomial.eval (fun i => x i) P
            ∂(multivariateGaussian (WithLp.toLp 2 (codeMean sigma mu)) (Matrix.of sigma)) := by
  set rules := List.ofFn fun k => exactRule (n k) (r k) tol with hrules
  have hlen : rules.length = d := by simp [hrules]
  have hrl : ∀ q ∈ rules, q.points.length = q.weights.length := by
    intro q hq
    obtain ⟨k, rfl⟩ := (List.mem_ofFn' _ _).1 hq
    simp [exactRule]
  refine ⟨_, normalDiscretize_eq sqrt chol rules hd hlen hrl sigma C mu hC, ?_⟩
  -- the affine map
  set M : Fin d → Fin d → ℝ := fun a k => if ∑ b, sigma b a = 0 then 0 else C a k with hM
  have hcov : Matrix.of M * (Matrix.of M).transpose = Matrix.of sigma := by
    ext a b
    simp only [Matrix.mul_apply, Matrix.of_apply, Matrix.transpose_apply, hM]
    by_cases ha : ∑ c, sigma c a = 0
    · simp [ha, (hz a ha b).1]
    · by_cases hb : ∑ c, sigma c b = 0
      · simp [hb, (hz b hb a).2]
      · simp only [ha, hb, if_false, hchol, fillDiag]
        rw [if_neg]
        rintro ⟨-, h⟩
        simp [zeroColumns, ha] at h
  have hnode : ∀ t ∈ wprod (rules.map ritems),
      MvPolynomial.eval (fun i : Fin d => (nodeImage C sigma mu t.2).getD i 0) P
        = MvPolynomial.eval (fun i : Fin d => t.2.getD i 0)
            (MvPolynomial.bind₁ (affineForm (codeMean sigma mu) M) P) := by
    intro t _
    rw [eval_bind₁_affine]
    congr 2
    funext a
    simp only [nodeImage, List.getD_eq_getElem?_getD, List.getElem?_ofFn, a.2, dif_pos, Fin.eta,
      Option.getD_some, zeroColumns, decide_eq_true_eq, codeMean, hM]
    by_cases ha : ∑ c, sigma c a = 0
    · simp [ha]
    · simp only [ha, if_false]; ring
  rw [integrate_eq_wsum]
  have hitems : FiniteDist.items ⟨(wprod (rules.map ritems)).map (fun t => nodeImage C sigma mu t.2),
      (wprod (rules.map ritems)).map Prod.fst⟩
      = (wprod (rules.map ritems)).map fun t => (t.1, nodeImage C sigma mu t.2) := by
    simp only [FiniteDist.items]
    rw [List.zip_map']
  rw [hitems, wsum_map_point (wprod (rules.map ritems)) (nodeImage C sigma mu), ← hcov,
    integral_mvPoly_gaussian]
  set Q := MvPolynomial.bind₁ (affineForm (codeMean sigma mu) M) P with hQ
  rw [wsum_congr _ _ (fun z => ∑ s ∈ Q.support,
    Q.coeff s * prodApply (List.ofFn fun i => fun x : ℝ => x ^ s i) z)]
  · rw [wsum_sum]
    refine Finset.sum_congr rfl fun s hs => ?_
    rw [wsum_const_mul, wsum_wprod _ _ (by simp [hlen])]
    congr 1
    have hlist : List.zipWith (fun a f => wsum a f) (rules.map ritems)
        (List.ofFn fun i => fun x : ℝ => x ^ s i)
        = List.ofFn fun i => ∫ x : ℝ, x ^ s i ∂(gaussianReal 0 1) := by
      refine List.ext_getElem (by simp [hlen]) fun i h1 h2 => ?_
      simp only [List.length_ofFn] at h2
      simp only [List.getElem_zipWith, List.getElem_map, List.getElem_ofFn, hrules]
      have hdeg : (Polynomial.X ^ s ⟨i, h2⟩ : Polynomial ℝ).natDegree < 2 * (n ⟨i, h2⟩ + 1) := by
        rw [Polynomial.natDegree_X_pow]
        refine lt_of_le_of_lt ?_ (hP ⟨i, h2⟩)
        refine le_trans ?_ (totalDegree_bind₁_affine P _ (totalDegree_affineForm (codeMean sigma mu) M))
        refine le_trans ?_ (MvPolynomial.le_totalDegree hs)
        rw [Finsupp.sum_fintype _ _ (by simp)]
        exact Finset.single_le_sum (f := fun j => s j) (fun _ _ => Nat.zero_le _) (Finset.mem_univ _)
      have := C98_normal (n ⟨i, h2⟩) (r ⟨i, h2⟩) (hr _) (h0 _) tol _ hdeg
      simp only [Polynomial.eval_pow, Polynomial.eval_X] at this
      rw [← this, ← wsum_ritems _ fun x => x ^ s ⟨i, h2⟩]
    rw [hlist, List.prod_ofFn]
  · intro t ht
    rw [hnode t ht, MvPolynomial.eval_eq']
    refine Finset.sum_congr rfl fun s _ => ?_
    rw [prodApply_ofFn (fun i => s i) t.2]
    have := (mem_wprod_forall₂ _ t ht).length_eq
    rw [← this, List.length_map, hlen]

/-- **C114, centred laws.**  With mean zero this is the law `Normal(0, Σ)` itself. -/
theorem C114_normal_centred {d : ℕ} (hd : 2 ≤ d) (sqrt : ℝ → ℝ)
    (chol : (Fin d → Fin d → ℝ) → Except Err (Fin d → Fin d → ℝ))
    (n : Fin d → ℕ) (r : Fin d → ℕ → ℝ)
    (hr : ∀ k, ∀ i < n k + 1, ∀ j < n k + 1, r k i = r k j → i = j)
    (h0 : ∀ k, ∀ i < n k + 1, (h (n k + 1)).eval (r k i) = 0) (tol : ℝ)
    (sigma C : Fin d → Fin d → ℝ) (hC : chol (fillDiag sigma) = .ok C)
    (hchol : ∀ a b, ∑ k, C a k * C b k = fillDiag sigma a b)
    (hz : ∀ a, ∑ b, sigma b a = 0 → ∀ b, sigma a b = 0 ∧ sigma b a = 0)
    (P : MvPolynomial (Fin d) ℝ) (hP : ∀ k, P.totalDegree < 2 * (n k + 1)) :
    ∃ dist, normalDiscretize sqrt chol (List.ofFn fun k => exactRule (n k) (r k) tol) sigma
        (fun _ => 0) = .ok dist ∧
      dist.integrate (fun x => MvPolynomial.eval (fun i : Fin d => x.getD i 0) P)
        = ∫ x : EuclideanSpace ℝ (Fin d), MvPolynomial.eval (fun i => x i) P
            ∂(multivariateGaussian 0 (Matrix.of sigma)) := by
  obtain ⟨dist, h1, h2⟩ := C114_normal hd sqrt chol n r hr h0 tol sigma C (fun _ => 0) hC hchol hz P hP
  refine ⟨dist, h1, h2.trans ?_⟩
  congr 2
  have : codeMean sigma (fun _ => 0) = 0 := by funext a; simp [codeMean]
  rw [this]
  rfl

/-! ### Cases -/

/-- Nodes exist for every order: the discretisation of `UNormal(1, -2)` with five nodes has the ninth
moment of the normal law with mean 1 and variance 4. -/
example : ∃ r : ℕ → ℝ, ∃ dist,
    unormalDiscretizeGh Real.sqrt (exactRule 4 r 0) 1 (-2) = .ok dist ∧ dist.points.length = 5 ∧
      dist.integrate (fun x => (Polynomial.X ^ 9 : Polynomial ℝ).eval (x.getD 0 0))
        = ∫ x, (Polynomial.X ^ 9 : Polynomial ℝ).eval x ∂(gaussianReal 1 (sqNN (-2))) := by
  obtain ⟨r, hr, h0⟩ := exists_roots 5
  obtain ⟨dist, h1, h2, -, h3⟩ := C114_unormal_gh 4 r (fun i hi j hj h => hr.injOn hi hj h) h0 0 1 (-2)
    (Polynomial.X ^ 9) (by rw [Polynomial.natDegree_X_pow]; norm_num)
  exact ⟨r, dist, h1, h2, h3⟩

/-- Two correlated variables with two nodes each, mean `(1, 1)`: the expectation of their product is
the one of a law with mean `(2, 2)`. -/
example : ∃ r : ℕ → ℝ, ∃ dist,
    normalDiscretize Real.sqrt (fun _ => .ok ![![1, 0], ![1, 1]])
      (List.ofFn fun _ : Fin 2 => exactRule 1 r 0) ![![1, 1], ![1, 2]] (fun _ => 1) = .ok dist ∧
    dist.integrate (fun x => MvPolynomial.eval (fun i : Fin 2 => x.getD i 0)
        (MvPolynomial.X 0 * MvPolynomial.X 1))
      = ∫ x : EuclideanSpace ℝ (Fin 2), MvPolynomial.eval (fun i => x i)
          (MvPolynomial.X 0 * MvPolynomial.X 1)
          ∂(multivariateGaussian (WithLp.toLp 2 (codeMean ![![1, 1], ![1, 2]] fun _ => 1))
            (Matrix.of ![![1, 1], ![1, 2]])) ∧
    codeMean ![![1, 1], ![1, 2]] (fun _ => 1) = fun _ => 2 := by
  obtain ⟨r, hr, h0⟩ := exists_roots 2
  have hz : ∀ a : Fin 2, ∑ b, (![![1, 1], ![1, 2]] : Fin 2 → Fin 2 → ℝ) b a ≠ 0 := by
    intro a
    fin_cases a <;> norm_num [Fin.sum_univ_two]
  have hf : fillDiag (![![1, 1], ![1, 2]] : Fin 2 → Fin 2 → ℝ) = ![![1, 1], ![1, 2]] := by
    funext a b
    rw [fillDiag, if_neg]
    rintro ⟨-, h⟩
    exact hz a (by simpa [zeroColumns] using h)
  obtain ⟨dist, h1, h2⟩ := C114_normal (d := 2) le_rfl Real.sqrt (fun _ => .ok ![![1, 0], ![1, 1]])
    (fun _ => 1) (fun _ => r) (fun _ i hi j hj h => hr.injOn hi hj h) (fun _ => h0) 0
    ![![1, 1], ![1, 2]] ![![1, 0], ![1, 1]] (fun _ => 1) rfl
    (by
      rw [hf]
      intro a b
      fin_cases a <;> fin_cases b <;> norm_num [Fin.sum_univ_two])
    (fun a h => absurd h (hz a)) (MvPolynomial.X 0 * MvPolynomial.X 1)
    (fun _ => lt_of_le_of_lt (MvPolynomial.totalDegree_mul _ _) (by simp))
  refine ⟨r, dist, h1, h2, ?_⟩
  funext a
  rw [codeMean, if_neg (hz a), mul_one]

end Dolo
