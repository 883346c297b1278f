import Mathlib.Probability.Distributions.Gaussian.Multivariate
import Mathlib.MeasureTheory.Integral.Pi
import Mathlib.Algebra.MvPolynomial.Degrees
import Mathlib.Algebra.MvPolynomial.Monad

/-!
# Polynomials and multivariate normal laws
-/

namespace Dolo

open MeasureTheory ProbabilityTheory Matrix WithLp MvPolynomial
open scoped RealInnerProductSpace

/-- An affine image of the standard normal law is the normal law with covariance `C Cᵀ`. -/
theorem map_affine_stdGaussian {d : ℕ} (m : EuclideanSpace ℝ (Fin d)) (C : Matrix (Fin d) (Fin d) ℝ) :
    (stdGaussian (EuclideanSpace ℝ (Fin d))).map (fun x => m + toEuclideanCLM (𝕜 := ℝ) C x)
      = multivariateGaussian m (C * Cᵀ) := by
  have hS : (C * Cᵀ).PosSemidef := by
    have := Matrix.posSemidef_self_mul_conjTranspose C
    rwa [Matrix.conjTranspose_eq_transpose_of_trivial] at this
  apply Measure.ext_of_charFun (E := EuclideanSpace ℝ (Fin d))
  ext t
  rw [charFun_multivariateGaussian hS, charFun_apply,
    integral_map (by fun_prop) (by fun_prop)]
  have h1 : ∀ x : EuclideanSpace ℝ (Fin d),
      ⟪m + toEuclideanCLM (𝕜 := ℝ) C x, t⟫ = ⟪t, m⟫ + ⟪x, toEuclideanCLM (𝕜 := ℝ) Cᵀ t⟫ := by
    intro x
    rw [inner_add_left, real_inner_comm]
    congr 1
    simp only [PiLp.inner_apply, ofLp_toEuclideanCLM, Matrix.mulVec, dotProduct, RCLike.inner_apply,
      conj_trivial, Finset.mul_sum, Finset.sum_mul, Matrix.transpose_apply]
    rw [Finset.sum_comm]
    exact Finset.sum_congr rfl fun i _ => Finset.sum_congr rfl fun j _ => by ring
  simp only [h1, Complex.ofReal_add, add_mul, Complex.exp_add]
  rw [integral_const_mul, ← charFun_apply, charFun_stdGaussian, ← Complex.exp_add]
  congr 1
  have h2 : ‖toEuclideanCLM (𝕜 := ℝ) Cᵀ t‖ ^ 2 = t ⬝ᵥ (C * Cᵀ) *ᵥ t := by
    rw [← Matrix.mulVec_mulVec, Matrix.dotProduct_mulVec, ← Matrix.mulVec_transpose,
      EuclideanSpace.real_norm_sq_eq]
    simp [dotProduct, sq]
  rw [← Complex.ofReal_pow, h2]
  ring

theorem integrable_pow_gaussian (n : ℕ) : Integrable (fun x : ℝ => x ^ n) (gaussianReal 0 1) := by
  have h := (memLp_id_gaussianReal' (μ := 0) (v := 1) (n : ENNReal) (by simp)).integrable_norm_pow'
  refine h.mono' (by fun_prop) ?_
  simp

/-- Expectation of a polynomial of independent standard normal variables. -/
theorem integral_mvPoly_pi {d : ℕ} (Q : MvPolynomial (Fin d) ℝ) :
    ∫ z : Fin d → ℝ, eval z Q ∂(Measure.pi fun _ : Fin d => gaussianReal 0 1)
      = ∑ s ∈ Q.support, Q.coeff s * ∏ i, ∫ x : ℝ, x ^ s i ∂(gaussianReal 0 1) := by
  simp only [eval_eq']
  rw [integral_finsetSum]
  · refine Finset.sum_congr rfl fun s _ => ?_
    rw [integral_const_mul]
    congr 1
    exact integral_fintype_prod_eq_prod fun (i : Fin d) (x : ℝ) => x ^ s i
  · intro s _
    refine Integrable.const_mul ?_ _
    exact Integrable.fintype_prod (f := fun (i : Fin d) (x : ℝ) => x ^ s i)
      fun i => integrable_pow_gaussian (s i)

/-- Substituting affine forms does not raise the total degree. -/
theorem totalDegree_bind₁_affine {d : ℕ} (P : MvPolynomial (Fin d) ℝ)
    (L : Fin d → MvPolynomial (Fin d) ℝ) (hL : ∀ i, (L i).totalDegree ≤ 1) :
    (bind₁ L P).totalDegree ≤ P.totalDegree := by
  have e : bind₁ L P = ∑ s ∈ P.support, C (P.coeff s) * ∏ i, L i ^ s i := by
    rw [bind₁, aeval_def, eval₂_eq']
    rfl
  rw [e]
  refine totalDegree_finsetSum_le fun s hs => ?_
  refine (totalDegree_mul _ _).trans ?_
  rw [totalDegree_C, zero_add]
  refine (totalDegree_finsetProd _ _).trans ?_
  calc ∑ i, (L i ^ s i).totalDegree ≤ ∑ i, s i := by
        refine Finset.sum_le_sum fun i _ => (totalDegree_pow _ _).trans ?_
        exact (Nat.mul_le_mul_left _ (hL i)).trans (by simp)
    _ = s.sum fun _ e => e := by
        rw [Finsupp.sum_fintype _ _ (by simp)]
    _ ≤ P.totalDegree := le_totalDegree hs

/-- The affine forms `m_a + Σ_k C_{ak} X_k`. -/
noncomputable def affineForm {d : ℕ} (m : Fin d → ℝ) (M : Fin d → Fin d → ℝ) (a : Fin d) :
    MvPolynomial (Fin d) ℝ := C (m a) + ∑ k, C (M a k) * X k

theorem totalDegree_affineForm {d : ℕ} (m : Fin d → ℝ) (M : Fin d → Fin d → ℝ) (a : Fin d) :
    (affineForm m M a).totalDegree ≤ 1 := by
  refine (totalDegree_add _ _).trans (max_le (by simp) (totalDegree_finsetSum_le fun k _ => ?_))
  refine (totalDegree_mul _ _).trans ?_
  simp

theorem eval_affineForm {d : ℕ} (m : Fin d → ℝ) (M : Fin d → Fin d → ℝ) (a : Fin d) (z : Fin d → ℝ) :
    eval z (affineForm m M a) = m a + ∑ k, M a k * z k := by
  simp [affineForm]

theorem eval_bind₁_affine {d : ℕ} (P : MvPolynomial (Fin d) ℝ) (m : Fin d → ℝ) (M : Fin d → Fin d → ℝ)
    (z : Fin d → ℝ) :
    eval z (bind₁ (affineForm m M) P) = eval (fun a => m a + ∑ k, M a k * z k) P := by
  have h := eval₂Hom_bind₁ (RingHom.id ℝ) z (affineForm m M) P
  simp only [eval]
  rw [h]
  congr 2
  funext a
  exact eval_affineForm m M a z

/-- Expectation of a polynomial under a normal law, by substitution. -/
theorem integral_mvPoly_gaussian {d : ℕ} (P : MvPolynomial (Fin d) ℝ) (m : Fin d → ℝ)
    (M : Fin d → Fin d → ℝ) :
    ∫ x : EuclideanSpace ℝ (Fin d), eval (fun i => x i) P
        ∂(multivariateGaussian (toLp 2 m) (Matrix.of M * (Matrix.of M)ᵀ))
      = ∑ s ∈ (bind₁ (affineForm m M) P).support, (bind₁ (affineForm m M) P).coeff s
          * ∏ i, ∫ x : ℝ, x ^ s i ∂(gaussianReal 0 1) := by
  rw [← integral_mvPoly_pi, ← map_affine_stdGaussian, ← map_pi_eq_stdGaussian,
    integral_map (by fun_prop), integral_map (by fun_prop)]
  · congr 1
    funext z
    rw [eval_bind₁_affine]
    congr 2
  all_goals
    refine Measurable.aestronglyMeasurable ?_
    simp only [eval_eq']
    fun_prop

end Dolo
