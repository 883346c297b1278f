import Mathlib.Probability.Distributions.Gaussian.Real
import Verif.Lemmas.HermiteRoots

/-!
# The moment functional is the Gaussian integral
-/

namespace Dolo.Hermite

open Polynomial MeasureTheory

theorem integrable_pow (k : ℕ) : Integrable fun x : ℝ => x ^ k * Real.exp (-x ^ 2) := by
  have := integrable_rpow_mul_exp_neg_mul_sq (b := 1) one_pos (s := k)
    (lt_of_lt_of_le (by norm_num) (Nat.cast_nonneg k))
  simpa using this

theorem integral_pow (k : ℕ) :
    ∫ x : ℝ, x ^ k * Real.exp (-x ^ 2) = Real.sqrt Real.pi * moment k := by
  have step : ∀ j : ℕ, ∫ x : ℝ, x ^ (j + 1) * Real.exp (-x ^ 2)
      = (j : ℝ) / 2 * ∫ x : ℝ, x ^ (j - 1) * Real.exp (-x ^ 2) := by
    intro j
    have hd : ∀ x : ℝ, HasDerivAt (fun x : ℝ => x ^ j * Real.exp (-x ^ 2))
        ((j : ℝ) * (x ^ (j - 1) * Real.exp (-x ^ 2)) - 2 * (x ^ (j + 1) * Real.exp (-x ^ 2))) x := by
      intro x
      have h1 := hasDerivAt_pow j x
      have h2 : HasDerivAt (fun x : ℝ => Real.exp (-x ^ 2)) (Real.exp (-x ^ 2) * (-(2 * x))) x := by
        have := ((hasDerivAt_pow 2 x).neg).exp
        simpa using this
      exact (h1.mul h2).congr_deriv (by ring)
    have hi := ((integrable_pow (j - 1)).const_mul (j : ℝ)).sub ((integrable_pow (j + 1)).const_mul 2)
    have h0 := integral_eq_zero_of_hasDerivAt_of_integrable hd hi (integrable_pow j)
    rw [integral_sub ((integrable_pow (j - 1)).const_mul _) ((integrable_pow (j + 1)).const_mul _),
      integral_const_mul, integral_const_mul] at h0
    linarith
  induction k using Nat.twoStepInduction with
  | zero =>
    have := integral_gaussian 1
    simp only [neg_mul, one_mul, div_one] at this
    simp [moment, this]
  | one =>
    have := step 0
    simp only [Nat.cast_zero, zero_div, zero_mul] at this
    rw [this]; simp [moment]
  | more k ih _ =>
    have := step (k + 1)
    rw [this, Nat.add_sub_cancel, ih]
    simp only [moment]
    push_cast
    ring

theorem integrable_poly (f : ℝ[X]) : Integrable fun x : ℝ => f.eval x * Real.exp (-x ^ 2) := by
  induction f using Polynomial.induction_on' with
  | add p q hp hq =>
    have := hp.add hq
    refine this.congr (Filter.Eventually.of_forall fun x => ?_)
    simp [add_mul]
  | monomial k a =>
    refine ((integrable_pow k).const_mul a).congr (Filter.Eventually.of_forall fun x => ?_)
    simp [mul_assoc]

/-- The moment functional is integration against `exp (-x²) / √π`. -/
theorem integral_poly (f : ℝ[X]) :
    ∫ x : ℝ, f.eval x * Real.exp (-x ^ 2) = Real.sqrt Real.pi * L f := by
  induction f using Polynomial.induction_on' with
  | add p q hp hq =>
    have : (fun x : ℝ => (p + q).eval x * Real.exp (-x ^ 2))
        = fun x => p.eval x * Real.exp (-x ^ 2) + q.eval x * Real.exp (-x ^ 2) := by
      funext x; simp [add_mul]
    rw [this, integral_add (integrable_poly p) (integrable_poly q), hp, hq, L_add]
    ring
  | monomial k a =>
    have : (fun x : ℝ => (monomial k a).eval x * Real.exp (-x ^ 2))
        = fun x => a * (x ^ k * Real.exp (-x ^ 2)) := by
      funext x; simp [mul_assoc]
    rw [this, integral_const_mul, integral_pow, L_monomial]
    ring

/-- In terms of the standard normal distribution. -/
theorem gaussian_poly (g : ℝ[X]) :
    ∫ x, g.eval x ∂(ProbabilityTheory.gaussianReal 0 1) = L (g.comp (C (Real.sqrt 2) * X)) := by
  have hpi : (0 : ℝ) < Real.sqrt Real.pi := Real.sqrt_pos.2 Real.pi_pos
  have h2 : (0 : ℝ) < Real.sqrt 2 := Real.sqrt_pos.2 (by norm_num)
  have h2s : Real.sqrt 2 ^ 2 = 2 := Real.sq_sqrt (by norm_num)
  have h1 := integral_poly (g.comp (C (Real.sqrt 2) * X))
  rw [ProbabilityTheory.integral_gaussianReal_eq_integral_smul one_ne_zero]
  have e1 : ∀ x : ℝ, (g.comp (C (Real.sqrt 2) * X)).eval x * Real.exp (-x ^ 2)
      = (fun u : ℝ => g.eval u * Real.exp (-(u ^ 2) / 2)) (Real.sqrt 2 * x) := by
    intro x
    simp only [eval_comp, eval_mul, eval_C, eval_X, mul_pow, h2s]
    congr 2
    ring
  simp only [e1] at h1
  rw [Measure.integral_comp_mul_left (fun u : ℝ => g.eval u * Real.exp (-(u ^ 2) / 2))] at h1
  have e2 : ∀ u : ℝ, ProbabilityTheory.gaussianPDFReal 0 1 u • g.eval u
      = (Real.sqrt (2 * Real.pi))⁻¹ * (g.eval u * Real.exp (-(u ^ 2) / 2)) := by
    intro u
    simp only [ProbabilityTheory.gaussianPDFReal, smul_eq_mul, NNReal.coe_one, mul_one, sub_zero]
    ring
  simp only [e2]
  rw [integral_const_mul, Real.sqrt_mul (by norm_num)]
  rw [abs_of_pos (inv_pos.2 h2), smul_eq_mul] at h1
  rw [mul_inv, mul_right_comm, h1]
  field_simp

end Dolo.Hermite
