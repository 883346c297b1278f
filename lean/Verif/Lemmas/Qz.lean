import Mathlib.LinearAlgebra.Matrix.Block
import Mathlib.LinearAlgebra.Matrix.Polynomial
import Mathlib.FieldTheory.IsAlgClosed.Basic
import Mathlib.Analysis.Complex.Polynomial.Basic
import Verif.Model.Qz

/-!
# Roots of pencils with a zero block
-/

set_option linter.unusedSectionVars false

namespace Dolo

open Matrix Polynomial

section
variable {I : Type} [Fintype I] [DecidableEq I]

/-- A real matrix as a complex one. -/
abbrev cMat {I J : Type} (A : Matrix I J ℝ) : Matrix I J ℂ := A.map Complex.ofReal

/-- The polynomial `det(z A - B)`. -/
noncomputable def pencilPoly (A B : Matrix I I ℝ) : Polynomial ℂ :=
  det ((X : Polynomial ℂ) • (cMat A).map C + (-(cMat B)).map C)

theorem pencilPoly_eval (A B : Matrix I I ℝ) (z : ℂ) : (pencilPoly A B).eval z = (z • cMat A - cMat B).det := by
  unfold pencilPoly
  rw [← coe_evalRingHom, RingHom.map_det]
  congr 1
  ext i j
  simp [sub_eq_add_neg]
  exact mul_comm _ _

theorem pencilPoly_degree {A : Matrix I I ℝ} (hA : A.det ≠ 0) (B : Matrix I I ℝ) :
    pencilPoly A B ≠ 0 ∧ (pencilPoly A B).roots.card = Fintype.card I := by
  have hc : (pencilPoly A B).coeff (Fintype.card I) ≠ 0 := by
    unfold pencilPoly
    rw [coeff_det_X_add_C_card]
    have : (cMat A).det = ((A.det : ℝ) : ℂ) := by
      rw [← Complex.ofRealHom_eq_coe, RingHom.map_det]; rfl
    rw [this]
    exact_mod_cast hA
  have hd : (pencilPoly A B).natDegree = Fintype.card I :=
    le_antisymm (natDegree_det_X_add_C_le _ _) (le_natDegree_of_ne_zero hc)
  refine ⟨fun h => hc (by rw [h, coeff_zero]), ?_⟩
  rw [IsAlgClosed.card_roots_eq_natDegree, hd]

/-- The determinant of a pencil with a zero block. -/
theorem pencilPoly_blocks (S T : Matrix I I ℝ) (p : I → Prop) [DecidablePred p]
    (hS : ∀ i, ¬ p i → ∀ j, p j → S i j = 0) (hT : ∀ i, ¬ p i → ∀ j, p j → T i j = 0) :
    pencilPoly S T = pencilPoly (S.toSquareBlockProp p) (T.toSquareBlockProp p) *
      pencilPoly (S.toSquareBlockProp fun i => ¬ p i) (T.toSquareBlockProp fun i => ¬ p i) := by
  unfold pencilPoly
  rw [twoBlockTriangular_det _ p (fun i hi j hj => by simp [hS i hi j hj, hT i hi j hj])]
  rfl

/-- Orthogonal transformations multiply the polynomial by a constant. -/
theorem pencilPoly_similar (S T Q Z : Matrix I I ℝ) (hQ : Qᵀ * Q = 1) (hZ : Zᵀ * Z = 1) :
    ∃ c : ℂ, c ≠ 0 ∧ pencilPoly (Q * S * Zᵀ) (Q * T * Zᵀ) = C c * pencilPoly S T := by
  have hq : Q.det ≠ 0 := by
    intro h
    have := congrArg det hQ
    rw [det_mul, det_transpose, h] at this
    simp at this
  have hz : Zᵀ.det ≠ 0 := by
    intro h
    have := congrArg det hZ
    rw [det_mul, h] at this
    simp at this
  refine ⟨(Q.det : ℂ) * (Zᵀ.det : ℂ), mul_ne_zero (by exact_mod_cast hq) (by exact_mod_cast hz), ?_⟩
  refine Polynomial.funext fun z => ?_
  rw [eval_mul, eval_C, pencilPoly_eval, pencilPoly_eval]
  have hm : ∀ M N : Matrix I I ℝ, cMat (M * N) = cMat M * cMat N := fun M N =>
    map_mul (Complex.ofRealHom.mapMatrix (m := I)) M N
  have hdet : ∀ M : Matrix I I ℝ, (cMat M).det = ((M.det : ℝ) : ℂ) := fun M => by
    rw [← Complex.ofRealHom_eq_coe, RingHom.map_det]; rfl
  have e : z • cMat (Q * S * Zᵀ) - cMat (Q * T * Zᵀ) = cMat Q * (z • cMat S - cMat T) * cMat Zᵀ := by
    simp only [hm, Matrix.mul_sub, Matrix.sub_mul, Matrix.mul_smul, Matrix.smul_mul]
  rw [e, det_mul, det_mul, hdet, hdet]
  ring

end

end Dolo
