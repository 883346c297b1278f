import Mathlib.RingTheory.PowerSeries.Basic
import Mathlib.LinearAlgebra.BilinearMap
import Mathlib.Algebra.BigOperators.Ring.Finset
import Mathlib.Algebra.BigOperators.Pi
import Mathlib.Tactic.Ring
import Mathlib.Tactic.Module
import Mathlib.Tactic.FieldSimp
import Mathlib.Tactic.NormNum
import Mathlib.Tactic.FinCases
import Verif.Model.HigherOrder
import Verif.Props.Sylvester
import Mathlib.Data.Fin.Tuple.Basic
import Mathlib.Logic.Equiv.Fin.Basic
import Mathlib.Algebra.BigOperators.Fin

/-!
# Helper lemmas for the perturbation of order two and three: tensors as multilinear maps
-/

namespace Dolo

open PowerSeries

variable {K : Type} [Field K]

section maps
variable {I J P Q R : Type} [Fintype J] [Fintype P] [Fintype Q] [Fintype R]

theorem c1_add (T u v : P → K) : c1 T (u + v) = c1 T u + c1 T v := by
  simp [c1, mul_add, Finset.sum_add_distrib]

theorem c1_smul (T u : P → K) (a : K) : c1 T (a • u) = a * c1 T u := by
  simp [c1, Finset.mul_sum, mul_left_comm]

/-- Matrix as a linear map. -/
def L1 (A : I → J → K) : (J → K) →ₗ[K] (I → K) where
  toFun v i := c1 (A i) v
  map_add' u v := by funext i; exact c1_add _ _ _
  map_smul' a u := by funext i; exact c1_smul _ _ _

theorem L1_apply (A : I → J → K) (v : J → K) (i : I) : L1 A v i = c1 (A i) v := rfl

/-- Tensor with three indices as a bilinear map. -/
def L2 (T : I → P → Q → K) : (P → K) →ₗ[K] (Q → K) →ₗ[K] (I → K) :=
  LinearMap.mk₂ K (fun u v i => c2 (T i) u v)
    (fun u u' v => by
      funext i; simp [c2, mul_add, add_mul, Finset.sum_add_distrib])
    (fun a u v => by
      funext i
      simp only [c2, Pi.smul_apply, smul_eq_mul, Finset.mul_sum]
      exact Finset.sum_congr rfl fun p _ => Finset.sum_congr rfl fun q _ => by ring)
    (fun u v v' => by
      funext i; simp [c2, mul_add, Finset.sum_add_distrib])
    (fun a u v => by
      funext i
      simp only [c2, Pi.smul_apply, smul_eq_mul, Finset.mul_sum]
      exact Finset.sum_congr rfl fun p _ => Finset.sum_congr rfl fun q _ => by ring)

theorem L2_apply (T : I → P → Q → K) (u : P → K) (v : Q → K) (i : I) : L2 T u v i = c2 (T i) u v := rfl

/-- Tensor with four indices as a trilinear map. -/
def L3 (T : I → P → Q → R → K) : (P → K) →ₗ[K] (Q → K) →ₗ[K] (R → K) →ₗ[K] (I → K) where
  toFun u := L2 (fun i q r => ∑ p, T i p q r * u p)
  map_add' u u' := by
    ext v w i
    simp only [LinearMap.add_apply, Pi.add_apply]
    simp only [mul_add, Finset.sum_add_distrib]
    simp [L2_apply, c2, add_mul, Finset.sum_add_distrib]
  map_smul' a u := by
    ext v w i
    simp only [LinearMap.smul_apply, Pi.smul_apply, smul_eq_mul, RingHom.id_apply, L2_apply, c2]
    simp only [Finset.mul_sum, Finset.sum_mul]
    exact Finset.sum_congr rfl fun p _ => Finset.sum_congr rfl fun q _ =>
      Finset.sum_congr rfl fun r _ => by ring

theorem L3_apply (T : I → P → Q → R → K) (u : P → K) (v : Q → K) (w : R → K) (i : I) :
    L3 T u v w i = c3 (T i) u v w := by
  change c2 _ v w = _
  simp only [c2, c3]
  symm
  rw [Finset.sum_comm]
  apply Finset.sum_congr rfl
  intro q _
  rw [Finset.sum_comm]
  apply Finset.sum_congr rfl
  intro r _
  rw [Finset.sum_mul, Finset.sum_mul]

variable [DecidableEq J] [DecidableEq P] [DecidableEq Q] [DecidableEq R]

theorem c1_single (T : P → K) (p : P) : c1 T (Pi.single p 1) = T p := by
  simp [c1, Pi.single_apply]

theorem c2_single (T : P → Q → K) (p : P) (q : Q) : c2 T (Pi.single p 1) (Pi.single q 1) = T p q := by
  simp [c2, Pi.single_apply]

theorem c3_single (T : P → Q → R → K) (p : P) (q : Q) (r : R) :
    c3 T (Pi.single p 1) (Pi.single q 1) (Pi.single r 1) = T p q r := by
  simp [c3, Pi.single_apply]

theorem L1_single (A : I → J → K) (a : J) : L1 A (Pi.single a 1) = fun i => A i a := by
  funext i; exact c1_single _ _

theorem L2_single (T : I → P → Q → K) (p : P) (q : Q) :
    L2 T (Pi.single p 1) (Pi.single q 1) = fun i => T i p q := by
  funext i; exact c2_single _ _ _

theorem L3_single (T : I → P → Q → R → K) (p : P) (q : Q) (r : R) :
    L3 T (Pi.single p 1) (Pi.single q 1) (Pi.single r 1) = fun i => T i p q r := by
  funext i; rw [L3_apply]; exact c3_single _ _ _ _

/-- Bilinear maps that agree on the basis are equal. -/
theorem bil_ext {B B' : (P → K) →ₗ[K] (Q → K) →ₗ[K] (I → K)}
    (h : ∀ p q, B (Pi.single p 1) (Pi.single q 1) = B' (Pi.single p 1) (Pi.single q 1)) : B = B' := by
  apply LinearMap.pi_ext'
  intro p
  apply LinearMap.ext_ring
  apply LinearMap.pi_ext'
  intro q
  apply LinearMap.ext_ring
  exact h p q

theorem lin_ext {B B' : (P → K) →ₗ[K] (I → K)}
    (h : ∀ p, B (Pi.single p 1) = B' (Pi.single p 1)) : B = B' := by
  apply LinearMap.pi_ext'
  intro p
  apply LinearMap.ext_ring
  exact h p

theorem tri_ext {B B' : (P → K) →ₗ[K] (Q → K) →ₗ[K] (R → K) →ₗ[K] (I → K)}
    (h : ∀ p q r, B (Pi.single p 1) (Pi.single q 1) (Pi.single r 1)
      = B' (Pi.single p 1) (Pi.single q 1) (Pi.single r 1)) : B = B' := by
  apply LinearMap.pi_ext'
  intro p
  apply LinearMap.ext_ring
  exact bil_ext (h p)

end maps

/-! ### Coefficients of a composition -/

section coeff
variable {I J : Type} [Fintype J]

/-- Coefficients of a vector of power series. -/
noncomputable def cf (n : ℕ) (z : J → K⟦X⟧) : J → K := fun j => coeff n (z j)

theorem coeff_mul_low {p q : K⟦X⟧} (hp : coeff 0 p = 0) (hq : coeff 0 q = 0) :
    coeff 0 (p * q) = 0 ∧ coeff 1 (p * q) = 0 ∧ coeff 2 (p * q) = coeff 1 p * coeff 1 q ∧
      coeff 3 (p * q) = coeff 1 p * coeff 2 q + coeff 2 p * coeff 1 q := by
  refine ⟨?_, ?_, ?_, ?_⟩ <;>
  · rw [coeff_mul]
    simp only [Finset.Nat.antidiagonal_succ, Finset.Nat.antidiagonal_zero]
    simp at hp hq
    simp [hp, hq]

theorem coeff_mul3_low {p q r : K⟦X⟧} (hp : coeff 0 p = 0) (hq : coeff 0 q = 0) (hr : coeff 0 r = 0) :
    coeff 0 (p * q * r) = 0 ∧ coeff 1 (p * q * r) = 0 ∧ coeff 2 (p * q * r) = 0 ∧
      coeff 3 (p * q * r) = coeff 1 p * coeff 1 q * coeff 1 r := by
  obtain ⟨a0, a1, a2, a3⟩ := coeff_mul_low hp hq
  obtain ⟨b0, b1, b2, b3⟩ := coeff_mul_low a0 hr
  refine ⟨b0, b1, ?_, ?_⟩
  · rw [b2, a1, zero_mul]
  · rw [b3, a1, a2, zero_mul, zero_add]

end coeff

/-! ### `solve_sylvester` on tensors -/

section sylvester
variable {ns nx : ℕ}

theorem extFin_of_lt {n : ℕ} {α : Type} [Zero α] (v : Fin n → α) (i : Fin n) : extFin v i = v i := by
  simp [extFin]

theorem ext2_apply {n m : ℕ} (M : Fin n → Fin m → K) (i : Fin n) (j : Fin m) : ext2 M i j = M i j := by
  simp [ext2, extFin_of_lt]

theorem multilinear_regular {nd : ℕ} {A B : Fin nx → Fin nx → K} {C : Fin ns → Fin ns → K}
    (h : ∀ X : Fin nx → (Fin nd → Fin ns) → K,
      (∀ i j, ∑ k, A i k * X k j + ∑ k, B i k * ∑ l : Fin nd → Fin ns, X k l * ∏ t, C (l t) (j t) = 0) → X = 0) :
    MultilinearRegular nx ns nd (ext2 A) (ext2 B) (ext2 C) := by
  intro X hX i hi j
  have := h (fun k j => X k j) (fun i j => by
    have := hX i i.2 j
    simpa only [Finset.sum_range, ext2_apply] using this)
  exact congrFun (congrFun this ⟨i, hi⟩) j

/-- The equation solved, for any number of indices. -/
theorem sylvester_fin (solve : LinSolver K) (hsolve : solve.Correct) {nd : ℕ} (hnd : 1 ≤ nd)
    {A B : Fin nx → Fin nx → K} {C : Fin ns → Fin ns → K} (D : ℕ → ℕ → K)
    (h : ∀ X : Fin nx → (Fin nd → Fin ns) → K,
      (∀ i j, ∑ k, A i k * X k j + ∑ k, B i k * ∑ l : Fin nd → Fin ns, X k l * ∏ t, C (l t) (j t) = 0) → X = 0)
    (i : Fin nx) (j : Fin nd → Fin ns) :
    let X := solveSylvester solve nx ns nd (ext2 A) (ext2 B) (ext2 C) D
    ∑ k : Fin nx, A i k * X k (tupleIndex nd j)
      + ∑ k : Fin nx, B i k * ∑ l : Fin nd → Fin ns, X k (tupleIndex nd l) * ∏ t, C (l t) (j t)
      + D i (tupleIndex nd j) = 0 := by
  intro X
  have := C26_multilinear solve hsolve nx ns nd hnd (ext2 A) (ext2 B) (ext2 C) D (multilinear_regular h) i i.2 j
  simpa only [Finset.sum_range, ext2_apply] using this

theorem sum_arrow_succ {α : Type} [Fintype α] {n : ℕ} (F : (Fin (n + 1) → α) → K) :
    ∑ l, F l = ∑ a, ∑ l : Fin n → α, F (Fin.cons a l) := by
  rw [← (Fin.consEquiv (fun _ : Fin (n + 1) => α)).sum_comp, Fintype.sum_prod_type]
  rfl

theorem div_mod_fin {n : ℕ} (q : ℕ) (b : Fin n) : (q * n + b) / n = q ∧ (q * n + b) % n = b := by
  have hb := b.2
  constructor
  · rw [Nat.mul_comm, Nat.mul_add_div (by omega), Nat.div_eq_of_lt hb, Nat.add_zero]
  · rw [Nat.mul_comm, Nat.mul_add_mod, Nat.mod_eq_of_lt hb]

theorem sylvester1_spec (solve : LinSolver K) (hsolve : solve.Correct)
    {A B : Fin nx → Fin nx → K} {C : Fin ns → Fin ns → K} (D : Fin nx → Fin ns → K)
    (h : ∀ X : Fin nx → (Fin 1 → Fin ns) → K,
      (∀ i j, ∑ k, A i k * X k j + ∑ k, B i k * ∑ l : Fin 1 → Fin ns, X k l * ∏ t, C (l t) (j t) = 0) → X = 0) :
    L1 A ∘ₗ L1 (sylvester1 solve A B C D) + L1 B ∘ₗ L1 (sylvester1 solve A B C D) ∘ₗ L1 C + L1 D = 0 := by
  refine lin_ext fun a => ?_
  funext i
  have := sylvester_fin solve hsolve (by norm_num) (ext2 D) h i ![a]
  simp only [sum_arrow_succ, Fintype.sum_unique] at this
  simp only [LinearMap.add_apply, LinearMap.comp_apply, L1_single, L1_apply, Pi.add_apply, LinearMap.zero_apply,
    Pi.zero_apply, c1]
  rw [← this]
  simp [tupleIndex, sylvester1, ext2_apply]

theorem sylvester2_spec (solve : LinSolver K) (hsolve : solve.Correct)
    {A B : Fin nx → Fin nx → K} {C : Fin ns → Fin ns → K} (D : Fin nx → Fin ns → Fin ns → K)
    (h : ∀ X : Fin nx → (Fin 2 → Fin ns) → K,
      (∀ i j, ∑ k, A i k * X k j + ∑ k, B i k * ∑ l : Fin 2 → Fin ns, X k l * ∏ t, C (l t) (j t) = 0) → X = 0)
    (u v : Fin ns → K) :
    L1 A (L2 (sylvester2 solve A B C D) u v) + L1 B (L2 (sylvester2 solve A B C D) (L1 C u) (L1 C v))
      + L2 D u v = 0 := by
  have key : (L2 (sylvester2 solve A B C D)).compr₂ (L1 A)
      + ((L2 (sylvester2 solve A B C D)).compl₁₂ (L1 C) (L1 C)).compr₂ (L1 B) + L2 D = 0 := by
    refine bil_ext fun a b => ?_
    funext i
    have := sylvester_fin solve hsolve (by norm_num)
      (fun i k => extFin (fun i => extFin fun a => extFin (D i a)) i (k / ns) (k % ns)) h i ![a, b]
    simp only [sum_arrow_succ, Fintype.sum_unique] at this
    simp only [LinearMap.add_apply, LinearMap.compr₂_apply, LinearMap.compl₁₂_apply, L1_single, L2_single,
      L1_apply, L2_apply, Pi.add_apply, LinearMap.zero_apply, Pi.zero_apply, c1, c2]
    rw [← this]
    have e : ∀ a b : Fin ns, tupleIndex 2 ![a, b] = a * ns + b := fun a b => by simp [tupleIndex]
    have e' : ∀ (a b : Fin ns) (l : Fin 0 → Fin ns), tupleIndex 2 (Fin.cons a (Fin.cons b l)) = a * ns + b :=
      fun a b l => by simp [tupleIndex]
    simp only [e, e', (div_mod_fin _ _).1, (div_mod_fin _ _).2, extFin_of_lt]
    simp [sylvester2, Fin.prod_univ_succ, mul_assoc]
  have := congrFun (congrArg DFunLike.coe (congrFun (congrArg DFunLike.coe key) u)) v
  exact this

theorem sylvester3_spec (solve : LinSolver K) (hsolve : solve.Correct)
    {A B : Fin nx → Fin nx → K} {C : Fin ns → Fin ns → K} (D : Fin nx → Fin ns → Fin ns → Fin ns → K)
    (h : ∀ X : Fin nx → (Fin 3 → Fin ns) → K,
      (∀ i j, ∑ k, A i k * X k j + ∑ k, B i k * ∑ l : Fin 3 → Fin ns, X k l * ∏ t, C (l t) (j t) = 0) → X = 0)
    (i : Fin nx) (a b c : Fin ns) :
    let X := sylvester3 solve A B C D
    ∑ k, A i k * X k a b c + ∑ k, B i k * (∑ a', ∑ b', ∑ c', X k a' b' c' * C a' a * C b' b * C c' c)
      + D i a b c = 0 := by
  intro X
  have := sylvester_fin solve hsolve (by norm_num)
    (fun i k => extFin (fun i => extFin fun a => extFin fun b => extFin (D i a b)) i (k / ns / ns) (k / ns % ns)
      (k % ns)) h i ![a, b, c]
  simp only [sum_arrow_succ, Fintype.sum_unique] at this
  rw [← this]
  have e : ∀ a b c : Fin ns, tupleIndex 3 ![a, b, c] = (a * ns + b) * ns + c := fun a b c => by simp [tupleIndex]
  have e' : ∀ (a b c : Fin ns) (l : Fin 0 → Fin ns),
      tupleIndex 3 (Fin.cons a (Fin.cons b (Fin.cons c l))) = (a * ns + b) * ns + c :=
    fun a b c l => by simp [tupleIndex]; rfl
  simp only [e, e', (div_mod_fin _ _).1, (div_mod_fin _ _).2, extFin_of_lt]
  simp [X, sylvester3, Fin.prod_univ_succ, mul_assoc]

end sylvester

end Dolo
